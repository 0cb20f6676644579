import Verif.WfTree.Steps
import Verif.WfTree.Choice
import Verif.WfTree.Sequence
import Verif.WfTree.Conc
import Verif.WfTree.Loop
/-
C53: each reduction keeps the language and the invariants.
-/
set_option linter.unusedSectionVars false
namespace Verif.WfTree
open Classical
variable {α : Type} {N : WN α} {i o : Nat} {t1 t2 tn : WT α}

/-- what all replacements have in common -/
structure Rep (N : WN α) (i o : Nat) (t1 t2 tn : WT α) : Prop where
  I : Inv N i o
  h1 : t1 ∈ N.trs
  h2 : t2 ∈ N.trs
  ne : t1.id ≠ t2.id
  hid : tn.id = t1.id
  I' : Inv (N.replace t1 t2 tn) i o

namespace Rep
variable (R : Rep N i o t1 t2 tn)
include R

theorem tn_mem : tn ∈ (N.replace t1 t2 tn).trs := (mem_replace R.h1 R.ne).2 (.inl rfl)

theorem oth_mem {x : WT α} (h : x ∈ N.trs) (a : x ≠ t1) (b : x ≠ t2) : x ∈ (N.replace t1 t2 tn).trs :=
  (mem_replace R.h1 R.ne).2 (.inr ⟨h, tA R.I.nodup h R.h1 a, tA R.I.nodup h R.h2 b⟩)

theorem mem_cases {x : WT α} (h : x ∈ (N.replace t1 t2 tn).trs) : x = tn ∨ (x ∈ N.trs ∧ x ≠ t1 ∧ x ≠ t2) := by
  rcases (mem_replace R.h1 R.ne).1 h with h | ⟨a, b, c⟩
  · exact .inl h
  · exact .inr ⟨a, fun e => b (by rw [e]), fun e => c (by rw [e])⟩

theorem ne' : t1 ≠ t2 := fun e => R.ne (by rw [e])

theorem T' (x : Nat) : (toA (N.replace t1 t2 tn)).T x ↔ (toA N).T x ∧ x ≠ t2.id := by
  constructor
  · rintro ⟨t, ht, rfl⟩
    rcases (mem_replace R.h1 R.ne).1 ht with rfl | ⟨a, b, c⟩
    · exact ⟨⟨t1, R.h1, R.hid.symm⟩, by rw [R.hid]; exact R.ne⟩
    · exact ⟨⟨t, a, rfl⟩, c⟩
  · rintro ⟨⟨t, ht, rfl⟩, h⟩
    by_cases e : t.id = t1.id
    · exact ⟨tn, R.tn_mem, by rw [R.hid, e]⟩
    · exact ⟨t, (mem_replace R.h1 R.ne).2 (.inr ⟨ht, e, h⟩), rfl⟩

theorem oth (P : WT α → Prop) (x : Nat) (a : x ≠ t1.id) (b : x ≠ t2.id) :
    (∃ t ∈ (N.replace t1 t2 tn).trs, t.id = x ∧ P t) ↔ ∃ t ∈ N.trs, t.id = x ∧ P t := by
  constructor
  · rintro ⟨t, ht, rfl, h⟩
    rcases (mem_replace R.h1 R.ne).1 ht with rfl | ⟨c, _, _⟩
    · exact absurd R.hid a
    · exact ⟨t, c, rfl, h⟩
  · rintro ⟨t, ht, rfl, h⟩
    exact ⟨t, (mem_replace R.h1 R.ne).2 (.inr ⟨ht, a, b⟩), rfl, h⟩

theorem preO (x : Nat) (a : x ≠ t1.id) (b : x ≠ t2.id) : (toA (N.replace t1 t2 tn)).pre x = (toA N).pre x := by
  funext p; exact propext (R.oth (fun t => p ∈ t.pre) x a b)
theorem postO (x : Nat) (a : x ≠ t1.id) (b : x ≠ t2.id) : (toA (N.replace t1 t2 tn)).post x = (toA N).post x := by
  funext p; exact propext (R.oth (fun t => p ∈ t.post) x a b)
theorem LO (x : Nat) (a : x ≠ t1.id) (b : x ≠ t2.id) : (toA (N.replace t1 t2 tn)).L x = (toA N).L x := by
  funext w; exact propext (R.oth (fun t => t.tree.lang w) x a b)

theorem preN (p : Nat) : (toA (N.replace t1 t2 tn)).pre t1.id p ↔ p ∈ tn.pre := by
  rw [← R.hid]; exact toA_pre R.I'.nodup R.tn_mem p
theorem postN (p : Nat) : (toA (N.replace t1 t2 tn)).post t1.id p ↔ p ∈ tn.post := by
  rw [← R.hid]; exact toA_post R.I'.nodup R.tn_mem p
theorem LN : (toA (N.replace t1 t2 tn)).L t1.id = tn.tree.lang := by
  rw [← R.hid]; exact toA_L R.I'.nodup R.tn_mem

theorem pre1 (p : Nat) : (toA N).pre t1.id p ↔ p ∈ t1.pre := toA_pre R.I.nodup R.h1 p
theorem pre2 (p : Nat) : (toA N).pre t2.id p ↔ p ∈ t2.pre := toA_pre R.I.nodup R.h2 p
theorem post1 (p : Nat) : (toA N).post t1.id p ↔ p ∈ t1.post := toA_post R.I.nodup R.h1 p
theorem post2 (p : Nat) : (toA N).post t2.id p ↔ p ∈ t2.post := toA_post R.I.nodup R.h2 p

/-- a bad place stays bad if its transition is not touched -/
theorem bad {t : WT α} {p : Nat} (hpp : p ∈ N.places) (src : ∀ x ∈ N.trs, p ∉ x.post) (ht : t ∈ N.trs) (hp : p ∈ t.pre)
    (hu : ∀ x ∈ N.trs, p ∈ x.pre → x = t) (hi : i ∉ t.pre) (n1 : t ≠ t1) (n2 : t ≠ t2) (np : p ∉ tn.pre) (nq : p ∉ tn.post)
    (hq : ∃ q ∈ t.pre, ∃ x ∈ (N.replace t1 t2 tn).trs, q ∈ x.post) : Bad (N.replace t1 t2 tn) i p := by
  refine ⟨hpp, ?_, t, R.oth_mem ht n1 n2, hp, ?_, hi, hq⟩
  · intro x hx
    rcases R.mem_cases hx with rfl | ⟨a, _⟩
    · exact nq
    · exact src x a
  · intro x hx hxp
    rcases R.mem_cases hx with rfl | ⟨a, _⟩
    · exact absurd hxp np
    · exact hu x a hxp

end Rep

/-! ### Choice -/

section
variable (I : Inv N i o) (h1 : t1 ∈ N.trs) (h2 : t2 ∈ N.trs) (h : choiceReq t1 t2 = true)
include I h1 h2 h

theorem choice_rep : Rep N i o t1 t2 (newTr .xor t1 t2 t1.pre t2.post) := by
  obtain ⟨ne, hp, hq⟩ := choice_facts h
  have ne' : t1 ≠ t2 := fun e => ne (by rw [e])
  refine ⟨I, h1, h2, ne, rfl, inv_replace I h1 ne rfl (I.subPre t1 h1) (I.subPost t2 h2) (I.nePre t1 h1) (I.nePost t2 h2) (I.iprod t2 h2)
    (I.ocons t1 h1) ?_ (wf_node _ (I.wf t1 h1) (I.wf t2 h2))⟩
  obtain ⟨x, hx, hxi⟩ := I.icons
  by_cases a : x = t1
  · exact ⟨_, (mem_replace h1 ne).2 (.inl rfl), by rw [a] at hxi; exact hxi⟩
  by_cases b : x = t2
  · exact ⟨_, (mem_replace h1 ne).2 (.inl rfl), by rw [b] at hxi; exact (hp i).2 hxi⟩
  exact ⟨x, (mem_replace h1 ne).2 (.inr ⟨hx, tA I.nodup hx h1 a, tA I.nodup hx h2 b⟩), hxi⟩

theorem choice_ok (G : Good N i) : Red (toA N) (toA (N.replace t1 t2 (newTr .xor t1 t2 t1.pre t2.post))) i o ∧
    Good (N.replace t1 t2 (newTr .xor t1 t2 t1.pre t2.post)) i := by
  obtain ⟨ne, hp, hq⟩ := choice_facts h
  have R := choice_rep I h1 h2 h
  refine ⟨choice_red (t1 := t1.id) (t2 := t2.id) ⟨ne, toA_T I.nodup h1, toA_T I.nodup h2, ?_, ?_, ?_, R.T', ?_, ?_⟩ (fun x a b => R.LO x a b) ?_, ?_⟩
  · funext p; exact propext ((R.pre1 p).trans ((hp p).trans (R.pre2 p).symm))
  · funext p; exact propext ((R.post1 p).trans ((hq p).trans (R.post2 p).symm))
  · obtain ⟨p, hp⟩ := List.exists_mem_of_ne_nil _ (I.nePre t1 h1)
    exact ⟨p, (R.pre1 p).2 hp⟩
  · intro x hx
    by_cases e : x = t1.id
    · subst e; funext p; exact propext ((R.preN p).trans (R.pre1 p).symm)
    · exact R.preO x e hx
  · intro x hx
    by_cases e : x = t1.id
    · subst e; funext p; exact propext ((R.postN p).trans ((hq p).symm.trans (R.post1 p).symm))
    · exact R.postO x e hx
  · intro w
    rw [R.LN, toA_L I.nodup h1, toA_L I.nodup h2]
    simp [newTr, PT.lang, PT.opLang, PT.langs, Lang.xorL]
  · intro p hpl
    have : ∀ p, RP N i p → RP (N.replace t1 t2 (newTr .xor t1 t2 t1.pre t2.post)) i p := by
      intro p hr
      induction hr with
      | base => exact .base
      | @step t q p ht hqt hpt _ ih =>
        by_cases a : t = t1
        · subst a; exact .step R.tn_mem hqt ((hq p).1 hpt) ih
        by_cases b : t = t2
        · subst b; exact .step R.tn_mem ((hp q).2 hqt) hpt ih
        exact .step (R.oth_mem ht a b) hqt hpt ih
    exact this p (G p hpl)

theorem choice_bad {p : Nat} (B : Bad N i p) : Bad (N.replace t1 t2 (newTr .xor t1 t2 t1.pre t2.post)) i p := by
  obtain ⟨ne, hp, hq⟩ := choice_facts h
  have R := choice_rep I h1 h2 h
  obtain ⟨t, ht, htp, hu, hi, q, hqt, x, hx, hxq⟩ := B.ex
  have n1 : p ∉ t1.pre := fun e => R.ne' ((hu t1 h1 e).trans (hu t2 h2 ((hp p).1 e)).symm)
  have n2 : p ∉ t2.pre := fun e => n1 ((hp p).2 e)
  refine R.bad B.pp B.src ht htp hu hi (fun e => n1 (e ▸ htp)) (fun e => n2 (e ▸ htp)) n1 (B.src t2 h2) ⟨q, hqt, ?_⟩
  by_cases a : x = t1
  · subst a; exact ⟨_, R.tn_mem, (hq q).1 hxq⟩
  by_cases b : x = t2
  · subst b; exact ⟨_, R.tn_mem, hxq⟩
  exact ⟨x, R.oth_mem hx a b, hxq⟩
end

/-! ### Sequence -/

theorem seq_facts (hn : (N.trs.map (·.id)).Nodup) (h1 : t1 ∈ N.trs) (h2 : t2 ∈ N.trs) (h : seqReq N t1 t2 = true) :
    t1.id ≠ t2.id ∧ (∀ p, p ∈ t1.post ↔ p ∈ t2.pre) ∧ (∀ p ∈ t1.post, OnlyProd N p t1 ∧ OnlyCons N p t2) := by
  simp only [seqReq, Bool.and_eq_true, bne_iff_ne, ne_eq, List.all_eq_true, beq_iff_eq] at h
  obtain ⟨⟨⟨a, _⟩, b⟩, c⟩ := h
  refine ⟨a, fun p => ⟨fun hp => ?_, fun hp => ?_⟩, fun p hp => ?_⟩
  · exact (isIn_conss hn h2).1 (b p hp).2
  · exact (isIn_prods hn h1).1 (c p hp).1.2
  · obtain ⟨⟨⟨b1, b2⟩, b3⟩, b4⟩ := b p hp
    exact ⟨onlyProd_of hn h1 (by omega) b3, onlyCons_of hn h2 (by omega) b4⟩

section
variable (I : Inv N i o) (h1 : t1 ∈ N.trs) (h2 : t2 ∈ N.trs) (h : seqReq N t1 t2 = true)
include I h1 h2 h

theorem seq_disj : (∀ p ∈ t1.post, p ∉ t1.pre) ∧ (∀ p ∈ t1.post, p ∉ t2.post) := by
  obtain ⟨ne, hm, hf⟩ := seq_facts I.nodup h1 h2 h
  exact ⟨fun p hp hq => ne (by rw [((hf p hp).2.2 t1 h1 hq)]), fun p hp hq => ne (by rw [((hf p hp).1.2 t2 h2 hq)])⟩

theorem seq_rep : Rep N i o t1 t2 (newTr .seq t1 t2 t1.pre t2.post) := by
  obtain ⟨ne, hm, hf⟩ := seq_facts I.nodup h1 h2 h
  refine ⟨I, h1, h2, ne, rfl, inv_replace I h1 ne rfl (I.subPre t1 h1) (I.subPost t2 h2) (I.nePre t1 h1) (I.nePost t2 h2) (I.iprod t2 h2)
    (I.ocons t1 h1) ?_ (wf_node _ (I.wf t1 h1) (I.wf t2 h2))⟩
  obtain ⟨x, hx, hxi⟩ := I.icons
  by_cases a : x = t1
  · exact ⟨_, (mem_replace h1 ne).2 (.inl rfl), by rw [a] at hxi; exact hxi⟩
  by_cases b : x = t2
  · subst b; exact absurd ((hm i).2 hxi) (I.iprod t1 h1)
  exact ⟨x, (mem_replace h1 ne).2 (.inr ⟨hx, tA I.nodup hx h1 a, tA I.nodup hx h2 b⟩), hxi⟩

/-- removing the places between the two transitions removes no arcs -/
theorem seq_trs : ((N.replace t1 t2 (newTr .seq t1 t2 t1.pre t2.post)).removePlaces t1.post).trs =
    (N.replace t1 t2 (newTr .seq t1 t2 t1.pre t2.post)).trs := by
  obtain ⟨ne, hm, hf⟩ := seq_facts I.nodup h1 h2 h
  obtain ⟨d1, d2⟩ := seq_disj I h1 h2 h
  have R := seq_rep I h1 h2 h
  simp only [WN.removePlaces]
  conv => rhs; rw [← List.map_id (N.replace t1 t2 (newTr .seq t1 t2 t1.pre t2.post)).trs]
  apply List.map_congr_left
  intro t ht
  have e1 : t.pre.filter (fun p => decide (p ∉ t1.post)) = t.pre := by
    rw [List.filter_eq_self]
    intro p hp
    rcases R.mem_cases ht with rfl | ⟨a, _, b⟩
    · simp; exact fun e => d1 p e hp
    · simp; exact fun e => b ((hf p e).2.2 t a hp)
  have e2 : t.post.filter (fun p => decide (p ∉ t1.post)) = t.post := by
    rw [List.filter_eq_self]
    intro p hp
    rcases R.mem_cases ht with rfl | ⟨a, b, _⟩
    · simp; exact fun e => d2 p e hp
    · simp; exact fun e => b ((hf p e).1.2 t a hp)
  cases t
  simp only [id] at *
  simp only [e1, e2]

theorem seq_inv : Inv ((N.replace t1 t2 (newTr .seq t1 t2 t1.pre t2.post)).removePlaces t1.post) i o := by
  have R := seq_rep I h1 h2 h
  have J := R.I'
  obtain ⟨ne, hm, hf⟩ := seq_facts I.nodup h1 h2 h
  obtain ⟨d1, d2⟩ := seq_disj I h1 h2 h
  have e := seq_trs I h1 h2 h
  refine ⟨by rw [e]; exact J.nodup, by rw [e]; exact J.idlt, ?_, J.pnd.filter _, ?_, ?_, by rw [e]; exact J.nePre, by rw [e]; exact J.nePost,
    ?_, ?_, by rw [e]; exact J.iprod, by rw [e]; exact J.ocons, J.io, by rw [e]; exact J.icons, by rw [e]; exact J.wf⟩
  · intro p hp; exact J.plt p (List.mem_filter.1 hp).1
  · rw [e]; intro t ht p hp
    refine List.mem_filter.2 ⟨J.subPre t ht p hp, ?_⟩
    rcases R.mem_cases ht with rfl | ⟨a, _, b⟩
    · simp; exact fun e => d1 p e hp
    · simp; exact fun e => b ((hf p e).2.2 t a hp)
  · rw [e]; intro t ht p hp
    refine List.mem_filter.2 ⟨J.subPost t ht p hp, ?_⟩
    rcases R.mem_cases ht with rfl | ⟨a, b, _⟩
    · simp; exact fun e => d2 p e hp
    · simp; exact fun e => b ((hf p e).1.2 t a hp)
  · exact List.mem_filter.2 ⟨J.ip, by simpa using I.iprod t1 h1⟩
  · refine List.mem_filter.2 ⟨J.op, ?_⟩
    simp; exact fun e => I.ocons t2 h2 ((hm o).1 e)

theorem toA_congr {N N' : WN α} (h : N.trs = N'.trs) : toA N = toA N' := by simp [toA, h]
theorem RP_congr {N N' : WN α} (h : N.trs = N'.trs) {i p : Nat} (hr : RP N i p) : RP N' i p := by
  induction hr with
  | base => exact .base
  | step a b c _ ih => exact .step (h ▸ a) b c ih

theorem seq_ok (G : Good N i) : Red (toA N) (toA ((N.replace t1 t2 (newTr .seq t1 t2 t1.pre t2.post)).removePlaces t1.post)) i o ∧
    Good ((N.replace t1 t2 (newTr .seq t1 t2 t1.pre t2.post)).removePlaces t1.post) i := by
  have R := seq_rep I h1 h2 h
  obtain ⟨ne, hm, hf⟩ := seq_facts I.nodup h1 h2 h
  obtain ⟨d1, d2⟩ := seq_disj I h1 h2 h
  have e := seq_trs I h1 h2 h
  rw [toA_congr I h1 h2 h e]
  refine ⟨seq_red (t1 := t1.id) (t2 := t2.id) ⟨ne, toA_T I.nodup h1, toA_T I.nodup h2, ?_, ?_, ?_, ?_, ?_, ?_, ?_, R.T', ?_, ?_, ?_⟩ (fun x a b => R.LO x a b) ?_, ?_⟩
  · funext p; exact propext ((R.post1 p).trans ((hm p).trans (R.pre2 p).symm))
  · obtain ⟨p, hp⟩ := List.exists_mem_of_ne_nil _ (I.nePre t1 h1)
    exact ⟨p, (R.pre1 p).2 hp⟩
  · obtain ⟨p, hp⟩ := List.exists_mem_of_ne_nil _ (I.nePost t1 h1)
    exact ⟨p, (R.post1 p).2 hp⟩
  · rintro p x hp _ ⟨t, ht, rfl, hpt⟩
    rw [(hf p ((R.post1 p).1 hp)).1.2 t ht hpt]
  · rintro p x hp _ ⟨t, ht, rfl, hpt⟩
    rw [(hf p ((R.post1 p).1 hp)).2.2 t ht hpt]
  · rw [R.post1]; exact I.iprod t1 h1
  · rw [R.post1, hm]; exact I.ocons t2 h2
  · intro x hx
    by_cases e : x = t1.id
    · subst e; funext p; exact propext ((R.preN p).trans (R.pre1 p).symm)
    · exact R.preO x e hx
  · funext p; exact propext ((R.postN p).trans (R.post2 p).symm)
  · exact R.postO
  · rw [R.LN, toA_L I.nodup h1, toA_L I.nodup h2]
    simp [newTr, PT.lang, PT.opLang, PT.langs]
  · intro p hpl
    have key : ∀ p, RP N i p → (p ∉ t1.post → RP (N.replace t1 t2 (newTr .seq t1 t2 t1.pre t2.post)) i p) ∧
        (p ∈ t1.post → ∃ q ∈ t1.pre, RP (N.replace t1 t2 (newTr .seq t1 t2 t1.pre t2.post)) i q) := by
      intro p hr
      induction hr with
      | base => exact ⟨fun _ => .base, fun e => absurd e (I.iprod t1 h1)⟩
      | @step t q p ht hqt hpt _ ih =>
        by_cases a : t = t1
        · subst a
          exact ⟨fun e => absurd hpt e, fun _ => ⟨q, hqt, ih.1 fun e => d1 q e hqt⟩⟩
        by_cases b : t = t2
        · subst b
          obtain ⟨q', hq', hr'⟩ := ih.2 ((hm q).2 hqt)
          exact ⟨fun _ => .step R.tn_mem hq' hpt hr', fun e => absurd hpt (d2 p e)⟩
        exact ⟨fun _ => .step (R.oth_mem ht a b) hqt hpt (ih.1 fun e => b ((hf q e).2.2 t ht hqt)), fun e => absurd ((hf p e).1.2 t ht hpt) a⟩
    obtain ⟨a, b⟩ := List.mem_filter.1 hpl
    exact RP_congr I h1 h2 h e.symm ((key p (G p a)).1 (by simpa using b))

theorem seq_bad {p : Nat} (B : Bad N i p) : Bad ((N.replace t1 t2 (newTr .seq t1 t2 t1.pre t2.post)).removePlaces t1.post) i p := by
  have R := seq_rep I h1 h2 h
  obtain ⟨ne, hm, hf⟩ := seq_facts I.nodup h1 h2 h
  obtain ⟨d1, d2⟩ := seq_disj I h1 h2 h
  have e := seq_trs I h1 h2 h
  obtain ⟨t, ht, htp, hu, hi, q, hqt, x, hx, hxq⟩ := B.ex
  have nb : t ≠ t2 := fun e => B.src t1 h1 ((hm p).2 (e ▸ htp))
  have nx : x ≠ t1 := fun e => nb ((hf q (e ▸ hxq)).2.2 t ht hqt)
  have hx' : ∃ x ∈ (N.replace t1 t2 (newTr .seq t1 t2 t1.pre t2.post)).trs, q ∈ x.post := by
    by_cases b : x = t2
    · subst b; exact ⟨_, R.tn_mem, hxq⟩
    exact ⟨x, R.oth_mem hx nx b, hxq⟩
  have B' : Bad (N.replace t1 t2 (newTr .seq t1 t2 t1.pre t2.post)) i p := by
    by_cases a : t = t1
    · subst a
      refine ⟨B.pp, ?_, _, R.tn_mem, htp, ?_, hi, q, hqt, hx'⟩
      · intro y hy
        rcases R.mem_cases hy with rfl | ⟨c, _⟩
        · exact B.src t2 h2
        · exact B.src y c
      · intro y hy hyp
        rcases R.mem_cases hy with rfl | ⟨c, d, _⟩
        · rfl
        · exact absurd (hu y c hyp) d
    · exact R.bad B.pp B.src ht htp hu hi a nb (fun e => a (hu t1 h1 e).symm) (B.src t2 h2) ⟨q, hqt, hx'⟩
  refine ⟨List.mem_filter.2 ⟨B'.pp, by simpa using B.src t1 h1⟩, by rw [e]; exact B'.src, by rw [e]; exact B'.ex⟩
end

/-! ### Concurrency -/

theorem conc_facts (hn : (N.trs.map (·.id)).Nodup) (h1 : t1 ∈ N.trs) (h2 : t2 ∈ N.trs) (h : concReq N t1 t2 = true) :
    t1.id ≠ t2.id ∧ (∀ t, t = t1 ∨ t = t2 → (∀ p ∈ t.pre, OnlyCons N p t) ∧ ∀ p ∈ t.post, OnlyProd N p t) ∧
    (∀ p ∈ t1.pre ++ t2.pre, ∀ q ∈ t1.pre ++ t2.pre, ∀ x ∈ N.trs, q ∈ x.post → p ∈ x.post) ∧
    (∀ p ∈ t1.post ++ t2.post, ∀ q ∈ t1.post ++ t2.post, ∀ x ∈ N.trs, q ∈ x.pre → p ∈ x.pre) := by
  simp only [concReq, Bool.and_eq_true, bne_iff_ne, ne_eq, List.all_eq_true, decide_eq_true_eq] at h
  obtain ⟨⟨⟨⟨⟨⟨⟨a, _⟩, b1⟩, b2⟩, b3⟩, b4⟩, b5⟩, b6⟩ := h
  refine ⟨a, ?_, ?_, ?_⟩
  · rintro t (rfl | rfl)
    · exact ⟨fun p hp => onlyCons_of hn h1 (b1 p hp).1 (b1 p hp).2, fun p hp => onlyProd_of hn h1 (b2 p hp).1 (b2 p hp).2⟩
    · exact ⟨fun p hp => onlyCons_of hn h2 (b3 p hp).1 (b3 p hp).2, fun p hp => onlyProd_of hn h2 (b4 p hp).1 (b4 p hp).2⟩
  · intro p hp q hq x hx hxq
    exact (isIn_prods hn hx).1 (b5 p hp x (List.mem_flatMap.2 ⟨q, hq, by simp [WN.prods, hx, hxq]⟩))
  · intro p hp q hq x hx hxq
    exact (isIn_conss hn hx).1 (b6 p hp x (List.mem_flatMap.2 ⟨q, hq, by simp [WN.conss, hx, hxq]⟩))

section
variable (I : Inv N i o) (h1 : t1 ∈ N.trs) (h2 : t2 ∈ N.trs) (h : concReq N t1 t2 = true)
include I h1 h2 h

theorem conc_rep : Rep N i o t1 t2 (newTr .par t1 t2 (t1.pre ++ t2.pre) (t1.post ++ t2.post)) := by
  obtain ⟨ne, hu, hs, hc⟩ := conc_facts I.nodup h1 h2 h
  refine ⟨I, h1, h2, ne, rfl, inv_replace I h1 ne rfl ?_ ?_ ?_ ?_ ?_ ?_ ?_ (wf_node _ (I.wf t1 h1) (I.wf t2 h2))⟩
  · intro p hp
    rcases List.mem_append.1 hp with hp | hp
    · exact I.subPre t1 h1 p hp
    · exact I.subPre t2 h2 p hp
  · intro p hp
    rcases List.mem_append.1 hp with hp | hp
    · exact I.subPost t1 h1 p hp
    · exact I.subPost t2 h2 p hp
  · simp [newTr, I.nePre t1 h1]
  · simp [newTr, I.nePost t1 h1]
  · simp [newTr, I.iprod t1 h1, I.iprod t2 h2]
  · simp [newTr, I.ocons t1 h1, I.ocons t2 h2]
  obtain ⟨x, hx, hxi⟩ := I.icons
  by_cases a : x = t1
  · exact ⟨_, (mem_replace h1 ne).2 (.inl rfl), by rw [a] at hxi; simp [newTr, hxi]⟩
  by_cases b : x = t2
  · exact ⟨_, (mem_replace h1 ne).2 (.inl rfl), by rw [b] at hxi; simp [newTr, hxi]⟩
  exact ⟨x, (mem_replace h1 ne).2 (.inr ⟨hx, tA I.nodup hx h1 a, tA I.nodup hx h2 b⟩), hxi⟩

/-- the initial place is not an input of the two transitions -/
theorem conc_i (G : Good N i) : i ∉ t1.pre ++ t2.pre := by
  obtain ⟨ne, hu, hs, hc⟩ := conc_facts I.nodup h1 h2 h
  have R := conc_rep I h1 h2 h
  intro hi
  have noprod : ∀ q ∈ t1.pre ++ t2.pre, q = i := by
    intro q hq
    have hqp : q ∈ N.places := by
      rcases List.mem_append.1 hq with hq | hq
      · exact I.subPre t1 h1 q hq
      · exact I.subPre t2 h2 q hq
    rcases (G q hqp).inv with e | ⟨x, hx, hxq, _⟩
    · exact e
    · exact absurd (hs i hi q hq x hx hxq) (I.iprod x hx)
  obtain ⟨p, hp⟩ := List.exists_mem_of_ne_nil _ (I.nePre t1 h1)
  obtain ⟨q, hq⟩ := List.exists_mem_of_ne_nil _ (I.nePre t2 h2)
  have e1 := noprod p (by simp [hp])
  have e2 := noprod q (by simp [hq])
  rw [e1] at hp; rw [e2] at hq
  exact R.ne' (((hu t1 (.inl rfl)).1 i hp).2 t2 h2 hq).symm

theorem conc_ok (G : Good N i) : Red (toA N) (toA (N.replace t1 t2 (newTr .par t1 t2 (t1.pre ++ t2.pre) (t1.post ++ t2.post)))) i o ∧
    Good (N.replace t1 t2 (newTr .par t1 t2 (t1.pre ++ t2.pre) (t1.post ++ t2.post))) i := by
  obtain ⟨ne, hu, hs, hc⟩ := conc_facts I.nodup h1 h2 h
  have R := conc_rep I h1 h2 h
  have hi := conc_i I h1 h2 h G
  let cc : Bool → WT α := fun b => if b then t2 else t1
  have hcc : ∀ b, (if b then t2.id else t1.id) = (cc b).id := by intro b; cases b <;> rfl
  have hm : ∀ b, cc b ∈ N.trs := by intro b; cases b <;> assumption
  have ho : ∀ b, cc b = t1 ∨ cc b = t2 := by intro b; cases b <;> simp [cc]
  have pa : ∀ b p, p ∈ (cc b).pre → p ∈ t1.pre ++ t2.pre := by intro b p hp; cases b <;> simp_all [cc]
  have qa : ∀ b p, p ∈ (cc b).post → p ∈ t1.post ++ t2.post := by intro b p hp; cases b <;> simp_all [cc]
  have pre : ∀ b p, (toA N).pre (if b then t2.id else t1.id) p ↔ p ∈ (cc b).pre := by intro b p; rw [hcc]; exact toA_pre I.nodup (hm b) p
  have post : ∀ b p, (toA N).post (if b then t2.id else t1.id) p ↔ p ∈ (cc b).post := by intro b p; rw [hcc]; exact toA_post I.nodup (hm b) p
  refine ⟨conc_red (ch := fun b => if b then t2.id else t1.id) ⟨?_, ?_, ?_, ?_, ?_, ?_, ?_, ?_, ?_, R.T', ?_, ?_, R.preO, R.postO⟩ (fun x a b => R.LO x a b) ?_, ?_⟩
  · intro b; cases b
    · exact ne
    · exact fun e => ne e.symm
  · intro b; show (toA N).T (if b then t2.id else t1.id); rw [hcc]; exact toA_T I.nodup (hm b)
  · intro b
    obtain ⟨p, hp⟩ := List.exists_mem_of_ne_nil _ (I.nePre _ (hm b))
    exact ⟨p, (pre b p).2 hp⟩
  · intro b
    obtain ⟨p, hp⟩ := List.exists_mem_of_ne_nil _ (I.nePost _ (hm b))
    exact ⟨p, (post b p).2 hp⟩
  · rintro b p x hp _ ⟨t, ht, rfl, hpt⟩
    rw [((hu _ (ho b)).1 p ((pre b p).1 hp)).2 t ht hpt]; exact (hcc b).symm
  · rintro b p x hp _ ⟨t, ht, rfl, hpt⟩
    rw [((hu _ (ho b)).2 p ((post b p).1 hp)).2 t ht hpt]; exact (hcc b).symm
  · rintro b b' p q x hp hq _ ⟨t, ht, rfl, hpt⟩
    exact (toA_post I.nodup ht q).2 (hs q (pa b' q ((pre b' q).1 hq)) p (pa b p ((pre b p).1 hp)) t ht hpt)
  · rintro b b' p q x hp hq _ ⟨t, ht, rfl, hpt⟩
    exact (toA_pre I.nodup ht q).2 (hc q (qa b' q ((post b' q).1 hq)) p (qa b p ((post b p).1 hp)) t ht hpt)
  · intro b e; exact hi (pa b i ((pre b i).1 e))
  · intro p
    refine (R.preN p).trans ?_
    show p ∈ t1.pre ++ t2.pre ↔ _
    rw [List.mem_append]
    constructor
    · rintro (e | e)
      · exact ⟨false, (pre false p).2 e⟩
      · exact ⟨true, (pre true p).2 e⟩
    · rintro ⟨b, e⟩
      rw [pre] at e
      cases b
      · exact .inl e
      · exact .inr e
  · intro p
    refine (R.postN p).trans ?_
    show p ∈ t1.post ++ t2.post ↔ _
    rw [List.mem_append]
    constructor
    · rintro (e | e)
      · exact ⟨false, (post false p).2 e⟩
      · exact ⟨true, (post true p).2 e⟩
    · rintro ⟨b, e⟩
      rw [post] at e
      cases b
      · exact .inl e
      · exact .inr e
  · show (toA _).L t1.id = Lang.parL [(toA N).L t1.id, (toA N).L t2.id]
    rw [R.LN, toA_L I.nodup h1, toA_L I.nodup h2]
    simp [newTr, PT.lang, PT.opLang, PT.langs]
  · intro p hpl
    have : ∀ p, RP N i p → RP (N.replace t1 t2 (newTr .par t1 t2 (t1.pre ++ t2.pre) (t1.post ++ t2.post))) i p := by
      intro p hr
      induction hr with
      | base => exact .base
      | @step t q p ht hqt hpt _ ih =>
        by_cases a : t = t1
        · subst a; exact .step R.tn_mem (List.mem_append_left _ hqt) (List.mem_append_left _ hpt) ih
        by_cases b : t = t2
        · subst b; exact .step R.tn_mem (List.mem_append_right _ hqt) (List.mem_append_right _ hpt) ih
        exact .step (R.oth_mem ht a b) hqt hpt ih
    exact this p (G p hpl)

theorem conc_bad {p : Nat} (B : Bad N i p) : Bad (N.replace t1 t2 (newTr .par t1 t2 (t1.pre ++ t2.pre) (t1.post ++ t2.post))) i p := by
  obtain ⟨ne, hu, hs, hc⟩ := conc_facts I.nodup h1 h2 h
  have R := conc_rep I h1 h2 h
  obtain ⟨t, ht, htp, hun, hi, q, hqt, x, hx, hxq⟩ := B.ex
  have n1 : t ≠ t1 := by
    rintro rfl
    exact B.src x hx (hs p (List.mem_append_left _ htp) q (List.mem_append_left _ hqt) x hx hxq)
  have n2 : t ≠ t2 := by
    rintro rfl
    exact B.src x hx (hs p (List.mem_append_right _ htp) q (List.mem_append_right _ hqt) x hx hxq)
  refine R.bad B.pp B.src ht htp hun hi n1 n2 ?_ ?_ ⟨q, hqt, ?_⟩
  · intro e
    rcases List.mem_append.1 e with e | e
    · exact n1 (hun t1 h1 e).symm
    · exact n2 (hun t2 h2 e).symm
  · intro e
    rcases List.mem_append.1 e with e | e
    · exact B.src t1 h1 e
    · exact B.src t2 h2 e
  by_cases a : x = t1
  · subst a; exact ⟨_, R.tn_mem, List.mem_append_left _ hxq⟩
  by_cases b : x = t2
  · subst b; exact ⟨_, R.tn_mem, List.mem_append_right _ hxq⟩
  exact ⟨x, R.oth_mem hx a b, hxq⟩
end

/-! ### Loop -/

theorem loop_facts (hn : (N.trs.map (·.id)).Nodup) (h1 : t1 ∈ N.trs) (h2 : t2 ∈ N.trs) (h : loopReq N t1 t2 = true) :
    t1.id ≠ t2.id ∧ (∀ p, p ∈ t1.pre ↔ p ∈ t2.post) ∧ (∀ p, p ∈ t1.post ↔ p ∈ t2.pre) ∧ (∀ p ∈ t1.pre, OnlyCons N p t1) ∧
      ∀ p ∈ t1.post, OnlyProd N p t1 := by
  simp only [loopReq, Bool.and_eq_true, bne_iff_ne, ne_eq, List.all_eq_true, beq_iff_eq] at h
  obtain ⟨⟨⟨⟨a, b⟩, c⟩, d⟩, e⟩ := h
  refine ⟨a, fun p => ⟨fun hp => ?_, fun hp => ?_⟩, fun p => ⟨fun hp => ?_, fun hp => ?_⟩, fun p hp => ?_, fun p hp => ?_⟩
  · exact (isIn_prods hn h2).1 (d p hp).2
  · exact (isIn_conss hn h1).1 (c p hp).2
  · exact (isIn_conss hn h2).1 (e p hp).2
  · exact (isIn_prods hn h1).1 (b p hp).2
  · exact onlyCons_of hn h1 (by have := (d p hp).1.1; omega) (d p hp).1.2
  · exact onlyProd_of hn h1 (by have := (e p hp).1.1; omega) (e p hp).1.2

section
variable (I : Inv N i o) (h1 : t1 ∈ N.trs) (h2 : t2 ∈ N.trs) (h : loopReq N t1 t2 = true)
include I h1 h2 h

theorem loop_rep : Rep N i o t1 t2 (newTr .loop t1 t2 t1.pre t1.post) := by
  obtain ⟨ne, ha, hb, hc, hd⟩ := loop_facts I.nodup h1 h2 h
  refine ⟨I, h1, h2, ne, rfl, inv_replace I h1 ne rfl (I.subPre t1 h1) (I.subPost t1 h1) (I.nePre t1 h1) (I.nePost t1 h1) (I.iprod t1 h1)
    (I.ocons t1 h1) ?_ (wf_node _ (I.wf t1 h1) (I.wf t2 h2))⟩
  obtain ⟨x, hx, hxi⟩ := I.icons
  by_cases a : x = t1
  · exact ⟨_, (mem_replace h1 ne).2 (.inl rfl), by rw [a] at hxi; exact hxi⟩
  by_cases b : x = t2
  · subst b; exact absurd ((hb i).2 hxi) (I.iprod t1 h1)
  exact ⟨x, (mem_replace h1 ne).2 (.inr ⟨hx, tA I.nodup hx h1 a, tA I.nodup hx h2 b⟩), hxi⟩

theorem loop_disj (p : Nat) (hp : p ∈ t1.pre) : p ∉ t1.post := by
  obtain ⟨ne, ha, hb, hc, hd⟩ := loop_facts I.nodup h1 h2 h
  exact fun hq => ne (by rw [(hd p hq).2 t2 h2 ((ha p).1 hp)])

theorem loop_good (G : Good N i) : Good (N.replace t1 t2 (newTr .loop t1 t2 t1.pre t1.post)) i ∨
    ∃ p, Bad (N.replace t1 t2 (newTr .loop t1 t2 t1.pre t1.post)) i p := by
  obtain ⟨ne, ha, hb, hc, hd⟩ := loop_facts I.nodup h1 h2 h
  have dj := loop_disj I h1 h2 h
  have R := loop_rep I h1 h2 h
  have iA : i ∉ t1.pre := fun e => I.iprod t2 h2 ((ha i).1 e)
  have key : ∀ p, RP N i p → (p ∉ t1.pre → RP (N.replace t1 t2 (newTr .loop t1 t2 t1.pre t1.post)) i p) ∧
      (p ∈ t1.pre → ∃ q ∈ t1.pre, RP (N.replace t1 t2 (newTr .loop t1 t2 t1.pre t1.post)) i q) := by
    intro p hr
    induction hr with
    | base => exact ⟨fun _ => .base, fun e => absurd e iA⟩
    | @step t q p ht hqt hpt _ ih =>
      by_cases a : t = t1
      · subst a
        obtain ⟨q', hq', hr'⟩ := ih.2 hqt
        exact ⟨fun _ => .step R.tn_mem hq' hpt hr', fun e => absurd hpt (dj p e)⟩
      by_cases b : t = t2
      · subst b
        have hqB : q ∈ t1.post := (hb q).2 hqt
        have hr' := ih.1 fun e => dj q e hqB
        refine ⟨fun e => absurd ((ha p).2 hpt) e, fun _ => ?_⟩
        rcases hr'.inv with e | ⟨x, hx, hxq, q', hq', hr2⟩
        · rw [e] at hqB; exact absurd hqB (I.iprod t1 h1)
        · rcases R.mem_cases hx with rfl | ⟨c, d, _⟩
          · exact ⟨q', hq', hr2⟩
          · exact absurd ((hd q hqB).2 x c hxq) d
      have hr' := ih.1 fun e => a ((hc q e).2 t ht hqt)
      have hr2 : RP (N.replace t1 t2 (newTr .loop t1 t2 t1.pre t1.post)) i p := .step (R.oth_mem ht a b) hqt hpt hr'
      exact ⟨fun _ => hr2, fun e => ⟨p, e, hr2⟩⟩
  by_cases hall : ∀ a ∈ t1.pre, ∃ x ∈ N.trs, x ≠ t2 ∧ a ∈ x.post
  · refine .inl fun p hp => ?_
    by_cases hpA : p ∈ t1.pre
    · obtain ⟨x, hx, hx2, hxp⟩ := hall p hpA
      have hx1 : x ≠ t1 := fun e => dj p hpA (e ▸ hxp)
      obtain ⟨q, hq⟩ := List.exists_mem_of_ne_nil _ (I.nePre x hx)
      have hqA : q ∉ t1.pre := fun e => hx1 ((hc q e).2 x hx hq)
      exact .step (R.oth_mem hx hx1 hx2) hq hxp ((key q (G q (I.subPre x hx q hq))).1 hqA)
    · exact (key p (G p hp)).1 hpA
  · simp only [Classical.not_forall, not_exists, not_and] at hall
    obtain ⟨a, haA, hno⟩ := hall
    refine .inr ⟨a, I.subPre t1 h1 a haA, ?_, _, R.tn_mem, haA, ?_, iA, ?_⟩
    · intro x hx hxa
      rcases R.mem_cases hx with rfl | ⟨c, _, d⟩
      · exact dj a haA hxa
      · exact hno x c d hxa
    · intro x hx hxa
      rcases R.mem_cases hx with rfl | ⟨c, d, _⟩
      · rfl
      · exact absurd ((hc a haA).2 x c hxa) d
    · obtain ⟨q, hq, hr⟩ := (key a (G a (I.subPre t1 h1 a haA))).2 haA
      rcases hr.inv with e | ⟨x, hx, hxq, _⟩
      · rw [e] at hq; exact absurd hq iA
      · exact ⟨q, hq, x, hx, hxq⟩

theorem loop_ok : Red (toA N) (toA (N.replace t1 t2 (newTr .loop t1 t2 t1.pre t1.post))) i o := by
  obtain ⟨ne, ha, hb, hc, hd⟩ := loop_facts I.nodup h1 h2 h
  have R := loop_rep I h1 h2 h
  refine loop_red (t1 := t1.id) (t2 := t2.id) ⟨ne, toA_T I.nodup h1, toA_T I.nodup h2, ?_, ?_, ?_, ?_, ?_, ?_, ?_, ?_, ?_, R.T', ?_, ?_⟩
    (fun x a b => R.LO x a b) ?_
  · funext p; exact propext ((R.pre1 p).trans ((ha p).trans (R.post2 p).symm))
  · funext p; exact propext ((R.post1 p).trans ((hb p).trans (R.pre2 p).symm))
  · obtain ⟨p, hp⟩ := List.exists_mem_of_ne_nil _ (I.nePre t1 h1)
    exact ⟨p, (R.pre1 p).2 hp⟩
  · obtain ⟨p, hp⟩ := List.exists_mem_of_ne_nil _ (I.nePost t1 h1)
    exact ⟨p, (R.post1 p).2 hp⟩
  · rintro p x hp _ ⟨t, ht, rfl, hpt⟩
    rw [(hc p ((R.pre1 p).1 hp)).2 t ht hpt]
  · rintro p x hp _ ⟨t, ht, rfl, hpt⟩
    rw [(hd p ((R.post1 p).1 hp)).2 t ht hpt]
  · rw [R.post1]; exact I.iprod t1 h1
  · rw [R.pre1]; exact I.ocons t1 h1
  · rw [R.post1, hb]; exact I.ocons t2 h2
  · intro x hx
    by_cases e : x = t1.id
    · subst e; funext p; exact propext ((R.preN p).trans (R.pre1 p).symm)
    · exact R.preO x e hx
  · intro x hx
    by_cases e : x = t1.id
    · subst e; funext p; exact propext ((R.postN p).trans (R.post1 p).symm)
    · exact R.postO x e hx
  · rw [R.LN, toA_L I.nodup h1, toA_L I.nodup h2]
    simp [newTr, PT.lang, PT.opLang, PT.langs]

theorem loop_bad {p : Nat} (B : Bad N i p) : Bad (N.replace t1 t2 (newTr .loop t1 t2 t1.pre t1.post)) i p := by
  obtain ⟨ne, ha, hb, hc, hd⟩ := loop_facts I.nodup h1 h2 h
  have R := loop_rep I h1 h2 h
  obtain ⟨t, ht, htp, hu, hi, q, hqt, x, hx, hxq⟩ := B.ex
  have n1 : p ∉ t1.pre := fun e => B.src t2 h2 ((ha p).1 e)
  have n2 : p ∉ t2.pre := fun e => B.src t1 h1 ((hb p).2 e)
  have m1 : t ≠ t1 := fun e => n1 (e ▸ htp)
  refine R.bad B.pp B.src ht htp hu hi m1 (fun e => n2 (e ▸ htp)) n1 (B.src t1 h1) ⟨q, hqt, ?_⟩
  by_cases a : x = t1
  · subst a; exact ⟨_, R.tn_mem, hxq⟩
  by_cases b : x = t2
  · subst b; exact absurd ((hc q ((ha q).2 hxq)).2 t ht hqt) m1
  exact ⟨x, R.oth_mem hx a b, hxq⟩
end
end Verif.WfTree
