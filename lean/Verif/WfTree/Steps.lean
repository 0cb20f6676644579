import Verif.WfTree.Model
import Verif.WfTree.Dummy
import Verif.PTree.Spec
import Verif.Common.ListX
import Mathlib.Data.List.Nodup
/-
C53: the reductions of the code are the reductions of `Choice`, `Sequence`, `Conc`, `Loop` and `Dummy`; what they keep.
-/
set_option linter.unusedSectionVars false
namespace Verif.WfTree
open Classical
variable {α : Type}

/-- the net as a net with languages -/
def toA (N : WN α) : ANet α where
  T x := ∃ t ∈ N.trs, t.id = x
  pre x p := ∃ t ∈ N.trs, t.id = x ∧ p ∈ t.pre
  post x p := ∃ t ∈ N.trs, t.id = x ∧ p ∈ t.post
  L x w := ∃ t ∈ N.trs, t.id = x ∧ t.tree.lang w

theorem id_inj {N : WN α} (hn : (N.trs.map (·.id)).Nodup) {t t' : WT α} (h : t ∈ N.trs) (h' : t' ∈ N.trs) (e : t.id = t'.id) : t = t' :=
  List.inj_on_of_nodup_map hn h h' e

section
variable {N : WN α} (hn : (N.trs.map (·.id)).Nodup) {t : WT α} (ht : t ∈ N.trs)
include hn ht
theorem toA_T : (toA N).T t.id := ⟨t, ht, rfl⟩
theorem toA_pre (p : Nat) : (toA N).pre t.id p ↔ p ∈ t.pre :=
  ⟨fun ⟨_, h, e, hp⟩ => id_inj hn h ht e ▸ hp, fun h => ⟨t, ht, rfl, h⟩⟩
theorem toA_post (p : Nat) : (toA N).post t.id p ↔ p ∈ t.post :=
  ⟨fun ⟨_, h, e, hp⟩ => id_inj hn h ht e ▸ hp, fun h => ⟨t, ht, rfl, h⟩⟩
theorem toA_L : (toA N).L t.id = t.tree.lang := by
  funext w
  exact propext ⟨fun ⟨_, h, e, hp⟩ => id_inj hn h ht e ▸ hp, fun h => ⟨t, ht, rfl, h⟩⟩
end

/-- the only transition that produces into the place -/
def OnlyProd (N : WN α) (p : Nat) (t : WT α) : Prop := p ∈ t.post ∧ ∀ x ∈ N.trs, p ∈ x.post → x = t
def OnlyCons (N : WN α) (p : Nat) (t : WT α) : Prop := p ∈ t.pre ∧ ∀ x ∈ N.trs, p ∈ x.pre → x = t

theorem len_le_one {β : Type} {l : List β} (h : l.length ≤ 1) {a b : β} (ha : a ∈ l) (hb : b ∈ l) : a = b := by
  match l, h with
  | [], _ => cases ha
  | [x], _ => simp at ha hb; rw [ha, hb]

theorem isIn_prods {N : WN α} (hn : (N.trs.map (·.id)).Nodup) {t : WT α} (ht : t ∈ N.trs) {p : Nat} : isIn t (N.prods p) = true ↔ p ∈ t.post := by
  simp only [isIn, WN.prods, List.any_eq_true, List.mem_filter, decide_eq_true_eq, beq_iff_eq]
  constructor
  · rintro ⟨x, ⟨h1, h2⟩, h3⟩
    rw [id_inj hn h1 ht h3] at h2; exact h2
  · intro h; exact ⟨t, ⟨ht, h⟩, rfl⟩

theorem isIn_conss {N : WN α} (hn : (N.trs.map (·.id)).Nodup) {t : WT α} (ht : t ∈ N.trs) {p : Nat} : isIn t (N.conss p) = true ↔ p ∈ t.pre := by
  simp only [isIn, WN.conss, List.any_eq_true, List.mem_filter, decide_eq_true_eq, beq_iff_eq]
  constructor
  · rintro ⟨x, ⟨h1, h2⟩, h3⟩
    rw [id_inj hn h1 ht h3] at h2; exact h2
  · intro h; exact ⟨t, ⟨ht, h⟩, rfl⟩

theorem onlyProd_of {N : WN α} (hn : (N.trs.map (·.id)).Nodup) {t : WT α} (ht : t ∈ N.trs) {p : Nat} (h1 : (N.prods p).length ≤ 1)
    (h2 : isIn t (N.prods p) = true) : OnlyProd N p t := by
  have h3 := (isIn_prods hn ht).1 h2
  refine ⟨h3, fun x hx hp => len_le_one h1 ?_ ?_⟩ <;> simp [WN.prods, *]

theorem onlyCons_of {N : WN α} (hn : (N.trs.map (·.id)).Nodup) {t : WT α} (ht : t ∈ N.trs) {p : Nat} (h1 : (N.conss p).length ≤ 1)
    (h2 : isIn t (N.conss p) = true) : OnlyCons N p t := by
  have h3 := (isIn_conss hn ht).1 h2
  refine ⟨h3, fun x hx hp => len_le_one h1 ?_ ?_⟩ <;> simp [WN.conss, *]

/-- reachable from `i` in the graph -/
inductive RP (N : WN α) (i : Nat) : Nat → Prop
  | base : RP N i i
  | step {t : WT α} {q p : Nat} : t ∈ N.trs → q ∈ t.pre → p ∈ t.post → RP N i q → RP N i p

theorem RP.inv {N : WN α} {i p : Nat} (h : RP N i p) : p = i ∨ ∃ t ∈ N.trs, p ∈ t.post ∧ ∃ q ∈ t.pre, RP N i q := by
  cases h with
  | base => exact .inl rfl
  | step h1 h2 h3 h4 => exact .inr ⟨_, h1, h3, _, h2, h4⟩

structure Inv (N : WN α) (i o : Nat) : Prop where
  nodup : (N.trs.map (·.id)).Nodup
  idlt : ∀ t ∈ N.trs, t.id < N.next
  plt : ∀ p ∈ N.places, p < N.next
  pnd : N.places.Nodup
  subPre : ∀ t ∈ N.trs, ∀ p ∈ t.pre, p ∈ N.places
  subPost : ∀ t ∈ N.trs, ∀ p ∈ t.post, p ∈ N.places
  nePre : ∀ t ∈ N.trs, t.pre ≠ []
  nePost : ∀ t ∈ N.trs, t.post ≠ []
  ip : i ∈ N.places
  op : o ∈ N.places
  iprod : ∀ t ∈ N.trs, i ∉ t.post
  ocons : ∀ t ∈ N.trs, o ∉ t.pre
  io : i ≠ o
  icons : ∃ t ∈ N.trs, i ∈ t.pre
  wf : ∀ t ∈ N.trs, PT.WF t.tree

def Good (N : WN α) (i : Nat) : Prop := ∀ p ∈ N.places, RP N i p

/-- a transition is never enabled because of the place `p`, and it stays a transition of its own -/
structure Bad (N : WN α) (i p : Nat) : Prop where
  pp : p ∈ N.places
  src : ∀ x ∈ N.trs, p ∉ x.post
  ex : ∃ t ∈ N.trs, p ∈ t.pre ∧ (∀ x ∈ N.trs, p ∈ x.pre → x = t) ∧ i ∉ t.pre ∧ ∃ q ∈ t.pre, ∃ x ∈ N.trs, q ∈ x.post

theorem Bad.not_single {N : WN α} {i o p : Nat} (h : Inv N i o) (hb : Bad N i p) : N.trs.length ≠ 1 := by
  intro h1
  obtain ⟨t, ht, _, _, hi, _⟩ := hb.ex
  obtain ⟨x, hx, hxi⟩ := h.icons
  have := len_le_one (by omega) hx ht
  rw [this] at hxi
  exact hi hxi

/-! ### Replacing two transitions -/

theorem mem_replace {N : WN α} {t1 t2 tn x : WT α} (h1 : t1 ∈ N.trs) (hne : t1.id ≠ t2.id) :
    x ∈ (N.replace t1 t2 tn).trs ↔ x = tn ∨ (x ∈ N.trs ∧ x.id ≠ t1.id ∧ x.id ≠ t2.id) := by
  simp only [WN.replace, List.mem_map, List.mem_filter, bne_iff_ne, ne_eq, beq_iff_eq]
  constructor
  · rintro ⟨y, ⟨h2, h3⟩, rfl⟩
    by_cases h : y.id = t1.id
    · simp [h]
    · rw [if_neg h]; exact .inr ⟨h2, h, h3⟩
  · rintro (rfl | ⟨h2, h3, h4⟩)
    · exact ⟨t1, ⟨h1, hne⟩, by simp⟩
    · exact ⟨x, ⟨h2, h4⟩, by simp [h3]⟩

theorem ids_replace {N : WN α} {t1 t2 tn : WT α} (hid : tn.id = t1.id) :
    (N.replace t1 t2 tn).trs.map (·.id) = (N.trs.map (·.id)).filter (· != t2.id) := by
  simp only [WN.replace, List.map_map, List.filter_map]
  have e : (fun t : WT α => t.id) ∘ (fun x => if (x.id == t1.id) = true then tn else x) = fun t => t.id := by
    funext x
    simp only [Function.comp]
    split
    · rename_i h; simp at h; rw [hid, h]
    · rfl
  rw [e]
  rfl

theorem replace_length {N : WN α} {t1 t2 tn : WT α} (hn : (N.trs.map (·.id)).Nodup) (h2 : t2 ∈ N.trs) :
    (N.replace t1 t2 tn).trs.length + 1 = N.trs.length := by
  simp only [WN.replace, List.length_map]
  have := List.length_eq_countP_add_countP (fun x : WT α => x.id != t2.id) (l := N.trs)
  rw [List.countP_eq_length_filter] at this
  have h3 : List.countP (fun x : WT α => decide ¬ (x.id != t2.id) = true) N.trs = 1 := by
    have : (List.countP (fun x : WT α => decide ¬ (x.id != t2.id) = true) N.trs) = (N.trs.map (·.id)).count t2.id := by
      rw [List.count, List.countP_map]
      congr 1
      funext x
      by_cases h : x.id = t2.id <;> simp [Function.comp, h]
    rw [this, List.count_eq_one_of_mem hn (List.mem_map_of_mem h2)]
  omega

section
variable {N : WN α} {i o : Nat} {t1 t2 : WT α}

theorem tA {N : WN α} (hn : (N.trs.map (·.id)).Nodup) {t t' : WT α} (h : t ∈ N.trs) (h' : t' ∈ N.trs) (hne : t ≠ t') : t.id ≠ t'.id :=
  fun e => hne (id_inj hn h h' e)

theorem choice_facts (h : choiceReq t1 t2 = true) : t1.id ≠ t2.id ∧ (∀ p, p ∈ t1.pre ↔ p ∈ t2.pre) ∧ ∀ p, p ∈ t1.post ↔ p ∈ t2.post := by
  simp only [choiceReq, sameSet, Bool.and_eq_true, bne_iff_ne, ne_eq, List.all_eq_true, decide_eq_true_eq] at h
  obtain ⟨⟨⟨⟨h1, h2, h3⟩, h4, h5⟩, _⟩, _⟩ := h
  exact ⟨h1, fun p => ⟨h2 p, h3 p⟩, fun p => ⟨h4 p, h5 p⟩⟩

/-- the parts of the invariant that all replacements keep -/
theorem inv_replace (I : Inv N i o) (h1 : t1 ∈ N.trs) (hne : t1.id ≠ t2.id) {tn : WT α} (hid : tn.id = t1.id)
    (sp : ∀ p ∈ tn.pre, p ∈ N.places) (sq : ∀ p ∈ tn.post, p ∈ N.places) (np : tn.pre ≠ []) (nq : tn.post ≠ [])
    (hi : i ∉ tn.post) (ho : o ∉ tn.pre) (hic : ∃ x ∈ (N.replace t1 t2 tn).trs, i ∈ x.pre) (hw : PT.WF tn.tree) : Inv (N.replace t1 t2 tn) i o := by
  have key : ∀ {P : WT α → Prop}, (∀ x ∈ N.trs, P x) → P tn → ∀ x ∈ (N.replace t1 t2 tn).trs, P x := by
    intro P ha hb x hx
    rcases (mem_replace h1 hne).1 hx with rfl | ⟨h, _⟩
    · exact hb
    · exact ha x h
  exact {
    nodup := by rw [ids_replace hid]; exact I.nodup.filter _
    idlt := key I.idlt (by rw [hid]; exact I.idlt t1 h1)
    plt := I.plt
    pnd := I.pnd
    subPre := key I.subPre sp
    subPost := key I.subPost sq
    nePre := key I.nePre np
    nePost := key I.nePost nq
    ip := I.ip
    op := I.op
    iprod := key I.iprod hi
    ocons := key I.ocons ho
    io := I.io
    icons := hic
    wf := key I.wf hw }

theorem wf_node (op : Op) (h1 : PT.WF t1.tree) (h2 : PT.WF t2.tree) : PT.WF (.node op [t1.tree, t2.tree]) := by
  refine .node _ _ (by simp) ?_
  intro c hc
  simp at hc
  rcases hc with rfl | rfl <;> assumption

end
end Verif.WfTree
