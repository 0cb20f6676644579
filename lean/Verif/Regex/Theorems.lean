import Verif.Regex.Proofs
import Verif.PTree.Spec
import Verif.TreeRed.Red
set_option linter.unusedSectionVars false
/-
Property theorems C56: conversion of process trees to regular expressions.
-/
namespace Verif
namespace Regex
open Lang
variable {α : Type} [DecidableEq α]

/-- trees for which the pattern is right: sequences, choices with a child, and loops of two children whose first is not a silent leaf -/
inductive Good : PT α → Prop
  | leaf (l : Option α) : Good (.leaf l)
  | seq (cs : List (PT α)) : (∀ c ∈ cs, Good c) → Good (.node .seq cs)
  | xor (cs : List (PT α)) : cs ≠ [] → (∀ c ∈ cs, Good c) → Good (.node .xor cs)
  | loop (d r : PT α) : d ≠ .leaf none → Good d → Good r → Good (.node .loop [d, r])

/-- the words of a language, with every activity replaced by its character -/
def img (f : α → Nat) (L : Lang α) : Lang Nat := fun u => ∃ w, L w ∧ u = w.map f

theorem img_cat (f : α → Nat) (L M : Lang α) (u : List Nat) : Lang.cat (img f L) (img f M) u ↔ img f (Lang.cat L M) u := by
  constructor
  · rintro ⟨_, _, ⟨a, ha, rfl⟩, ⟨b, hb, rfl⟩, rfl⟩; exact ⟨a ++ b, ⟨a, b, ha, hb, rfl⟩, by simp⟩
  · rintro ⟨_, ⟨a, b, ha, hb, rfl⟩, rfl⟩; exact ⟨_, _, ⟨a, ha, rfl⟩, ⟨b, hb, rfl⟩, by simp⟩

theorem img_eps (f : α → Nat) (u : List Nat) : Lang.eps u ↔ img f Lang.eps u := by
  constructor
  · intro h; exact ⟨[], rfl, h⟩
  · rintro ⟨w, h, rfl⟩; rw [show w = [] from h]; rfl

theorem img_seqL (f : α → Nat) (Ls : List (Lang α)) (u : List Nat) : seqL (Ls.map (img f)) u ↔ img f (seqL Ls) u := by
  induction Ls generalizing u with
  | nil => exact img_eps f u
  | cons L Ls ih =>
    show Lang.cat (img f L) (seqL (Ls.map (img f))) u ↔ img f (Lang.cat L (seqL Ls)) u
    rw [← img_cat]; exact cat_congr (fun _ => Iff.rfl) ih u

theorem img_xorL (f : α → Nat) (Ls : List (Lang α)) (u : List Nat) : xorL (Ls.map (img f)) u ↔ img f (xorL Ls) u := by
  constructor
  · rintro ⟨_, hM, h⟩
    obtain ⟨L, hL, rfl⟩ := List.mem_map.1 hM
    obtain ⟨w, hw, rfl⟩ := h
    exact ⟨w, ⟨L, hL, hw⟩, rfl⟩
  · rintro ⟨w, ⟨L, hL, hw⟩, rfl⟩
    exact ⟨_, List.mem_map.2 ⟨L, hL, rfl⟩, w, hw, rfl⟩

theorem Star.append {β : Type} {L : Lang β} {u v : List β} (h1 : Star L u) (h2 : Star L v) : Star L (u ++ v) := by
  induction h1 with
  | nil => exact h2
  | cons h _ ih => rw [List.append_assoc]; exact .cons h ih

/-- `(DR)*D` -/
theorem star_loop {β : Type} (D R : Lang β) (u : List β) : Lang.cat (Star (Lang.cat D R)) D u ↔ loopL D [R] u := by
  constructor
  · rintro ⟨v, d, hv, hd, rfl⟩
    induction hv with
    | nil => exact .exit hd
    | @cons x y hx _ ih =>
      obtain ⟨a, b, ha, hb, rfl⟩ := hx
      rw [List.append_assoc]
      exact .again R ha (by simp) hb ih
  · intro h
    induction h with
    | exit h => exact ⟨[], _, .nil, h, rfl⟩
    | @again d r w R' hd hR hr _ ih =>
      simp at hR; subst hR
      obtain ⟨v, x, hv, hx, rfl⟩ := ih
      exact ⟨d ++ r ++ v, x, .cons ⟨d, r, hd, hr, rfl⟩ hv, hx, by simp⟩

/-- `D+` -/
theorem plus_loop {β : Type} (D : Lang β) (u : List β) : Lang.cat D (Star D) u ↔ loopL D [Lang.eps] u := by
  constructor
  · rintro ⟨d, v, hd, hv, rfl⟩
    induction hv generalizing d with
    | nil => rw [List.append_nil]; exact .exit hd
    | @cons x y hx _ ih =>
      have := loopL.again (Rs := [Lang.eps]) Lang.eps hd (by simp) rfl (ih x hx)
      simpa using this
  · intro h
    induction h with
    | exit h => exact ⟨_, [], h, .nil, by simp⟩
    | @again d r w R' hd hR hr _ ih =>
      simp at hR; subst hR
      rw [show r = [] from hr]
      obtain ⟨x, v, hx, hv, rfl⟩ := ih
      exact ⟨d, x ++ v, hd, .cons hx hv, by simp⟩

theorem img_loop (f : α → Nat) (D R : Lang α) (u : List Nat) : loopL (img f D) [img f R] u ↔ img f (loopL D [R]) u := by
  constructor
  · intro h
    induction h with
    | exit h => obtain ⟨w, hw, rfl⟩ := h; exact ⟨w, .exit hw, rfl⟩
    | @again d r w R' hd hR hr _ ih =>
      simp at hR; subst hR
      obtain ⟨a, ha, rfl⟩ := hd
      obtain ⟨b, hb, rfl⟩ := hr
      obtain ⟨c, hc, rfl⟩ := ih
      exact ⟨a ++ b ++ c, .again R ha (by simp) hb hc, by simp⟩
  · rintro ⟨w, h, rfl⟩
    induction h with
    | exit h => exact .exit ⟨_, h, rfl⟩
    | @again d r w R' hd hR hr _ ih =>
      simp at hR; subst hR
      rw [List.map_append, List.map_append]
      exact .again (img f R') ⟨d, hd, rfl⟩ (by simp) ⟨r, hr, rfl⟩ ih

/-- the character of every label is that of the dictionary -/
def Agrees (f : α → Nat) (st : St α) : Prop := ∀ a c, (a, c) ∈ st.dict → f a = c

theorem Agrees.mono {f : α → Nat} {st st' : St α} {ls : List α} (h : Agrees f st') (he : Ext st st' ls) : Agrees f st := by
  obtain ⟨l, hl⟩ := he.ext
  exact fun a c hm => h a c (by rw [hl]; exact List.mem_append_left _ hm)

/-- the strings of the children that are not `None` denote the languages of the children that are no silent leaves -/
theorem repL_den {cs : List (PT α)} {f : α → Nat}
    (ih : ∀ c ∈ cs, ∀ st s st', Inv st → rep c st = some (some s, st') → Agrees f st' → Den s (img f c.lang)) :
    ∀ st os st', Inv st → repL cs st = some (os, st') → Agrees f st' →
      DenL (os.filterMap id) ((cs.filter fun c => !isTau c).map fun c => img f c.lang) := by
  induction cs with
  | nil =>
    intro st os st' hi h _
    simp only [repL, Option.some.injEq, Prod.mk.injEq] at h
    rw [← h.1]; exact .nil
  | cons c cs ihl =>
    intro st os st' hi h hf
    simp only [repL, Option.bind_eq_bind, Option.bind_eq_some_iff, pure, Option.some.injEq, Prod.mk.injEq, Prod.exists] at h
    obtain ⟨r, s1, h1, rs, s2, h2, rfl, rfl⟩ := h
    have e1 := rep_ext c st r s1 hi h1
    have e2 := repL_ext (fun d _ => rep_ext d) s1 rs s2 e1.inv h2
    have h3 := ihl (fun d hd => ih d (List.mem_cons_of_mem _ hd)) s1 rs s2 e1.inv h2 hf
    have h0 := rep_none_iff h1
    cases r with
    | none =>
      rw [h0.1 rfl]
      simpa [isTau] using h3
    | some s =>
      have ht : isTau c = false := by
        cases c with
        | leaf l => cases l with
          | none => have := h0.2 rfl; cases this
          | some a => rfl
        | node op ds => rfl
      simp only [List.filterMap_cons, id, List.filter_cons, ht, Bool.not_false, if_true, List.map_cons]
      exact .cons (ih c List.mem_cons_self st s s1 hi h1 (hf.mono e2)) h3

theorem seqL_taus (f : α → Nat) (cs : List (PT α)) (u : List Nat) :
    seqL ((cs.filter fun c => !isTau c).map fun c => img f c.lang) u ↔ img f (seqL (cs.map PT.lang)) u := by
  rw [← img_seqL]
  induction cs generalizing u with
  | nil => exact Iff.rfl
  | cons c cs ih =>
    by_cases h : isTau c
    · have hc : c = .leaf none := by
        cases c with
        | leaf l => cases l with
          | none => rfl
          | some a => simp [isTau] at h
        | node op ds => simp [isTau] at h
      simp only [List.filter_cons, h, Bool.not_true, Bool.false_eq_true, if_false]
      rw [ih, hc]
      show _ ↔ Lang.cat (img f (PT.lang (.leaf none))) (seqL ((cs.map PT.lang).map (img f))) u
      rw [PT.lang_tau, show img f Lang.eps = Lang.eps from funext fun u => propext (img_eps f u).symm, cat_eps_left]
    · simp only [List.filter_cons, h, Bool.not_false, if_true, List.map_cons]
      exact cat_congr (fun _ => Iff.rfl) ih u

theorem isTau_iff (c : PT α) : isTau c = true ↔ c = .leaf none := by
  cases c with
  | leaf l => cases l <;> simp [isTau]
  | node op ds => simp [isTau]

theorem xorL_taus (f : α → Nat) (cs : List (PT α)) (u : List Nat) :
    img f (xorL (cs.map PT.lang)) u ↔
      ((cs.any isTau = true ∧ u = []) ∨ xorL ((cs.filter fun c => !isTau c).map fun c => img f c.lang) u) := by
  rw [← img_xorL]
  constructor
  · rintro ⟨_, hM, h⟩
    obtain ⟨L, hL, rfl⟩ := List.mem_map.1 hM
    obtain ⟨c, hc, rfl⟩ := List.mem_map.1 hL
    by_cases ht : isTau c = true
    · refine .inl ⟨List.any_eq_true.2 ⟨c, hc, ht⟩, ?_⟩
      rw [(isTau_iff c).1 ht, PT.lang_tau] at h
      exact (img_eps f u).2 h
    · exact .inr ⟨_, List.mem_map.2 ⟨c, List.mem_filter.2 ⟨hc, by simpa using ht⟩, rfl⟩, h⟩
  · rintro (⟨h, rfl⟩ | ⟨_, hM, h⟩)
    · obtain ⟨c, hc, ht⟩ := List.any_eq_true.1 h
      refine ⟨_, List.mem_map.2 ⟨_, List.mem_map.2 ⟨c, hc, rfl⟩, rfl⟩, ?_⟩
      rw [(isTau_iff c).1 ht, PT.lang_tau]
      exact (img_eps f []).1 rfl
    · obtain ⟨c, hc, rfl⟩ := List.mem_map.1 hM
      exact ⟨_, List.mem_map.2 ⟨_, List.mem_map.2 ⟨c, (List.mem_filter.1 hc).1, rfl⟩, rfl⟩, h⟩

theorem rep_den (t : PT α) (ht : Good t) (f : α → Nat) :
    ∀ st s st', Inv st → rep t st = some (some s, st') → Agrees f st' → Den s (img f t.lang) := by
  induction t using PT.induct with
  | leaf l =>
    intro st s st' hi h hf
    cases l with
    | none => simp [rep] at h
    | some a =>
      simp only [rep, Option.some.injEq, Prod.mk.injEq] at h
      obtain ⟨rfl, rfl⟩ := h
      obtain ⟨h1, _, h3, _⟩ := charOf_inv hi a
      refine (den_lit (h1.le _ h3).2).den.congr fun u => ?_
      rw [PT.lang_act, ← hf a _ h3]
      exact ⟨fun h => ⟨[a], rfl, h⟩, fun ⟨w, hw, h⟩ => by rw [h, hw]; rfl⟩
  | node op cs ih =>
    intro st s st' hi h hf
    simp only [rep, Option.bind_eq_bind, Option.bind_eq_some_iff, pure, Option.some.injEq, Prod.mk.injEq, Prod.exists] at h
    obtain ⟨os, s1, h1, s', hs, rfl, rfl⟩ := h
    have hg : ∀ c ∈ cs, Good c := by
      cases ht with
      | seq _ h => exact h
      | xor _ _ h => exact h
      | loop d r _ h1 h2 => intro c hc; simp at hc; rcases hc with rfl | rfl <;> assumption
    have hd := repL_den (fun c hc => ih c hc (hg c hc)) st os s1 hi h1 hf
    have htau := repL_none_iff h1
    rw [PT.lang_node]
    generalize os.filterMap id = l at hs hd htau
    cases ht with
    | seq =>
      simp only [stru, Option.some.injEq] at hs; subst hs
      exact hd.flatten.group.den.congr (seqL_taus f cs)
    | xor _ hne =>
      show Den s' (img f (xorL (cs.map PT.lang)))
      simp only [stru, Option.some.injEq] at hs; subst hs
      by_cases hl : l = []
      · -- all children are silent leaves
        have hall := htau.1 hl
        have hany : cs.any isTau = true := by
          obtain ⟨c, hc⟩ := List.exists_mem_of_ne_nil cs hne
          exact List.any_eq_true.2 ⟨c, hc, (isTau_iff c).2 (hall c hc)⟩
        rw [if_pos hany, hl]
        have hfil : (cs.filter fun c => !isTau c) = [] := by
          rw [List.filter_eq_nil_iff]; intro c hc; simp [(isTau_iff c).2 (hall c hc)]
        refine (den_nil.group.opt.group.den).congr fun u => ?_
        rw [xorL_taus, hfil]
        simp [xorL, hany, Lang.eps]
      · have hx := hd.xorG hl
        by_cases hany : cs.any isTau = true
        · rw [if_pos hany]
          have := hx.opt.group.den
          rw [show (40 :: (40 :: joinBar l ++ [41]) ++ [63, 41]) = 40 :: ((40 :: joinBar l ++ [41]) ++ [63]) ++ [41] by simp]
          refine this.congr fun u => ?_
          rw [xorL_taus]; simp [hany]
        · rw [if_neg hany]
          refine hx.den.congr fun u => ?_
          rw [xorL_taus]; simp [hany]
    | loop d r hdt =>
      have hdn : isTau d = false := by
        cases h : isTau d with
        | false => rfl
        | true => exact absurd ((isTau_iff d).1 h) hdt
      show Den s' (img f (loopL d.lang [r.lang]))
      cases hr : isTau r with
      | true =>
        simp only [List.filter_cons, hdn, hr, List.filter_nil, Bool.not_true, Bool.not_false, if_true, Bool.false_eq_true, if_false, List.map_cons, List.map_nil] at hd
        cases hd with
        | cons h1 h2 =>
        cases h2
        simp only [stru, Option.some.injEq] at hs; subst hs
        rw [show ∀ s : List Nat, (40 :: s ++ [41, 43]) = (40 :: s ++ [41]) ++ [43] by simp]
        refine h1.group.plus.congr fun u => ?_
        rw [plus_loop, show (Lang.eps : Lang Nat) = img f Lang.eps from funext fun u => propext (img_eps f u), img_loop, (isTau_iff r).1 hr, PT.lang_tau]
      | false =>
        simp only [List.filter_cons, hdn, hr, List.filter_nil, Bool.not_false, if_true, List.map_cons, List.map_nil] at hd
        have hfl := hd.flatten
        cases hd with
        | cons h1 h2 =>
        cases h2 with
        | @cons s2 _ _ _ h2 h3 =>
        cases h3
        simp only [stru, Option.some.injEq] at hs; subst hs
        rename_i s1'
        have := hfl.group.star.append h1
        rw [show (40 :: [s1', s2].flatten ++ 41 :: 42 :: s1') = (40 :: [s1', s2].flatten ++ [41]) ++ [42] ++ s1' by simp]
        refine this.congr fun u => ?_
        rw [← img_loop, ← star_loop]
        have e : seqL [img f d.lang, img f r.lang] = Lang.cat (img f d.lang) (img f r.lang) :=
          funext fun u => propext (cat_congr (fun _ => Iff.rfl) (fun v => cat_eps_right _ v) u)
        rw [e]

theorem inv_empty : Inv (⟨[], 0⟩ : St α) := ⟨by simp, by simp, by simp⟩

/-- the character of an activity in a dictionary -/
def code (d : List (α × Nat)) (a : α) : Nat := ((d.find? fun e => e.1 == a).map (·.2)).getD 0

theorem code_agrees {st : St α} (h : Inv st) : Agrees (code st.dict) st := by
  intro a c hm
  unfold code
  cases hf : st.dict.find? (fun e => e.1 == a) with
  | none =>
    have := List.find?_eq_none.1 hf (a, c) hm
    simp at this
  | some e =>
    have h1 := List.find?_some hf
    have h2 := List.mem_of_find?_eq_some hf
    obtain ⟨x, y⟩ := e
    simp at h1; subst h1
    have hk := h.keys
    -- no label twice
    have key : ∀ (l : List (α × Nat)), (l.map Prod.fst).Nodup → ∀ x y z, (x, y) ∈ l → (x, z) ∈ l → y = z := by
      intro l hl x y z h1 h2
      induction l with
      | nil => simp at h1
      | cons e l ih =>
        rw [List.map_cons, List.nodup_cons] at hl
        rcases List.mem_cons.1 h1 with rfl | h1' <;> rcases List.mem_cons.1 h2 with h2' | h2'
        · exact (Prod.mk.inj h2').2.symm
        · exact absurd (List.mem_map.2 ⟨_, h2', rfl⟩) hl.1
        · subst h2'; exact absurd (List.mem_map.2 ⟨_, h1', rfl⟩) hl.1
        · exact ih hl.2 h1' h2'
    exact key _ hk _ _ _ h2 hm

theorem code_inj {st : St α} (h : Inv st) {a b : α} (ha : a ∈ st.dict.map Prod.fst) (hb : b ∈ st.dict.map Prod.fst)
    (he : code st.dict a = code st.dict b) : a = b := by
  obtain ⟨⟨a', c⟩, hc, rfl⟩ := List.mem_map.1 ha
  obtain ⟨⟨b', d⟩, hd, rfl⟩ := List.mem_map.1 hb
  rw [code_agrees h _ _ hc, code_agrees h _ _ hd] at he
  subst he
  have key : ∀ (l : List (α × Nat)), (l.map Prod.snd).Nodup → ∀ x y z, (x, z) ∈ l → (y, z) ∈ l → x = y := by
    intro l hl x y z h1 h2
    induction l with
    | nil => simp at h1
    | cons e l ih =>
      rw [List.map_cons, List.nodup_cons] at hl
      rcases List.mem_cons.1 h1 with rfl | h1' <;> rcases List.mem_cons.1 h2 with h2' | h2'
      · exact (Prod.mk.inj h2').1.symm
      · exact absurd (List.mem_map.2 ⟨_, h2', rfl⟩) hl.1
      · subst h2'; exact absurd (List.mem_map.2 ⟨_, h1', rfl⟩) hl.1
      · exact ih hl.2 h1' h2'
  exact key _ h.vals _ _ _ hc hd

/-- the activities of a trace of a tree are labels of the tree -/
theorem map_inj_on {f : α → Nat} {P : α → Prop} (hf : ∀ a b, P a → P b → f a = f b → a = b) :
    ∀ {v w : List α}, (∀ a ∈ v, P a) → (∀ a ∈ w, P a) → v.map f = w.map f → v = w := by
  intro v
  induction v with
  | nil => intro w _ _ h; cases w with
    | nil => rfl
    | cons b w => simp at h
  | cons a v ih =>
    intro w hv hw h
    cases w with
    | nil => simp at h
    | cons b w =>
      simp only [List.map_cons, List.cons.injEq] at h
      rw [hf a b (hv a List.mem_cons_self) (hw b List.mem_cons_self) h.1,
        ih (fun x hx => hv x (List.mem_cons_of_mem _ hx)) (fun x hx => hw x (List.mem_cons_of_mem _ hx)) h.2]

theorem skip_one : skip 1 = 1 := by rw [skip, dif_neg (by decide)]
theorem skip_two : skip 2 = 2 := by rw [skip, dif_neg (by decide)]
theorem skip_three : skip 3 = 3 := by rw [skip, dif_neg (by decide)]

theorem reMatch_iff {body : List Nat} {f : Frame} (h : go body .empty [] = some f) (w : List Nat) :
    reMatch (94 :: body ++ [36]) w ↔ f.alts = none ∧ f.seq.M w := by
  constructor
  · rintro ⟨b, g, hb, hg, h1, h2⟩
    have : body = b := by simpa using hb
    subst this
    rw [h, Option.some.injEq] at hg; subst hg
    exact ⟨h1, h2⟩
  · rintro ⟨h1, h2⟩; exact ⟨body, f, rfl, h, h1, h2⟩

end Regex
open Regex
variable {α : Type} [DecidableEq α]

/-- C56: the conversion of a process tree to a regular expression raises exactly for trees with a parallel or OR node or a loop
all whose children are silent leaves. -/
theorem C56_raises_iff (t : PT α) : toRegex t = none ↔ Raises t := by
  rw [← rep_none t ⟨[], 0⟩]
  unfold toRegex
  cases rep t ⟨[], 0⟩ <;> simp

/-- C56: the dictionary returned has exactly the labels of the tree, each once, with different characters, none of which is
special in patterns. -/
theorem C56_dictionary (t : PT α) (p : Option (List Nat)) (d : List (α × Nat)) (h : toRegex t = some (p, d)) :
    (∀ a, a ∈ d.map Prod.fst ↔ a ∈ t.labels) ∧ (d.map Prod.fst).Nodup ∧ (d.map Prod.snd).Nodup ∧
    ∀ e ∈ d, e.2 ∉ "[]()*+^?\r\n \t$\"!#&%|.,;-'\\/{}".toList.map Char.toNat := by
  simp only [toRegex, Option.bind_eq_bind, Option.bind_eq_some_iff, pure, Option.some.injEq, Prod.mk.injEq, Prod.exists] at h
  obtain ⟨s, st, h, _, rfl⟩ := h
  have e := rep_ext t _ _ _ inv_empty h
  refine ⟨fun a => by rw [e.keys]; simp, e.inv.keys, e.inv.vals, fun x hx hm => (e.inv.le x hx).2 ?_⟩
  have hsub : ∀ c ∈ "[]()*+^?\r\n \t$\"!#&%|.,;-'\\/{}".toList.map Char.toNat, c ∈ avoid := by decide
  exact hsub _ hm

/-- C56: only for a silent leaf no pattern is returned. -/
theorem C56_pattern (t : PT α) (p : Option (List Nat)) (d : List (α × Nat)) (h : toRegex t = some (p, d)) : p = none ↔ t = .leaf none := by
  simp only [toRegex, Option.bind_eq_bind, Option.bind_eq_some_iff, pure, Option.some.injEq, Prod.mk.injEq, Prod.exists] at h
  obtain ⟨s, st, h, rfl, _⟩ := h
  rw [← rep_none_iff h]
  cases s <;> simp

/-- C56: for trees of sequences, choices and binary loops whose first child is no silent leaf, the pattern is valid and matches
exactly the traces of the tree, written with the characters of the dictionary. -/
theorem C56_language (t : PT α) (ht : Good t) (p : List Nat) (d : List (α × Nat)) (h : toRegex t = some (some p, d)) :
    (∀ w : List α, (∀ a ∈ w, a ∈ d.map Prod.fst) → (reMatch p (w.map (code d)) ↔ t.lang w)) ∧
    (∀ u, reMatch p u → ∃ w, t.lang w ∧ u = w.map (code d)) := by
  have hpat := h
  simp only [toRegex, Option.bind_eq_bind, Option.bind_eq_some_iff, pure, Option.some.injEq, Prod.mk.injEq, Prod.exists,
    Option.map_eq_some_iff] at h
  obtain ⟨_, st, h, ⟨s, rfl, rfl⟩, rfl⟩ := h
  have e := rep_ext t _ _ _ inv_empty h
  obtain ⟨g, a, b, c⟩ := rep_den t ht (code st.dict) _ _ _ inv_empty h (code_agrees e.inv) .empty
  have hgo : go s .empty [] = some g := by have := b [] []; rw [List.append_nil] at this; rw [this, go]
  have hM : ∀ u, reMatch (94 :: s ++ [36]) u ↔ img (code st.dict) t.lang u := by
    intro u
    rw [reMatch_iff hgo, c]
    exact ⟨fun h => (cat_eps_left _ u).1 h.2, fun h => ⟨a, (cat_eps_left _ u).2 h⟩⟩
  refine ⟨fun w hw => ?_, fun u hu => (hM u).1 hu⟩
  rw [hM]
  constructor
  · rintro ⟨v, hv, hvw⟩
    have hlab : ∀ x ∈ v, x ∈ st.dict.map Prod.fst := fun x hx =>
      (e.keys x).2 (.inr (TreeRed.mem_labels_of_lang t v hv x hx))
    rw [map_inj_on (P := (· ∈ st.dict.map Prod.fst)) (fun x y hx hy hxy => code_inj e.inv hx hy hxy) hw hlab hvw]
    exact hv
  · intro h; exact ⟨w, h, rfl⟩

/-- C56 fails for loops with a silent first child: `*( tau, 'a' )` becomes `^(a)+$`, which does not match the empty trace. -/
theorem C56_silent_do_refuted : ∃ (t : PT Nat) (p : List Nat) (d : List (Nat × Nat)), t.WF ∧ toRegex t = some (some p, d) ∧
    t.lang [] ∧ ¬ reMatch p [] := by
  refine ⟨.node .loop [.leaf none, .leaf (some 7)], 94 :: [40, 1, 41, 43] ++ [36], [(7, 1)], ?_, ?_, ?_, ?_⟩
  · refine .node _ _ (by simp) ?_
    intro c hc; simp at hc; rcases hc with rfl | rfl <;> exact .leaf _
  · simp [toRegex, rep, repL, charOf, St.get, newChar, stru, skip_one]
  · simp only [PT.lang, PT.langs, PT.opLang]; exact .exit rfl
  · rw [reMatch_iff (f := ⟨none, .eps, some (.plus (.cat .eps (.lit 1)), true)⟩) (by rfl)]
    rintro ⟨_, _, _, h1, ⟨_, _, ⟨_, _, h2, h3, rfl⟩, _, rfl⟩, h⟩
    rw [show _ = [1] from h3] at h; simp at h

/-- C56 fails for loops with three children: `*( 'a', 'b', 'c' )` becomes `^(abc)*a$`, which does not match a b a. -/
theorem C56_ternary_loop_refuted : ∃ (t : PT Nat) (p : List Nat) (d : List (Nat × Nat)), t.WF ∧ toRegex t = some (some p, d) ∧
    t.lang [7, 8, 7] ∧ ¬ reMatch p ([7, 8, 7].map (code d)) := by
  refine ⟨.node .loop [.leaf (some 7), .leaf (some 8), .leaf (some 9)], 94 :: [40, 1, 2, 3, 41, 42, 1] ++ [36], [(7, 1), (8, 2), (9, 3)], ?_, ?_, ?_, ?_⟩
  · refine .node _ _ (by simp) ?_
    intro c hc; simp at hc; rcases hc with rfl | rfl | rfl <;> exact .leaf _
  · simp [toRegex, rep, repL, charOf, St.get, newChar, stru, skip_one, skip_two, skip_three]
  · simp only [PT.lang, PT.langs, PT.opLang]
    exact .again (d := [7]) (r := [8]) (w := [7]) (fun w => w = [8]) rfl (by simp) rfl (.exit rfl)
  · rw [reMatch_iff (f := ⟨none, .cat .eps (.star (.cat (.cat (.cat .eps (.lit 1)) (.lit 2)) (.lit 3))), some (.lit 1, false)⟩) (by rfl)]
    rintro ⟨_, u, v, ⟨_, x, h0, hx, rfl⟩, hv, h⟩
    rw [show v = [1] from hv, show _ = [] from h0, List.nil_append] at h
    have hx' : x = [1, 2] := by
      have : ([1, 2] : List Nat) ++ [1] = x ++ [1] := h
      exact (List.append_cancel_right this).symm
    cases hx with
    | nil => simp at hx'
    | @cons y z hy hz =>
      obtain ⟨_, _, ⟨_, _, ⟨_, _, h1, h2, rfl⟩, h3, rfl⟩, h4, rfl⟩ := hy
      rw [show _ = [] from h1, show _ = [1] from h2, show _ = [2] from h3, show _ = [3] from h4] at hx'
      simp at hx'

/-- C56 fails for interleaving: the pattern of `<>( 'a', 'b' )` is `^$`. -/
theorem C56_interleaving_refuted : ∃ (t : PT Nat) (p : List Nat) (d : List (Nat × Nat)), t.WF ∧ toRegex t = some (some p, d) ∧
    t.lang [7, 8] ∧ ¬ reMatch p ([7, 8].map (code d)) ∧ reMatch p [] ∧ ¬ t.lang [] := by
  refine ⟨.node .inter [.leaf (some 7), .leaf (some 8)], 94 :: [] ++ [36], [(7, 1), (8, 2)], ?_, ?_, ?_, ?_, ?_, ?_⟩
  · refine .node _ _ (by simp) ?_
    intro c hc; simp at hc; rcases hc with rfl | rfl <;> exact .leaf _
  · simp [toRegex, rep, repL, charOf, St.get, newChar, stru, skip_one, skip_two]
  · simp only [PT.lang, PT.langs, PT.opLang]
    exact ⟨_, List.Perm.refl _, [7], [8], rfl, ⟨[8], [], rfl, rfl, rfl⟩, rfl⟩
  · rw [reMatch_iff (f := .empty) (by rfl)]
    rintro ⟨_, h⟩
    have : ([7, 8] : List Nat).map (code [(7, 1), (8, 2)]) = [] := h
    simp at this
  · rw [reMatch_iff (f := .empty) (by rfl)]; exact ⟨rfl, rfl⟩
  · intro h
    simp only [PT.lang, PT.langs, PT.opLang] at h
    obtain ⟨Ms, hp, hs⟩ := h
    match Ms, hp.length_eq with
    | [X, Y], _ =>
      have hX := (hp.mem_iff (a := X)).1 (by simp)
      obtain ⟨u, v, hu, _, he⟩ := hs
      have hu' : u = [] := (List.append_eq_nil_iff.1 he.symm).1
      subst hu'
      simp only [List.mem_cons, List.not_mem_nil, or_false] at hX
      rcases hX with rfl | rfl <;> simp at hu

/-- a case that meets the conditions: `->( 'a', X( 'b', tau ), *( 'c', 'd' ) )` -/
example : ∃ (t : PT Nat) (p : List Nat) (d : List (Nat × Nat)), Good t ∧ toRegex t = some (some p, d) := by
  refine ⟨.node .seq [.leaf (some 7), .node .xor [.leaf (some 8), .leaf none], .node .loop [.leaf (some 7), .leaf (some 8)]],
    [94, 40, 1, 40, 40, 2, 41, 63, 41, 40, 1, 2, 41, 42, 1, 41, 36], [(7, 1), (8, 2)], ?_, ?_⟩
  rotate_left
  · simp [toRegex, rep, repL, charOf, St.get, newChar, stru, skip_one, skip_two, joinBar, isTau]
  · refine .seq _ ?_
    intro c hc; simp at hc; rcases hc with rfl | rfl | rfl
    · exact .leaf _
    · refine .xor _ (by simp) ?_
      intro c hc; simp at hc; rcases hc with rfl | rfl <;> exact .leaf _
    · exact .loop _ _ (by simp) (.leaf _) (.leaf _)

end Verif
