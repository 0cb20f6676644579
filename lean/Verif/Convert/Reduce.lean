import Verif.Convert.Build
import Verif.Convert.Fuse
/-
The two silent-transition reductions keep the behaviour of a net (C15): graph level.
-/
namespace Verif
namespace Conv
open Sys Lang
variable {α : Type}

namespace Gr

theorem count_pre (g : Gr α) (t p : Nat) : (g.pre t).count p = g.pt.count (p, t) := by
  unfold Gr.pre
  rw [List.count, List.countP_map, List.countP_filter, List.count]
  refine List.countP_congr fun a _ => ?_
  rcases a with ⟨a, b⟩
  simp

theorem count_post (g : Gr α) (t p : Nat) : (g.post t).count p = g.tp.count (t, p) := by
  unfold Gr.post
  rw [List.count, List.countP_map, List.countP_filter, List.count]
  refine List.countP_congr fun a _ => ?_
  rcases a with ⟨a, b⟩
  simp [and_comm]

theorem count_ppre (g : Gr α) (t p : Nat) : (g.ppre p).count t = g.tp.count (t, p) := by
  unfold Gr.ppre
  rw [List.count, List.countP_map, List.countP_filter, List.count]
  refine List.countP_congr fun a _ => ?_
  rcases a with ⟨a, b⟩
  simp

theorem count_ppost (g : Gr α) (t p : Nat) : (g.ppost p).count t = g.pt.count (p, t) := by
  unfold Gr.ppost
  rw [List.count, List.countP_map, List.countP_filter, List.count]
  refine List.countP_congr fun a _ => ?_
  rcases a with ⟨a, b⟩
  simp [and_comm]

theorem mem_pre {g : Gr α} {t p : Nat} : p ∈ g.pre t ↔ (p, t) ∈ g.pt := by
  rw [← List.count_pos_iff, count_pre, List.count_pos_iff]
theorem mem_post {g : Gr α} {t p : Nat} : p ∈ g.post t ↔ (t, p) ∈ g.tp := by
  rw [← List.count_pos_iff, count_post, List.count_pos_iff]
theorem mem_ppre {g : Gr α} {t p : Nat} : t ∈ g.ppre p ↔ (t, p) ∈ g.tp := by
  rw [← List.count_pos_iff, count_ppre, List.count_pos_iff]
theorem mem_ppost {g : Gr α} {t p : Nat} : t ∈ g.ppost p ↔ (p, t) ∈ g.pt := by
  rw [← List.count_pos_iff, count_ppost, List.count_pos_iff]

/-- the net with all arcs turned round -/
def flip (g : Gr α) : Gr α := ⟨g.places, g.trans, g.tp.map Prod.swap, g.pt.map Prod.swap⟩

@[simp] theorem flip_flip (g : Gr α) : g.flip.flip = g := by simp [flip]
@[simp] theorem flip_places (g : Gr α) : g.flip.places = g.places := rfl
@[simp] theorem flip_trans (g : Gr α) : g.flip.trans = g.trans := rfl
@[simp] theorem flip_pre (g : Gr α) (t : Nat) : g.flip.pre t = g.post t := by
  simp [flip, Gr.pre, Gr.post, List.filter_map, Function.comp_def]
@[simp] theorem flip_post (g : Gr α) (t : Nat) : g.flip.post t = g.pre t := by
  simp [flip, Gr.pre, Gr.post, List.filter_map, Function.comp_def]
@[simp] theorem flip_ppre (g : Gr α) (t : Nat) : g.flip.ppre t = g.ppost t := by
  simp [flip, Gr.ppre, Gr.ppost, List.filter_map, Function.comp_def]
@[simp] theorem flip_ppost (g : Gr α) (t : Nat) : g.flip.ppost t = g.ppre t := by
  simp [flip, Gr.ppre, Gr.ppost, List.filter_map, Function.comp_def]

theorem flip_removeTransition (g : Gr α) (t : Nat) : g.flip.removeTransition t = (g.removeTransition t).flip := by
  unfold removeTransition
  rw [flip_trans]
  split
  · simp [flip, List.filter_map, Function.comp_def]
  · rfl

theorem flip_removePlace (g : Gr α) (p : Nat) : g.flip.removePlace p = (g.removePlace p).flip := by
  unfold removePlace
  rw [flip_places]
  split
  · simp [flip, List.filter_map, Function.comp_def]
  · rfl

theorem entryAt_eq_some {g g' : Gr α} {t : Nat} : g.entryAt t = some g' ↔ ∃ p u v, g.pre t = [p] ∧ g.ppre p = [u] ∧ g.ppost p = [v] ∧
    g' = { (g.removeTransition t).removePlace p with
      tp := ((g.removeTransition t).removePlace p).tp ++ (g.post t).map fun q => (u, q) } := by
  unfold entryAt
  constructor
  · intro h
    split at h
    · rename_i p hp
      split at h
      · rename_i u v hu hv
        simp only [Option.some.injEq] at h
        exact ⟨p, u, v, hp, hu, hv, h.symm⟩
      · cases h
    · cases h
  · rintro ⟨p, u, v, h1, h2, h3, rfl⟩
    rw [h1]; simp only; rw [h2, h3]

theorem exitAt_eq_some {g g' : Gr α} {t : Nat} : g.exitAt t = some g' ↔ ∃ p u v, g.post t = [p] ∧ g.ppre p = [v] ∧ g.ppost p = [u] ∧
    g' = { (g.removeTransition t).removePlace p with
      pt := ((g.removeTransition t).removePlace p).pt ++ (g.pre t).map fun q => (q, u) } := by
  unfold exitAt
  constructor
  · intro h
    split at h
    · rename_i p hp
      split at h
      · rename_i u v hu hv
        simp only [Option.some.injEq] at h
        exact ⟨p, _, _, hp, hu, hv, h.symm⟩
      · cases h
    · cases h
  · rintro ⟨p, u, v, h1, h2, h3, rfl⟩
    rw [h1]; simp only; rw [h2, h3]

/-- the exit reduction is the entry reduction of the reversed net -/
theorem exitAt_flip {g g' : Gr α} {t : Nat} : g.exitAt t = some g' ↔ g.flip.entryAt t = some g'.flip := by
  rw [exitAt_eq_some, entryAt_eq_some]
  simp only [flip_pre, flip_ppre, flip_ppost, flip_post, flip_removeTransition, flip_removePlace]
  constructor
  · rintro ⟨p, u, v, h1, h2, h3, rfl⟩
    refine ⟨p, u, v, h1, h3, h2, ?_⟩
    simp [flip, Function.comp_def]
  · rintro ⟨p, u, v, h1, h2, h3, e⟩
    refine ⟨p, u, v, h1, h3, h2, ?_⟩
    rw [← flip_flip g', e]
    simp [flip, Function.comp_def]

/-- names of transitions are different, arcs of existing transitions go to existing places -/
structure Inv (g : Gr α) : Prop where
  nodup : (g.trans.map Prod.fst).Nodup
  pt : ∀ t ∈ g.trans.map Prod.fst, ∀ p ∈ g.pre t, p ∈ g.places
  tp : ∀ t ∈ g.trans.map Prod.fst, ∀ p ∈ g.post t, p ∈ g.places

theorem Inv.flip {g : Gr α} (h : g.Inv) : g.flip.Inv := ⟨h.nodup, by simpa using h.tp, by simpa using h.pt⟩

/-- what one application of the entry rule does -/
structure EntryStep (g g' : Gr α) (t p u : Nat) : Prop where
  tin : t ∈ g.trans.map Prod.fst
  pre : g.pre t = [p]
  ppre : g.ppre p = [u]
  ppost : g.ppost p = [t]
  pl : p ∈ g.places
  trans' : g'.trans = g.trans.filter fun e => !(e.1 == t)
  places' : g'.places = g.places.filter fun q => !(q == p)
  pt' : g'.pt = (g.pt.filter fun a => !(a.2 == t)).filter fun a => !(a.1 == p)
  tp' : g'.tp = ((g.tp.filter fun a => !(a.1 == t)).filter fun a => !(a.2 == p)) ++ (g.post t).map fun q => (u, q)

theorem entry_step {g g' : Gr α} {t : Nat} (hi : g.Inv) (ht : t ∈ g.trans.map Prod.fst) (h : g.entryAt t = some g') :
    ∃ p u, EntryStep g g' t p u := by
  obtain ⟨p, u, v, h1, h2, h3, rfl⟩ := entryAt_eq_some.1 h
  have hv : v = t := by
    have : t ∈ g.ppost p := by rw [mem_ppost, ← mem_pre, h1]; simp
    rw [h3] at this; exact (List.mem_singleton.1 this).symm
  subst hv
  have hp : p ∈ g.places := hi.pt _ ht p (by rw [h1]; simp)
  have e1 : g.removeTransition v = ⟨g.places, g.trans.filter fun e => !(e.1 == v), g.pt.filter fun a => !(a.2 == v),
      g.tp.filter fun a => !(a.1 == v)⟩ := by
    unfold removeTransition
    rw [if_pos]
    obtain ⟨e, he, rfl⟩ := List.mem_map.1 ht
    exact List.any_eq_true.2 ⟨e, he, by simp⟩
  rw [e1]
  unfold removePlace
  simp only [List.contains_iff_mem.2 hp, if_true]
  exact ⟨p, u, ht, h1, h2, h3, hp, rfl, rfl, rfl, rfl⟩

namespace EntryStep
variable {g g' : Gr α} {t p u : Nat}

theorem count_tp (h : EntryStep g g' t p u) (e x : Nat) : g'.tp.count (e, x) =
    (if e = t ∨ x = p then 0 else g.tp.count (e, x)) + if e = u then g.tp.count (t, x) else 0 := by
  rw [h.tp', List.count_append]
  congr 1
  · by_cases h1 : e = t ∨ x = p
    · rw [if_pos h1, List.count_eq_zero]
      intro hm
      simp only [List.mem_filter, Bool.not_eq_true', beq_eq_false_iff_ne] at hm
      rcases h1 with h1 | h1
      · exact hm.1.2 h1
      · exact hm.2 h1
    · rw [if_neg h1, List.filter_filter, List.count_filter]
      have h2 : e ≠ t := fun h => h1 (.inl h)
      have h3 : x ≠ p := fun h => h1 (.inr h)
      simp [h2, h3]
  · rw [List.count, List.countP_map]
    by_cases h1 : e = u
    · subst h1
      rw [if_pos rfl, ← count_post, List.count]
      refine List.countP_congr fun a _ => ?_
      simp
    · rw [if_neg h1]
      refine List.countP_eq_zero.2 fun a _ => ?_
      simp [Ne.symm h1]

theorem count_p (h : EntryStep g g' t p u) (e : Nat) : g.tp.count (e, p) = if e = u then 1 else 0 := by
  rw [← count_ppre, h.ppre, List.count_singleton]
  by_cases hh : e = u
  · simp [hh]
  · rw [if_neg hh, if_neg (by simpa using Ne.symm hh)]

theorem pre' (h : EntryStep g g' t p u) {e : Nat} (he : e ≠ t) : g'.pre e = g.pre e := by
  unfold Gr.pre
  rw [h.pt', List.filter_filter, List.filter_filter]
  congr 1
  refine List.filter_congr fun a ha => ?_
  by_cases h1 : a.2 = e
  · have h2 : a.2 ≠ t := h1 ▸ he
    have h3 : a.1 ≠ p := by
      intro e3
      have : a.2 ∈ g.ppost p := by rw [mem_ppost, ← e3]; exact ha
      rw [h.ppost] at this
      exact h2 (by simpa using this)
    simp [h1, he, h3]
  · have : (a.2 == e) = false := by simpa using h1
    simp [this]

/-- degrees of the surviving places are kept -/
theorem in_deg (h : EntryStep g g' t p u) {x : Nat} (hx : x ≠ p) : (g'.ppre x).length = (g.ppre x).length := by
  unfold Gr.ppre
  rw [h.tp']
  simp only [List.filter_append, List.length_map, List.length_append, List.filter_filter, ← List.countP_eq_length_filter]
  rw [List.countP_map]
  have e1 : List.countP (fun a : Nat × Nat => a.2 == x) g.tp = List.countP (fun a => a.2 == x && (!(a.2 == p) && !(a.1 == t))) g.tp + g.tp.count (t, x) := by
    rw [List.count]
    induction g.tp with
    | nil => rfl
    | cons a l ih =>
      rcases a with ⟨a, b⟩
      simp only [List.countP_cons, ih]
      by_cases h1 : b = x
      · subst h1
        by_cases h2 : a = t
        · simp [h2]; omega
        · have hx' : b ≠ p := hx
          simp [h2, hx']; omega
      · simp [h1]
  rw [e1, ← count_post, List.count]
  congr 1

theorem out_deg (h : EntryStep g g' t p u) {x : Nat} (hx : x ≠ p) : g'.ppost x = g.ppost x := by
  unfold Gr.ppost
  rw [h.pt', List.filter_filter, List.filter_filter]
  congr 1
  refine List.filter_congr fun a ha => ?_
  by_cases h1 : a.1 = x
  · have h3 : a.2 ≠ t := by
      intro e3
      have : a.1 ∈ g.pre t := by rw [mem_pre, ← e3]; exact ha
      rw [h.pre] at this
      exact hx (h1 ▸ by simpa using this)
    simp [h1, hx, h3]
  · have : (a.1 == x) = false := by simpa using h1
    simp [this]

theorem gone (h : EntryStep g g' t p u) : g'.ppost p = [] := by
  unfold Gr.ppost
  rw [h.pt', List.filter_filter, List.map_eq_nil_iff, List.filter_eq_nil_iff]
  intro a _
  by_cases h1 : a.1 = p <;> simp [h1]

theorem mem_trans (h : EntryStep g g' t p u) {e : Nat} : e ∈ g'.trans.map Prod.fst ↔ e ∈ g.trans.map Prod.fst ∧ e ≠ t := by
  rw [h.trans']
  simp only [List.mem_map, List.mem_filter, Bool.not_eq_true', beq_eq_false_iff_ne]
  grind

theorem length (h : EntryStep g g' t p u) : g'.trans.length < g.trans.length := by
  obtain ⟨e, he, h1⟩ := List.mem_map.1 h.tin
  rw [h.trans']
  exact List.length_filter_lt_length_iff_exists.2 ⟨e, he, by simp [h1]⟩

theorem mem_post' (h : EntryStep g g' t p u) {e x : Nat} (he : e ≠ t) :
    x ∈ g'.post e ↔ (x ≠ p ∧ x ∈ g.post e) ∨ (e = u ∧ x ∈ g.post t) := by
  rw [mem_post, mem_post, mem_post, ← List.count_pos_iff, ← List.count_pos_iff, ← List.count_pos_iff, h.count_tp]
  by_cases h1 : x = p <;> by_cases h2 : e = u
  · simp [h1, h2]
  · simp [h1, h2]
  · rw [if_neg (by grind), if_pos h2]; grind
  · simp [h1, h2, he]

theorem inv (h : EntryStep g g' t p u) (hi : g.Inv) : g'.Inv := by
  refine ⟨?_, ?_, ?_⟩
  · rw [h.trans']
    exact (List.filter_sublist.map _).nodup hi.nodup
  · intro e he x hx
    obtain ⟨he1, he2⟩ := h.mem_trans.1 he
    rw [h.pre' he2] at hx
    rw [h.places', List.mem_filter]
    refine ⟨hi.pt e he1 x hx, ?_⟩
    simp only [Bool.not_eq_true', beq_eq_false_iff_ne]
    rintro rfl
    have : e ∈ g.ppost x := by rw [mem_ppost, ← mem_pre]; exact hx
    rw [h.ppost] at this
    exact he2 (by simpa using this)
  · intro e he x hx
    obtain ⟨he1, he2⟩ := h.mem_trans.1 he
    rw [h.places', List.mem_filter]
    simp only [Bool.not_eq_true', beq_eq_false_iff_ne]
    rcases (h.mem_post' he2).1 hx with ⟨h1, h2⟩ | ⟨h1, h2⟩
    · exact ⟨hi.tp e he1 x h2, h1⟩
    · refine ⟨hi.tp t h.tin x h2, ?_⟩
      rintro rfl
      have : t ∈ g.ppre x := by rw [mem_ppre, ← mem_post]; exact h2
      rw [h.ppre] at this
      exact he2 (by rw [h1]; exact (List.mem_singleton.1 this).symm)

/-- the transition taken out -/
theorem mem_s (h : EntryStep g g' t p u) (hi : g.Inv) (hl : (t, none) ∈ g.trans) :
    ∀ e ∈ g.trans, e.1 = t → e = (t, none) := by
  intro e he e1
  have := hi.nodup
  exact eq_of_nodup_map this he hl (by simpa using e1)
where
  eq_of_nodup_map {l : List (Nat × Option α)} (hn : (l.map Prod.fst).Nodup) {a b : Nat × Option α} (ha : a ∈ l) (hb : b ∈ l)
      (e : a.1 = b.1) : a = b := by
    induction l with
    | nil => cases ha
    | cons c l ih =>
      simp only [List.map_cons, List.nodup_cons] at hn
      rcases List.mem_cons.1 ha with rfl | ha <;> rcases List.mem_cons.1 hb with rfl | hb
      · rfl
      · exact absurd (List.mem_map.2 ⟨b, hb, e.symm⟩) hn.1
      · rename_i ha'
        exact absurd (List.mem_map.2 ⟨a, ha', e⟩) hn.1
      · exact ih hn.2 ha hb

/-- proper application of the rule: the neighbour is another transition of the net -/
theorem fusion (h : EntryStep g g' t p u) (hi : g.Inv) (hl : (t, none) ∈ g.trans) (hu : u ≠ t) :
    EntryFusion g.trs g'.trs p (g.post t) := by
  have hq : p ∉ g.post t := by
    intro hm
    have : t ∈ g.ppre p := by rw [mem_ppre, ← mem_post]; exact hm
    rw [h.ppre] at this
    exact hu (List.mem_singleton.1 this).symm
  have key : ∀ e : Nat × Option α, e.1 ≠ t →
      FusePost p (g.post t) (⟨g.pre e.1, g.post e.1, e.2⟩ : Tr α) ⟨g'.pre e.1, g'.post e.1, e.2⟩ := by
    intro e he
    refine ⟨?_, h.pre' he, rfl, ?_⟩
    · intro hm
      have : e.1 ∈ g.ppost p := by rw [mem_ppost, ← mem_pre]; exact hm
      rw [h.ppost] at this
      exact he (by simpa using this)
    · intro x
      simp only [count_post, h.count_tp, h.count_p]
      by_cases h1 : x = p
      · subst h1
        have : g.tp.count (t, x) = 0 := by rw [h.count_p, if_neg (Ne.symm hu)]
        simp [this]
      · by_cases h2 : e.1 = u <;> simp [h1, h2, he, hu]
  refine ⟨?_, hq, ?_, ?_⟩
  · exact List.mem_map.2 ⟨(t, none), hl, by simp [h.pre]⟩
  · intro e he
    obtain ⟨a, ha, rfl⟩ := List.mem_map.1 he
    by_cases h1 : a.1 = t
    · left
      have := h.mem_s hi hl a ha h1
      subst this
      simp [h.pre]
    · right
      refine ⟨_, List.mem_map.2 ⟨a, ?_, rfl⟩, key a h1⟩
      rw [h.trans', List.mem_filter]
      exact ⟨ha, by simpa using h1⟩
  · intro e he
    obtain ⟨a, ha, rfl⟩ := List.mem_map.1 he
    rw [h.trans', List.mem_filter] at ha
    exact ⟨_, List.mem_map.2 ⟨a, ha.1, rfl⟩, key a (by simpa using ha.2)⟩

/-- the other case: nobody fills `p` -/
theorem dead (h : EntryStep g g' t p u) (hi : g.Inv) (hl : (t, none) ∈ g.trans) (hu : u = t ∨ u ∉ g.trans.map Prod.fst) :
    (∀ e ∈ g.trs, e = ⟨[p], g.post t, none⟩ ∨ (e ∈ g'.trs ∧ p ∉ e.post)) ∧ ∀ e ∈ g'.trs, e ∈ g.trs := by
  have key : ∀ e ∈ g.trans, e.1 ≠ t → p ∉ g.post e.1 ∧
      (g'.post e.1 = g.post e.1) := by
    intro e he h1
    have h2 : e.1 ≠ u := by
      rintro e2
      rcases hu with hu | hu
      · exact h1 (e2.trans hu)
      · exact hu (e2 ▸ List.mem_map_of_mem he)
    have h3 : p ∉ g.post e.1 := by
      rw [← List.count_eq_zero, count_post, h.count_p, if_neg h2]
    refine ⟨h3, ?_⟩
    unfold Gr.post
    rw [h.tp', List.filter_append, List.map_append, List.filter_filter, List.filter_filter]
    have : List.filter (fun a => a.1 == e.1) ((List.filter (fun a => a.1 == t) g.tp).map Prod.snd |>.map fun q => (u, q)) = [] := by
      rw [List.filter_eq_nil_iff]
      intro a ha
      obtain ⟨q, _, rfl⟩ := List.mem_map.1 ha
      simpa using Ne.symm h2
    show _ ++ List.map Prod.snd (List.filter (fun a => a.1 == e.1) (((List.filter (fun a => a.1 == t) g.tp).map Prod.snd).map fun q => (u, q))) = _
    rw [this, List.map_nil, List.append_nil]
    congr 1
    refine List.filter_congr fun a ha => ?_
    by_cases h4 : a.1 = e.1
    · have h5 : a.2 ≠ p := by
        intro h5
        exact h3 (by rw [mem_post, ← h4, ← h5]; exact ha)
      simp [h4, h1, h5]
    · have : (a.1 == e.1) = false := by simpa using h4
      simp [this]
  have key2 : ∀ e ∈ g.trans, e.1 ≠ t → (⟨g'.pre e.1, g'.post e.1, e.2⟩ : Tr α) = ⟨g.pre e.1, g.post e.1, e.2⟩ := by
    intro e he h1
    rw [h.pre' h1, (key e he h1).2]
  constructor
  · intro e he
    obtain ⟨a, ha, rfl⟩ := List.mem_map.1 he
    by_cases h1 : a.1 = t
    · left
      have := h.mem_s hi hl a ha h1
      subst this
      simp [h.pre]
    · right
      refine ⟨?_, (key a ha h1).1⟩
      rw [← key2 a ha h1]
      refine List.mem_map.2 ⟨a, ?_, rfl⟩
      rw [h.trans', List.mem_filter]
      exact ⟨ha, by simpa using h1⟩
  · intro e he
    obtain ⟨a, ha, rfl⟩ := List.mem_map.1 he
    rw [h.trans', List.mem_filter] at ha
    have h1 : a.1 ≠ t := by simpa using ha.2
    rw [key2 a ha.1 h1]
    exact List.mem_map.2 ⟨a, ha.1, rfl⟩

end EntryStep
end Gr
end Conv
end Verif
