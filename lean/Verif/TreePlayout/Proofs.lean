import Verif.TreePlayout.Model
import Verif.PTree.LangLemmas
set_option linter.unusedSectionVars false
namespace Verif.TreePlayout
open Lang
variable {α β : Type}

/-- interleavings of a list of words -/
def Sh : List (List β) → List β → Prop
  | [], w => w = []
  | t :: ts, w => ∃ v, Sh ts v ∧ Shuffle t v w

theorem sh_empty (ts : List (List β)) (h : ∀ t ∈ ts, t = []) : Sh ts [] := by
  induction ts with
  | nil => rfl
  | cons t ts ih =>
    have ht := h t (by simp)
    subst ht
    exact ⟨[], ih (fun t ht => h t (by simp [ht])), .nil⟩

theorem sh_nil {ts : List (List β)} (h : Sh ts []) : ∀ t ∈ ts, t = [] := by
  induction ts with
  | nil => simp
  | cons t ts ih =>
    obtain ⟨v, h1, h2⟩ := h
    cases h2
    intro t' ht'
    rcases List.mem_cons.1 ht' with rfl | h'
    · rfl
    · exact ih h1 t' h'

theorem sh_step {ts : List (List β)} {c : Nat} {x : β} {r s : List β} (hc : ts[c]? = some (x :: r)) (h : Sh (ts.set c r) s) :
    Sh ts (x :: s) := by
  induction ts generalizing c s with
  | nil => simp at hc
  | cons t ts ih =>
    cases c with
    | zero =>
      simp at hc
      subst hc
      obtain ⟨v, h1, h2⟩ := h
      exact ⟨v, h1, .left h2⟩
    | succ c =>
      simp at hc
      obtain ⟨v, h1, h2⟩ := h
      exact ⟨x :: v, ih hc h1, .right h2⟩

theorem sh_unstep {ts : List (List β)} {x : β} {s : List β} (h : Sh ts (x :: s)) :
    ∃ (c : Nat) (r : List β), ts[c]? = some (x :: r) ∧ Sh (ts.set c r) s := by
  induction ts generalizing s with
  | nil => simp [Sh] at h
  | cons t ts ih =>
    obtain ⟨v, h1, h2⟩ := h
    cases h2 with
    | left h2 => exact ⟨0, _, rfl, _, h1, h2⟩
    | right h2 =>
      obtain ⟨c, r, hc, hs⟩ := ih h1
      exact ⟨c + 1, r, by simpa using hc, _, hs, h2⟩

theorem count_choices (ts : List (List β)) (i j : Nat) :
    (choices i ts).count j = if i ≤ j then ((ts[j - i]?).map List.length).getD 0 else 0 := by
  induction ts generalizing i with
  | nil => simp [choices]
  | cons t ts ih =>
    rw [choices, List.count_append, ih, List.count_replicate]
    by_cases h' : i = j
    · subst h'
      have : ¬ i + 1 ≤ i := by omega
      simp [this]
    · by_cases h : i ≤ j
      · have h2 : i + 1 ≤ j := by omega
        have : j - i = (j - (i + 1)) + 1 := by omega
        rw [if_pos h, if_pos h2, this]
        have h3 : (i == j) = false := by simp [h']
        simp [h3]
      · have h2 : ¬ i + 1 ≤ j := by omega
        have h3 : (i == j) = false := by simp [h']
        simp [h, h2, h3]

theorem perm_choices {cs : List Nat} {ts : List (List β)} :
    cs.Perm (choices 0 ts) ↔ ∀ j, cs.count j = ((ts[j]?).map List.length).getD 0 := by
  rw [List.perm_iff_count]
  simp [count_choices]

theorem popAll_sh {cs : List Nat} {ts : List (List β)} {s : List β} (hp : cs.Perm (choices 0 ts)) (h : popAll cs ts = some s) :
    Sh ts s := by
  induction cs generalizing ts s with
  | nil =>
    rw [popAll] at h
    cases h
    apply sh_empty
    intro t ht
    obtain ⟨j, hj⟩ := List.mem_iff_getElem?.1 ht
    have := perm_choices.1 hp j
    rw [hj] at this
    simp at this
    exact List.length_eq_zero_iff.1 this.symm
  | cons c cs ih =>
    rw [popAll] at h
    cases hc : ts[c]? with
    | none => rw [hc] at h; cases h
    | some t =>
      cases t with
      | nil => rw [hc] at h; cases h
      | cons x r =>
        rw [hc] at h
        simp only at h
        cases hq : popAll cs (ts.set c r) with
        | none => rw [hq] at h; cases h
        | some s' =>
          rw [hq] at h
          cases h
          refine sh_step hc (ih ?_ hq)
          rw [perm_choices] at hp ⊢
          intro j
          have := hp j
          rw [List.count_cons] at this
          by_cases hj : c = j
          · subst hj
            rw [hc] at this
            have hlt := (List.getElem?_eq_some_iff.1 hc).1
            simp [hlt] at this ⊢
            exact this
          · rw [List.getElem?_set_ne hj, ← this]
            simp [hj]

/-- The random order never makes the code pop from an empty list. -/
theorem popAll_some {cs : List Nat} {ts : List (List β)} (hp : cs.Perm (choices 0 ts)) : (popAll cs ts).isSome := by
  induction cs generalizing ts with
  | nil => rfl
  | cons c cs ih =>
    have h := perm_choices.1 hp c
    rw [List.count_cons] at h
    rw [popAll]
    cases hc : ts[c]? with
    | none => rw [hc] at h; simp at h
    | some t =>
      cases t with
      | nil => rw [hc] at h; simp at h
      | cons x r =>
        simp only [Option.isSome_map]
        apply ih
        rw [perm_choices] at hp ⊢
        intro j
        have := hp j
        rw [List.count_cons] at this
        by_cases hj : c = j
        · subst hj
          rw [hc] at this
          have hlt := (List.getElem?_eq_some_iff.1 hc).1
          simp [hlt] at this ⊢
          exact this
        · rw [List.getElem?_set_ne hj, ← this]
          simp [hj]

theorem sh_popAll {ts : List (List β)} {s : List β} (h : Sh ts s) :
    ∃ cs : List Nat, cs.Perm (choices 0 ts) ∧ popAll cs ts = some s := by
  induction s generalizing ts with
  | nil =>
    refine ⟨[], ?_, rfl⟩
    rw [perm_choices]
    intro j
    cases hj : ts[j]? with
    | none => simp
    | some t => rw [sh_nil h t (List.mem_of_getElem? hj)]; simp
  | cons x s ih =>
    obtain ⟨c, r, hc, hs⟩ := sh_unstep h
    obtain ⟨cs, hp, hq⟩ := ih hs
    refine ⟨c :: cs, ?_, by rw [popAll, hc]; simp [hq]⟩
    rw [perm_choices] at hp ⊢
    intro j
    have := hp j
    rw [List.count_cons]
    by_cases hj : c = j
    · subst hj
      rw [hc]
      have hlt := (List.getElem?_eq_some_iff.1 hc).1
      simp [hlt] at this ⊢
      exact this
    · rw [List.getElem?_set_ne hj] at this
      rw [this]
      simp [hj]

theorem shuffle_filterMap (f : β → Option α) {u v w : List β} (h : Shuffle u v w) :
    Shuffle (u.filterMap f) (v.filterMap f) (w.filterMap f) := by
  induction h with
  | nil => exact .nil
  | @left a u v w _ ih =>
    simp only [List.filterMap_cons]
    cases f a with
    | none => exact ih
    | some b => exact .left ih
  | @right a u v w _ ih =>
    simp only [List.filterMap_cons]
    cases f a with
    | none => exact ih
    | some b => exact .right ih

/-- Silent leaves can be put anywhere. -/
theorem shuffle_lift (s t : List (Option α)) {w : List α} (h : Shuffle (visible s) (visible t) w) :
    ∃ z, Shuffle s t z ∧ visible z = w := by
  induction hn : s.length + t.length generalizing s t w with
  | zero =>
    have h1 : s = [] := List.length_eq_zero_iff.1 (by omega)
    have h2 : t = [] := List.length_eq_zero_iff.1 (by omega)
    subst h1; subst h2
    cases h
    exact ⟨[], .nil, rfl⟩
  | succ n ih =>
    cases s with
    | nil => exact ⟨t, Shuffle.nil_left t, (h.eq_of_nil_left).symm⟩
    | cons a s =>
      cases a with
      | none =>
        obtain ⟨z, h1, h2⟩ := ih s t h (by simp at hn; omega)
        exact ⟨none :: z, .left h1, h2⟩
      | some a =>
        cases t with
        | nil => exact ⟨_, Shuffle.nil_right _, (h.eq_of_nil_right).symm⟩
        | cons b t =>
          cases b with
          | none =>
            obtain ⟨z, h1, h2⟩ := ih (some a :: s) t h (by simp at hn ⊢; omega)
            exact ⟨none :: z, .right h1, h2⟩
          | some b =>
            replace h : Shuffle (a :: visible s) (b :: visible t) w := h
            cases h with
            | left h =>
              obtain ⟨z, h1, h2⟩ := ih s (some b :: t) h (by simp at hn ⊢; omega)
              exact ⟨some a :: z, .left h1, by show a :: visible z = _; rw [h2]⟩
            | right h =>
              obtain ⟨z, h1, h2⟩ := ih (some a :: s) t h (by simp at hn ⊢; omega)
              exact ⟨some b :: z, .right h1, by show b :: visible z = _; rw [h2]⟩

theorem outsL_eq (cs : List (PT α)) : outsL cs = cs.map outs := by
  induction cs with
  | nil => simp [outsL]
  | cons c cs ih => simp [outsL, ih]

/-- What a set of leaf sequences shows. -/
def view (O : List (Option α) → Prop) : Lang α := fun w => ∃ s, O s ∧ visible s = w

theorem visible_append (s t : List (Option α)) : visible (s ++ t) = visible s ++ visible t := List.filterMap_append ..

theorem view_seq (Os : List (List (Option α) → Prop)) :
    view (fun s => ∃ ss, Each Os ss ∧ s = ss.flatten) = seqL (Os.map view) := by
  induction Os with
  | nil =>
    apply Lang.ext; intro w
    constructor
    · rintro ⟨s, ⟨ss, h, rfl⟩, rfl⟩; cases h; rfl
    · rintro rfl; exact ⟨[], ⟨[], .nil, rfl⟩, rfl⟩
  | cons O Os ih =>
    apply Lang.ext; intro w
    rw [List.map_cons, seqL, ← ih]
    constructor
    · rintro ⟨s, ⟨ss, h, rfl⟩, rfl⟩
      cases h with
      | cons h hs => exact ⟨_, _, ⟨_, h, rfl⟩, ⟨_, ⟨_, hs, rfl⟩, rfl⟩, by rw [List.flatten_cons, visible_append]⟩
    · rintro ⟨u, v, ⟨s, h, rfl⟩, ⟨_, ⟨ss, hs, rfl⟩, rfl⟩, rfl⟩
      exact ⟨_, ⟨s :: ss, .cons h hs, rfl⟩, by rw [List.flatten_cons, visible_append]⟩

theorem view_par (Os : List (List (Option α) → Prop)) :
    view (fun s => ∃ ss, Each Os ss ∧ ∃ cs : List Nat, cs.Perm (choices 0 ss) ∧ popAll cs ss = some s) = parL (Os.map view) := by
  have h0 : view (fun s => ∃ ss, Each Os ss ∧ ∃ cs : List Nat, cs.Perm (choices 0 ss) ∧ popAll cs ss = some s) =
      view (fun s => ∃ ss, Each Os ss ∧ Sh ss s) := by
    congr 1
    funext s
    apply propext
    constructor
    · rintro ⟨ss, h, cs, h1, h2⟩; exact ⟨ss, h, popAll_sh h1 h2⟩
    · rintro ⟨ss, h, h1⟩; obtain ⟨cs, h2, h3⟩ := sh_popAll h1; exact ⟨ss, h, cs, h2, h3⟩
  rw [h0]
  clear h0
  induction Os with
  | nil =>
    apply Lang.ext; intro w
    constructor
    · rintro ⟨s, ⟨ss, h, h'⟩, rfl⟩; cases h; cases h'; rfl
    · rintro rfl; exact ⟨[], ⟨[], .nil, rfl⟩, rfl⟩
  | cons O Os ih =>
    apply Lang.ext; intro w
    rw [List.map_cons, parL, ← ih]
    constructor
    · rintro ⟨s, ⟨ss, h, h'⟩, rfl⟩
      cases h with
      | cons h hs =>
        obtain ⟨v, h1, h2⟩ := h'
        exact ⟨_, _, ⟨_, h, rfl⟩, ⟨v, ⟨_, hs, h1⟩, rfl⟩, shuffle_filterMap id h2⟩
    · rintro ⟨u, v, ⟨s, h, rfl⟩, ⟨z, ⟨ss, hs, h1⟩, rfl⟩, h2⟩
      obtain ⟨y, h3, h4⟩ := shuffle_lift s z h2
      exact ⟨y, ⟨s :: ss, .cons h hs, z, h1, h3⟩, h4⟩

theorem view_loop (D R : List (Option α) → Prop) : view (LoopRun D R []) = loopL (view D) [view R] := by
  apply Lang.ext; intro w
  constructor
  · rintro ⟨s, h, rfl⟩
    have key : ∀ ret s, LoopRun D R ret s → ∃ u, s = ret ++ u ∧ loopL (view D) [view R] (visible u) := by
      intro ret s h
      induction h with
      | stop hd => exact ⟨_, rfl, .exit ⟨_, hd, rfl⟩⟩
      | @again ret d r s hd hr _ ih =>
        obtain ⟨u, rfl, hu⟩ := ih
        refine ⟨d ++ r ++ u, by simp, ?_⟩
        rw [visible_append, visible_append]
        exact .again (view R) ⟨_, hd, rfl⟩ (by simp) ⟨_, hr, rfl⟩ hu
    obtain ⟨u, rfl, hu⟩ := key _ _ h
    simpa using hu
  · intro h
    have key : ∀ w, loopL (view D) [view R] w → ∀ ret, ∃ u, LoopRun D R ret (ret ++ u) ∧ visible u = w := by
      intro w h
      induction h with
      | exit hd =>
        obtain ⟨d, hd, rfl⟩ := hd
        intro ret; exact ⟨d, .stop hd, rfl⟩
      | again R' hd hR hr _ ih =>
        simp at hR; subst hR
        obtain ⟨d, hd, rfl⟩ := hd
        obtain ⟨r, hr, rfl⟩ := hr
        intro ret
        obtain ⟨u, hu, rfl⟩ := ih (ret ++ d ++ r)
        refine ⟨d ++ r ++ u, .again hd hr (by simpa using hu), by simp [visible_append]⟩
    obtain ⟨u, hu, rfl⟩ := key w h []
    exact ⟨u, hu, rfl⟩

end Verif.TreePlayout
