import Verif.Lifecycle.Model
import Mathlib.Data.List.Induction
import Mathlib.Tactic.Linarith
set_option linter.unusedSectionVars false
namespace Verif
namespace Lifecycle
open Dict

/-! ### Specification of the matching of start and complete events -/

/-- `m` says which start event (by position) belongs to a complete event (by position) of the trace `t`: a start event of the same activity and
instance before it; the first come is served first, and a complete event goes without only if no start event is left -/
structure Matching (t : List Ev) (m : Nat → Option Nat) : Prop where
  start : ∀ p s, m p = some s → ∃ e f, t[p]? = some e ∧ t[s]? = some f ∧ isComplete e = true ∧ isStart f = true ∧ key f = key e ∧ s < p
  once : ∀ p p' s, m p = some s → m p' = some s → p = p'
  order : ∀ p p' s s' e e', m p = some s → m p' = some s' → t[p]? = some e → t[p']? = some e' → key e = key e' → p < p' → s < s'
  none : ∀ p s e f, t[p]? = some e → isComplete e = true → m p = Option.none → t[s]? = some f → isStart f = true → key f = key e → s < p →
    ∃ p', p' < p ∧ m p' = some s

/-- the positions of the complete events -/
def completes (t : List Ev) : List Nat := (List.range t.length).filter fun p => (t[p]?).any isComplete

/-- the interval event for position `p` -/
def resultAt (t : List Ev) (m : Nat → Option Nat) (p : Nat) : Option Ev :=
  (t[p]?).map fun e => interval e (((m p).bind fun s => (t[s]?).map Ev.ts).getD e.ts)

theorem not_both (e : Ev) (h : isStart e = true) : isComplete e = false := by
  unfold isStart at h
  unfold isComplete
  rw [beq_iff_eq] at h
  rw [h]; decide

/-- the state of the loop -/
structure Inv (t : List Ev) (acc : Dict (String × Option String) (List Ev) × List Ev) (m : Nat → Option Nat)
    (q : String × Option String → List Nat) : Prop where
  mat : Matching t m
  out : acc.2.map some = (completes t).map (resultAt t m)
  queue : ∀ k, ((Dict.get? acc.1 k).getD []).map some = (q k).map fun s => t[s]?
  sorted : ∀ k, (q k).Pairwise (· < ·)
  mem : ∀ k s, s ∈ q k ↔ ∃ f, t[s]? = some f ∧ isStart f = true ∧ key f = k ∧ ∀ p, m p ≠ some s
  older : ∀ p s e, m p = some s → t[p]? = some e → ∀ s' ∈ q (key e), s < s'

theorem get_snoc (t : List Ev) (e : Ev) (p : Nat) : (t ++ [e])[p]? = if p < t.length then t[p]? else if p = t.length then some e else none := by
  by_cases h : p < t.length
  · rw [if_pos h, List.getElem?_append_left h]
  · rw [if_neg h, List.getElem?_append_right (by omega)]
    by_cases h2 : p = t.length
    · simp [h2]
    · rw [if_neg h2]; simp; omega

theorem get_old (t : List Ev) (e f : Ev) (p : Nat) (h : t[p]? = some f) : (t ++ [e])[p]? = some f := by
  rw [List.getElem?_append_left (by have := (List.getElem?_eq_some_iff.1 h).1; exact this)]; exact h

theorem get_new (t : List Ev) (e f : Ev) (p : Nat) (h : (t ++ [e])[p]? = some f) : t[p]? = some f ∨ (p = t.length ∧ f = e) := by
  rw [get_snoc] at h
  split at h
  · exact .inl h
  · split at h
    · right; simp at h; exact ⟨by assumption, h.symm⟩
    · simp at h

theorem completes_snoc (t : List Ev) (e : Ev) : completes (t ++ [e]) = completes t ++ if isComplete e then [t.length] else [] := by
  unfold completes
  rw [List.length_append, List.length_singleton, List.range_succ, List.filter_append]
  congr 1
  · apply List.filter_congr
    intro p hp
    rw [List.mem_range] at hp
    rw [get_snoc, if_pos hp]
  · by_cases h : isComplete e = true <;> simp [h]

theorem mem_completes (t : List Ev) (p : Nat) (h : p ∈ completes t) : p < t.length := by
  unfold completes at h
  rw [List.mem_filter, List.mem_range] at h; exact h.1

theorem len_of_get (t : List Ev) (p : Nat) (e : Ev) (h : t[p]? = some e) : p < t.length := (List.getElem?_eq_some_iff.1 h).1

/-- a new position that gets no start event -/
theorem Inv.keep (t : List Ev) (acc : Dict (String × Option String) (List Ev) × List Ev) (m : Nat → Option Nat)
    (q : String × Option String → List Nat) (h : Inv t acc m q) (e : Ev) : m t.length = none := by
  cases hm : m t.length with
  | none => rfl
  | some s =>
    obtain ⟨e', _, h1, _⟩ := h.mat.start _ _ hm
    have := len_of_get _ _ _ h1; omega

theorem resultAt_old (t : List Ev) (e : Ev) (m m' : Nat → Option Nat) (hm : ∀ p, p < t.length → m' p = m p)
    (hs : ∀ p s, m p = some s → s < t.length) (p : Nat) (hp : p < t.length) : resultAt (t ++ [e]) m' p = resultAt t m p := by
  unfold resultAt
  rw [get_snoc, if_pos hp, hm p hp]
  cases hq : m p with
  | none => rfl
  | some s => simp only [Option.bind_some]; rw [get_snoc, if_pos (hs p s hq)]

theorem inv_exists (t : List Ev) : ∃ m q, Inv t (t.foldl pairStep ([], [])) m q := by
  induction t using List.reverseRecOn with
  | nil =>
    refine ⟨fun _ => none, fun _ => [], ⟨by simp, by simp, by simp, by simp⟩, ?_, ?_, ?_, ?_, ?_⟩ <;> simp [completes, Dict.get?]
  | append_singleton t e ih =>
    obtain ⟨m, q, h⟩ := ih
    rw [List.foldl_append, List.foldl_cons, List.foldl_nil]
    set acc := t.foldl pairStep ([], []) with hacc
    have hmn := h.keep t acc m q e
    have hlt : ∀ p s, m p = some s → s < t.length := by
      intro p s hp
      obtain ⟨_, _, _, h2, _⟩ := h.mat.start _ _ hp
      exact len_of_get _ _ _ h2
    have hltp : ∀ p s, m p = some s → p < t.length := by
      intro p s hp
      obtain ⟨_, _, h2, _⟩ := h.mat.start _ _ hp
      exact len_of_get _ _ _ h2
    have hqlt : ∀ k s, s ∈ q k → s < t.length := by
      intro k s hs
      obtain ⟨f, hf, _⟩ := (h.mem k s).1 hs
      exact len_of_get _ _ _ hf
    have hres : ∀ p ∈ completes t, resultAt (t ++ [e]) m p = resultAt t m p := fun p hp =>
      resultAt_old t e m m (fun _ _ => rfl) hlt p (mem_completes t p hp)
    have hqold : ∀ k, ((Dict.get? acc.1 k).getD []).map some = (q k).map fun s => (t ++ [e])[s]? := by
      intro k
      rw [h.queue k]
      apply List.map_congr_left
      intro s hs
      rw [get_snoc, if_pos (hqlt k s hs)]
    -- the matching is still one if the new event is not a complete event, or finds an empty queue
    have hmat : (isComplete e = true → q (key e) = []) → Matching (t ++ [e]) m := by
      intro hc
      refine ⟨?_, h.mat.once, ?_, ?_⟩
      · intro p s hp
        obtain ⟨e1, f1, a1, a2, a3⟩ := h.mat.start p s hp
        exact ⟨e1, f1, get_old _ _ _ _ a1, get_old _ _ _ _ a2, a3⟩
      · intro p p' s s' e1 e2 a1 a2 a3 a4 a5 a6
        have b1 : t[p]? = some e1 := by rw [get_snoc, if_pos (hltp p s a1)] at a3; exact a3
        have b2 : t[p']? = some e2 := by rw [get_snoc, if_pos (hltp p' s' a2)] at a4; exact a4
        exact h.mat.order p p' s s' e1 e2 a1 a2 b1 b2 a5 a6
      · intro p s e1 f1 a1 a2 a3 a4 a5 a6 a7
        rcases get_new _ _ _ _ a1 with b1 | ⟨b1, b2⟩
        · have hp := len_of_get _ _ _ b1
          have b2 : t[s]? = some f1 := by rw [get_snoc, if_pos (by omega)] at a4; exact a4
          exact h.mat.none p s e1 f1 b1 a2 a3 b2 a5 a6 a7
        · subst b2
          have b3 : t[s]? = some f1 := by rw [get_snoc, if_pos (by omega)] at a4; exact a4
          by_contra hno
          have : s ∈ q (key e1) := by
            rw [h.mem]
            refine ⟨f1, b3, a5, a6, fun p' hp' => hno ⟨p', ?_, hp'⟩⟩
            rw [b1]; exact hltp p' s hp'
          rw [hc a2] at this; simp at this
    unfold pairStep
    by_cases hs : isStart e = true
    · -- a start event
      have hcf := not_both e hs
      rw [if_pos hs]
      refine ⟨m, fun k => if k = key e then q k ++ [t.length] else q k, hmat (by rw [hcf]; simp), ?_, ?_, ?_, ?_, ?_⟩
      · try dsimp only
        rw [completes_snoc, hcf]
        simp only [Bool.false_eq_true, if_false, List.append_nil]
        rw [h.out]
        exact List.map_congr_left fun p hp => (hres p hp).symm
      · intro k
        try dsimp only
        by_cases hk : k = key e
        · subst hk
          simp only [get?_set, if_true, Option.getD_some, List.map_append]
          rw [hqold (key e)]
          simp
        · have hk' : ¬ key e = k := fun h => hk h.symm
          simp only [get?_set, hk, hk', if_false]
          exact hqold k
      · intro k
        try dsimp only
        split
        · rw [List.pairwise_append]
          refine ⟨h.sorted k, by simp, ?_⟩
          intro a ha b hb
          rw [List.mem_singleton] at hb; subst hb
          exact hqlt k a ha
        · exact h.sorted k
      · intro k s
        try dsimp only
        constructor
        · intro hmem
          have : s ∈ q k ∨ (k = key e ∧ s = t.length) := by
            split at hmem
            · rcases List.mem_append.1 hmem with a | a
              · exact .inl a
              · exact .inr ⟨by assumption, List.mem_singleton.1 a⟩
            · exact .inl hmem
          rcases this with a | ⟨a, b⟩
          · obtain ⟨f, b1, b2⟩ := (h.mem k s).1 a
            exact ⟨f, get_old _ _ _ _ b1, b2⟩
          · subst b
            refine ⟨e, by simp, hs, a.symm, fun p hp => ?_⟩
            have := hlt p _ hp; omega
        · rintro ⟨f, a1, a2, a3, a4⟩
          rcases get_new _ _ _ _ a1 with b | ⟨b1, b2⟩
          · have : s ∈ q k := (h.mem k s).2 ⟨f, b, a2, a3, a4⟩
            split
            · exact List.mem_append_left _ this
            · exact this
          · subst b2; subst b1
            rw [if_pos a3.symm]; simp
      · intro p s e1 a1 a2 s' hs'
        have hp := hltp p s a1
        rw [get_snoc, if_pos hp] at a2
        try dsimp only at hs'
        split at hs'
        · rcases List.mem_append.1 hs' with b | b
          · exact h.older p s e1 a1 a2 s' b
          · rw [List.mem_singleton] at b; subst b; exact hlt p s a1
        · exact h.older p s e1 a1 a2 s' hs'
    · rw [if_neg hs]
      by_cases hc : isComplete e = true
      · rw [if_pos hc]
        have hq := h.queue (key e)
        split
        · -- no open start event
          rename_i hnil
          rw [hnil] at hq
          have hq0 : q (key e) = [] := by
            cases hh : q (key e) with
            | nil => rfl
            | cons a b => rw [hh] at hq; simp at hq
          refine ⟨m, q, hmat fun _ => hq0, ?_, hqold, h.sorted, ?_, ?_⟩
          · rw [completes_snoc, hc]
            simp only [if_true, List.map_append]
            rw [h.out]
            congr 1
            · exact List.map_congr_left fun p hp => (hres p hp).symm
            · simp [resultAt, hmn]
          · intro k s
            constructor
            · intro a
              obtain ⟨f, b1, b2⟩ := (h.mem k s).1 a
              exact ⟨f, get_old _ _ _ _ b1, b2⟩
            · rintro ⟨f, a1, a2, a3, a4⟩
              rcases get_new _ _ _ _ a1 with b | ⟨b1, b2⟩
              · exact (h.mem k s).2 ⟨f, b, a2, a3, a4⟩
              · subst b2; exact absurd a2 hs
          · intro p s e1 a1 a2 s' hs'
            have hp := hltp p s a1
            rw [get_snoc, if_pos hp] at a2
            exact h.older p s e1 a1 a2 s' hs'
        · -- the oldest open start event is taken
          rename_i s0 rest hcons
          rw [hcons] at hq
          obtain ⟨x, xs, hqx, hx, hxs⟩ : ∃ x xs, q (key e) = x :: xs ∧ t[x]? = some s0 ∧ rest.map some = xs.map fun s => t[s]? := by
            cases hh : q (key e) with
            | nil => rw [hh] at hq; simp at hq
            | cons a b =>
              rw [hh] at hq
              simp only [List.map_cons, List.cons.injEq] at hq
              exact ⟨a, b, rfl, hq.1.symm, hq.2⟩
          have hxq : x ∈ q (key e) := by rw [hqx]; simp
          obtain ⟨f0, c1, c2, c3, c4⟩ := (h.mem _ _).1 hxq
          have hf0 : f0 = s0 := by rw [hx] at c1; simpa using c1.symm
          subst hf0
          have hxlt := len_of_get _ _ _ hx
          have hsort := h.sorted (key e)
          rw [hqx, List.pairwise_cons] at hsort
          set m' : Nat → Option Nat := fun p => if p = t.length then some x else m p with hm'
          have hm'old : ∀ p, p ≠ t.length → m' p = m p := fun p hp => by simp [hm', hp]
          have hm'new : m' t.length = some x := by simp [hm']
          have hm'c : ∀ p s, m' p = some s → (p = t.length ∧ s = x) ∨ (p < t.length ∧ m p = some s) := by
            intro p s hp
            by_cases hpn : p = t.length
            · left; subst hpn; rw [hm'new] at hp; exact ⟨rfl, by simpa using hp.symm⟩
            · right; rw [hm'old p hpn] at hp; exact ⟨hltp p s hp, hp⟩
          refine ⟨m', fun k => if k = key e then xs else q k, ⟨?_, ?_, ?_, ?_⟩, ?_, ?_, ?_, ?_, ?_⟩
          · intro p s hp
            rcases hm'c p s hp with ⟨rfl, rfl⟩ | ⟨_, b⟩
            · exact ⟨e, f0, by simp, get_old _ _ _ _ hx, hc, c2, c3, hxlt⟩
            · obtain ⟨e1, f1, a1, a2, a3⟩ := h.mat.start p s b
              exact ⟨e1, f1, get_old _ _ _ _ a1, get_old _ _ _ _ a2, a3⟩
          · intro p p' s a1 a2
            rcases hm'c p s a1 with ⟨b1, b2⟩ | ⟨_, b⟩ <;> rcases hm'c p' s a2 with ⟨d1, d2⟩ | ⟨_, d⟩
            · rw [b1, d1]
            · rw [b2] at d; exact absurd d (c4 p')
            · rw [d2] at b; exact absurd b (c4 p)
            · exact h.mat.once p p' s b d
          · intro p p' s s' e1 e2 a1 a2 a3 a4 a5 a6
            rcases hm'c p s a1 with ⟨b1, b2⟩ | ⟨b1, b2⟩ <;> rcases hm'c p' s' a2 with ⟨d1, d2⟩ | ⟨d1, d2⟩
            · omega
            · omega
            · subst d1; subst d2
              have he2 : e2 = e := by simpa using a4.symm
              subst he2
              rw [get_snoc, if_pos b1] at a3
              exact h.older p s e1 b2 a3 s' (by rw [a5]; exact hxq)
            · rw [get_snoc, if_pos b1] at a3
              rw [get_snoc, if_pos d1] at a4
              exact h.mat.order p p' s s' e1 e2 b2 d2 a3 a4 a5 a6
          · intro p s e1 f1 a1 a2 a3 a4 a5 a6 a7
            have hpn : p ≠ t.length := fun hh => by subst hh; rw [hm'new] at a3; simp at a3
            rw [hm'old p hpn] at a3
            rcases get_new _ _ _ _ a1 with b1 | ⟨b1, b2⟩
            · have hp := len_of_get _ _ _ b1
              rw [get_snoc, if_pos (by omega)] at a4
              obtain ⟨p', d1, d2⟩ := h.mat.none p s e1 f1 b1 a2 a3 a4 a5 a6 a7
              exact ⟨p', d1, by rw [hm'old p' (by omega)]; exact d2⟩
            · exact absurd b1 hpn
          · try dsimp only
            rw [completes_snoc, hc]
            simp only [if_true, List.map_append]
            rw [h.out]
            congr 1
            · exact List.map_congr_left fun p hp => (resultAt_old t e m m' (fun p hp => hm'old p (by omega)) hlt p (mem_completes t p hp)).symm
            · have hxe : (t ++ [e])[x]? = some f0 := get_old _ _ _ _ hx
              simp [resultAt, hm'new, hxe, -List.getElem?_append_left, -List.getElem?_append]
          · intro k
            try dsimp only
            by_cases hk : k = key e
            · subst hk
              simp only [get?_set, if_true, Option.getD_some]
              rw [hxs]
              apply List.map_congr_left
              intro s hs'
              rw [get_snoc, if_pos (hqlt (key e) s (by rw [hqx]; exact List.mem_cons_of_mem _ hs'))]
            · have hk' : ¬ key e = k := fun h => hk h.symm
              simp only [get?_set, hk, hk', if_false]
              exact hqold k
          · intro k
            try dsimp only
            split
            · exact hsort.2
            · exact h.sorted k
          · intro k s
            try dsimp only
            constructor
            · intro hmem
              have hold : s ∈ q k ∧ s ≠ x := by
                split at hmem
                · rename_i hk
                  subst hk
                  exact ⟨by rw [hqx]; exact List.mem_cons_of_mem _ hmem, fun hh => by have := hsort.1 s hmem; omega⟩
                · rename_i hk
                  refine ⟨hmem, fun hh => ?_⟩
                  subst hh
                  obtain ⟨f, b1, _, b3, _⟩ := (h.mem k s).1 hmem
                  rw [hx] at b1
                  simp only [Option.some.injEq] at b1
                  subst b1
                  exact hk (b3.symm.trans c3)
              obtain ⟨f, b1, b2, b3, b4⟩ := (h.mem k s).1 hold.1
              refine ⟨f, get_old _ _ _ _ b1, b2, b3, fun p hp => ?_⟩
              rcases hm'c p s hp with ⟨_, d⟩ | ⟨_, d⟩
              · exact hold.2 d
              · exact b4 p d
            · rintro ⟨f, a1, a2, a3, a4⟩
              rcases get_new _ _ _ _ a1 with b | ⟨b1, b2⟩
              · have hsx : s ≠ x := fun hh => a4 t.length (by rw [hm'new, hh])
                have : s ∈ q k := (h.mem k s).2 ⟨f, b, a2, a3, fun p hp => a4 p (by rw [hm'old p (by have := hltp p s hp; omega)]; exact hp)⟩
                split
                · rename_i hk
                  subst hk
                  rw [hqx] at this
                  exact (List.mem_cons.1 this).resolve_left hsx
                · exact this
              · subst b2; exact absurd a2 hs
          · intro p s e1 a1 a2 s' hs'
            try dsimp only at hs'
            rcases hm'c p s a1 with ⟨b1, b2⟩ | ⟨b1, b2⟩
            · subst b1
              have he : e1 = e := by simpa using a2.symm
              subst he
              rw [if_pos rfl] at hs'
              rw [b2]; exact hsort.1 s' hs'
            · rw [get_snoc, if_pos b1] at a2
              have : s' ∈ q (key e1) := by
                split at hs'
                · rename_i hk; rw [hk, hqx]; exact List.mem_cons_of_mem _ hs'
                · exact hs'
              exact h.older p s e1 b2 a2 s' this
      · -- another transition: the event is dropped
        rw [if_neg hc]
        refine ⟨m, q, hmat (by intro hh; exact absurd hh hc), ?_, hqold, h.sorted, ?_, ?_⟩
        · rw [completes_snoc]
          simp only [hc, Bool.false_eq_true, if_false, List.append_nil]
          rw [h.out]
          exact List.map_congr_left fun p hp => (hres p hp).symm
        · intro k s
          constructor
          · intro a
            obtain ⟨f, b1, b2⟩ := (h.mem k s).1 a
            exact ⟨f, get_old _ _ _ _ b1, b2⟩
          · rintro ⟨f, a1, a2, a3, a4⟩
            rcases get_new _ _ _ _ a1 with b | ⟨b1, b2⟩
            · exact (h.mem k s).2 ⟨f, b, a2, a3, a4⟩
            · subst b2; exact absurd a2 hs
        · intro p s e1 a1 a2 s' hs'
          have hp := hltp p s a1
          rw [get_snoc, if_pos hp] at a2
          exact h.older p s e1 a1 a2 s' hs'

end Lifecycle
end Verif
