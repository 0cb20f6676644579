import Verif.Replay.Model
set_option linter.unusedSectionVars false
/-
C26: the table of hidden paths holds shortest paths of hidden transitions.
-/
namespace Verif
open Dict
namespace Replay
variable {P T A : Type} [DecidableEq P] [DecidableEq T] [DecidableEq A]

/-- Specification: a non-empty chain of hidden transitions from `p` to `q`; each transition consumes from a place and
produces on the next one. -/
inductive HiddenPath (net : Net P T) (lab : T → Option A) : P → List T → P → Prop
  | single {p q : P} {t : T} : t ∈ net.transitions → lab t = none → p ∈ (net.inArcs t).map Prod.fst →
      q ∈ (net.outArcs t).map Prod.fst → HiddenPath net lab p [t] q
  | snoc {p r q : P} {l : List T} {t : T} : HiddenPath net lab p l r → t ∈ net.transitions → lab t = none →
      r ∈ (net.inArcs t).map Prod.fst → q ∈ (net.outArcs t).map Prod.fst → HiddenPath net lab p (l ++ [t]) q

/-- hidden transitions after a place, with the places they produce on -/
def edges (net : Net P T) (lab : T → Option A) (cur : P) : List (T × P) :=
  (net.transitions.filter fun t => decide (cur ∈ (net.inArcs t).map Prod.fst) && (lab t).isNone).flatMap fun t =>
    (net.outArcs t).map fun a => (t, a.1)

theorem mem_edges (net : Net P T) (lab : T → Option A) (cur : P) (t : T) (r : P) : (t, r) ∈ edges net lab cur ↔
    t ∈ net.transitions ∧ lab t = none ∧ cur ∈ (net.inArcs t).map Prod.fst ∧ r ∈ (net.outArcs t).map Prod.fst := by
  simp only [edges, List.mem_flatMap, List.mem_filter, List.mem_map, Bool.and_eq_true, decide_eq_true_eq, Option.isNone_iff_eq_none,
    Prod.mk.injEq]
  constructor
  · rintro ⟨t', ⟨h1, h2, h3⟩, a, h4, rfl, rfl⟩
    exact ⟨h1, h3, h2, a, h4, rfl⟩
  · rintro ⟨h1, h2, h3, a, h4, rfl⟩
    exact ⟨t, ⟨h1, h3, h2⟩, a, h4, rfl, rfl⟩

/-- one edge of the search -/
def relax (rec : P → List T → Dict P (List T) → Dict P (List T)) (path : List T) (d : Dict P (List T)) (x : T × P) : Dict P (List T) :=
  if improves d x.2 path.length then
    rec x.2 (path ++ [x.1]) (Dict.set d x.2 (path ++ [x.1]))
  else d

theorem shortest_succ (net : Net P T) (lab : T → Option A) (fuel : Nat) (cur : P) (path : List T) (d : Dict P (List T)) :
    shortest net lab (fuel + 1) cur path d = (edges net lab cur).foldl (relax (shortest net lab fuel) path) d := by
  unfold edges
  rw [List.foldl_flatMap]
  simp only [List.foldl_map]
  rfl

/-- the entry of `q` is at most `n` -/
def AtMost (d : Dict P (List T)) (q : P) (n : Nat) : Prop := ∃ l, get? d q = some l ∧ l.length ≤ n

/-- every hidden successor of `q` has an entry at most one longer than that of `q` -/
def ClosedAt (net : Net P T) (lab : T → Option A) (N : Nat) (d : Dict P (List T)) (q : P) : Prop :=
  ∀ l, get? d q = some l → l.length < N → ∀ x ∈ edges net lab q, AtMost d x.2 (l.length + 1)

/-- entries only get shorter, and changed entries are longer than `n` -/
structure Mono (n : Nat) (d d' : Dict P (List T)) : Prop where
  shorter : ∀ q l, get? d q = some l → AtMost d' q l.length
  changed : ∀ q, get? d' q = get? d q ∨ ∃ l, get? d' q = some l ∧ n + 1 ≤ l.length

theorem Mono.refl (n : Nat) (d : Dict P (List T)) : Mono n d d := ⟨fun _ l h => ⟨l, h, Nat.le_refl _⟩, fun _ => .inl rfl⟩

theorem Mono.trans {n : Nat} {d1 d2 d3 : Dict P (List T)} (h1 : Mono n d1 d2) (h2 : Mono n d2 d3) : Mono n d1 d3 where
  shorter q l h := by
    obtain ⟨l1, a1, b1⟩ := h1.shorter q l h
    obtain ⟨l2, a2, b2⟩ := h2.shorter q l1 a1
    exact ⟨l2, a2, by omega⟩
  changed q := by
    rcases h2.changed q with h | h
    · rcases h1.changed q with h' | h'
      · exact .inl (h.trans h')
      · exact .inr (by rw [h]; exact h')
    · exact .inr h

theorem Mono.weaken {n k : Nat} (hk : k ≤ n) {d1 d2 : Dict P (List T)} (h : Mono n d1 d2) : Mono k d1 d2 where
  shorter := h.shorter
  changed q := by
    rcases h.changed q with h | ⟨l, h, h'⟩
    · exact .inl h
    · exact .inr ⟨l, h, by omega⟩

theorem Mono.atMost {n : Nat} {d1 d2 : Dict P (List T)} (h : Mono n d1 d2) {q : P} {k : Nat} (hq : AtMost d1 q k) : AtMost d2 q k := by
  obtain ⟨l, a, b⟩ := hq
  obtain ⟨l2, a2, b2⟩ := h.shorter q l a
  exact ⟨l2, a2, by omega⟩

theorem shortest_spec (net : Net P T) (lab : T → Option A) (N : Nat) (fuel : Nat) : ∀ (cur : P) (path : List T) (d : Dict P (List T)) (X : P → Prop),
    fuel + path.length = N → (∀ q, ¬ X q → ClosedAt net lab N d q) →
    Mono path.length d (shortest net lab fuel cur path d) ∧ (∀ q, ¬ X q → ClosedAt net lab N (shortest net lab fuel cur path d) q) ∧
    (0 < fuel → ∀ x ∈ edges net lab cur, AtMost (shortest net lab fuel cur path d) x.2 (path.length + 1)) := by
  induction fuel with
  | zero => intro cur path d X _ hX; exact ⟨Mono.refl _ _, hX, by omega⟩
  | succ fuel ih =>
    intro cur path d X hN hX
    rw [shortest_succ]
    suffices h : ∀ (E : List (T × P)) (d : Dict P (List T)), (∀ q, ¬ X q → ClosedAt net lab N d q) →
        Mono path.length d (E.foldl (relax (shortest net lab fuel) path) d) ∧
        (∀ q, ¬ X q → ClosedAt net lab N (E.foldl (relax (shortest net lab fuel) path) d) q) ∧
        (∀ x ∈ E, AtMost (E.foldl (relax (shortest net lab fuel) path) d) x.2 (path.length + 1)) by
      obtain ⟨h1, h2, h3⟩ := h (edges net lab cur) d hX
      exact ⟨h1, h2, fun _ => h3⟩
    intro E
    induction E with
    | nil => intro d hX; exact ⟨Mono.refl _ _, hX, by simp⟩
    | cons x E ihE =>
      intro d hX
      simp only [List.foldl_cons]
      have hstep : Mono path.length d (relax (shortest net lab fuel) path d x) ∧
          (∀ q, ¬ X q → ClosedAt net lab N (relax (shortest net lab fuel) path d x) q) ∧
          AtMost (relax (shortest net lab fuel) path d x) x.2 (path.length + 1) := by
        unfold relax
        split
        · next hc =>
          have hset : get? (Dict.set d x.2 (path ++ [x.1])) x.2 = some (path ++ [x.1]) := by rw [get?_set]; simp
          have hm1 : Mono path.length d (Dict.set d x.2 (path ++ [x.1])) := by
            constructor
            · intro q l hq
              by_cases hqx : x.2 = q
              · subst hqx
                refine ⟨_, hset, ?_⟩
                simp [improves, hq] at hc ⊢; omega
              · exact ⟨l, by rw [get?_set]; simp [hqx, hq], Nat.le_refl _⟩
            · intro q
              by_cases hqx : x.2 = q
              · subst hqx; exact .inr ⟨_, hset, by simp⟩
              · exact .inl (by rw [get?_set]; simp [hqx])
          obtain ⟨i1, i2, i3⟩ := ih x.2 (path ++ [x.1]) (Dict.set d x.2 (path ++ [x.1])) (fun q => X q ∨ q = x.2)
            (by simp only [List.length_append, List.length_singleton]; omega) (by
              intro q hq l hl hlN y hy
              have hqX : ¬ X q := fun h => hq (.inl h)
              have hqx : ¬ x.2 = q := fun h => hq (.inr h.symm)
              rw [get?_set] at hl
              simp only [hqx, if_false] at hl
              exact hm1.atMost (hX q hqX l hl hlN y hy))
          have i1' : Mono path.length (Dict.set d x.2 (path ++ [x.1])) _ := i1.weaken (by simp)
          refine ⟨hm1.trans i1', ?_, i1'.atMost ⟨_, hset, by simp⟩⟩
          intro q hq
          by_cases hqx : q = x.2
          · subst hqx
            intro l hl hlN y hy
            -- the entry of `x.2` did not change in the recursive call
            have hle := i1.shorter x.2 _ hset
            obtain ⟨l', h1, h2⟩ := hle
            rw [hl] at h1; cases h1
            have hge : path.length + 1 ≤ l.length := by
              rcases i1.changed x.2 with h | ⟨l'', h, h'⟩
              · rw [hl, hset] at h; cases h; simp
              · rw [hl] at h; cases h; simp at h'; omega
            have hfuel : 0 < fuel := by simp at h2; omega
            obtain ⟨l3, h3, h4⟩ := i3 hfuel y hy
            exact ⟨l3, h3, by simp at h4; omega⟩
          · exact i2 q (fun h => by rcases h with h | h; exacts [hq h, hqx h])
        · next hc =>
          refine ⟨Mono.refl _ _, hX, ?_⟩
          cases hg : get? d x.2 with
          | none => simp [improves, hg] at hc
          | some l => exact ⟨l, hg, by simp [improves, hg] at hc; omega⟩
      obtain ⟨s1, s2, s3⟩ := hstep
      obtain ⟨j1, j2, j3⟩ := ihE _ s2
      refine ⟨s1.trans j1, j2, ?_⟩
      intro y hy
      rcases List.mem_cons.1 hy with rfl | hy
      · exact j1.atMost s3
      · exact j3 y hy

/-- all entries are paths from `p` -/
def AllPaths (net : Net P T) (lab : T → Option A) (p : P) (d : Dict P (List T)) : Prop :=
  ∀ q l, get? d q = some l → HiddenPath net lab p l q

theorem shortest_paths (net : Net P T) (lab : T → Option A) (p : P) (fuel : Nat) : ∀ (cur : P) (path : List T) (d : Dict P (List T)),
    (HiddenPath net lab p path cur ∨ (path = [] ∧ cur = p)) → AllPaths net lab p d → AllPaths net lab p (shortest net lab fuel cur path d) := by
  induction fuel with
  | zero => intro cur path d _ h; exact h
  | succ fuel ih =>
    intro cur path d hp hd
    rw [shortest_succ]
    have hE : ∀ x ∈ edges net lab cur, HiddenPath net lab p (path ++ [x.1]) x.2 := by
      rintro ⟨t, r⟩ hx
      obtain ⟨h1, h2, h3, h4⟩ := (mem_edges net lab cur t r).1 hx
      rcases hp with hp | ⟨rfl, rfl⟩
      · exact .snoc hp h1 h2 h3 h4
      · exact .single h1 h2 h3 h4
    generalize edges net lab cur = E at hE
    induction E generalizing d with
    | nil => exact hd
    | cons x E ihE =>
      simp only [List.foldl_cons]
      apply ihE
      · unfold relax
        split
        · apply ih _ _ _ (.inl (hE x (by simp)))
          intro q l hq
          rw [get?_set] at hq
          split at hq
          · next h => subst h; cases hq; exact hE x (by simp)
          · exact hd q l hq
        · exact hd
      · exact fun y hy => hE y (by simp [hy])

/-- An entry of the table is a chain of hidden transitions between the two places, and no chain is shorter; every chain of
at most 51 hidden transitions has an entry. -/
theorem _root_.Verif.C26_hidden_paths (net : Net P T) (lab : T → Option A) (p q : P) :
    (∀ l, hiddenPaths net lab p q = some l → HiddenPath net lab p l q ∧ ∀ l', HiddenPath net lab p l' q → l.length ≤ l'.length) ∧
    (p ∈ net.places → ∀ l', HiddenPath net lab p l' q → l'.length ≤ 51 →
      ∃ l, hiddenPaths net lab p q = some l ∧ l.length ≤ l'.length) := by
  have hspec := shortest_spec net lab 51 51 p [] [] (fun _ => False) rfl (by intro q _ l hl; simp at hl)
  have hall := shortest_paths net lab p 51 p [] [] (.inr ⟨rfl, rfl⟩) (by intro q l hl; simp at hl)
  have key : ∀ l' r, HiddenPath net lab p l' r → l'.length ≤ 51 → AtMost (shortest net lab 51 p [] []) r l'.length := by
    intro l' r h
    induction h with
    | @single q t h1 h2 h3 h4 =>
      intro _
      exact hspec.2.2 (by omega) (t, q) ((mem_edges net lab p t q).2 ⟨h1, h2, h3, h4⟩)
    | @snoc r q l t hp h1 h2 h3 h4 ih =>
      intro hle
      simp only [List.length_append, List.length_singleton] at hle ⊢
      obtain ⟨l1, a1, b1⟩ := ih (by omega)
      obtain ⟨l2, a2, b2⟩ := hspec.2.1 r (by simp) l1 a1 (by omega) (t, q) ((mem_edges net lab r t q).2 ⟨h1, h2, h3, h4⟩)
      exact ⟨l2, a2, by omega⟩
  have hlen : ∀ (fuel : Nat) (cur : P) (path : List T) (d : Dict P (List T)), (∀ q l, get? d q = some l → l.length ≤ 51) →
      fuel + path.length = 51 → ∀ q l, get? (shortest net lab fuel cur path d) q = some l → l.length ≤ 51 := by
    intro fuel
    induction fuel with
    | zero => intro cur path d hd _; exact hd
    | succ fuel ih =>
      intro cur path d hd hN
      rw [shortest_succ]
      generalize edges net lab cur = E
      induction E generalizing d with
      | nil => exact hd
      | cons x E ihE =>
        simp only [List.foldl_cons]
        apply ihE
        unfold relax
        split
        · apply ih _ _ _ _ (by simp; omega)
          intro q l hq
          rw [get?_set] at hq
          split at hq
          · cases hq; simp; omega
          · exact hd q l hq
        · exact hd
  constructor
  · intro l hl
    unfold hiddenPaths at hl
    split at hl
    · refine ⟨hall q l hl, fun l' hl' => ?_⟩
      have hl51 := hlen 51 p [] [] (by intro q l hl; simp at hl) rfl q l hl
      by_cases h : l'.length ≤ 51
      · obtain ⟨l2, a, b⟩ := key l' q hl' h
        rw [hl] at a; cases a; exact b
      · omega
    · cases hl
  · intro hp l' hl' hle
    obtain ⟨l, a, b⟩ := key l' q hl' hle
    exact ⟨l, by unfold hiddenPaths; rw [if_pos hp]; exact a, b⟩

/-- Only hidden transitions of the net occur in the table. -/
theorem _root_.Verif.C26_hidden_paths_silent (net : Net P T) (lab : T → Option A) (p q : P) (l : List T)
    (h : hiddenPaths net lab p q = some l) : ∀ t ∈ l, t ∈ net.transitions ∧ lab t = none := by
  have := ((C26_hidden_paths net lab p q).1 l h).1
  clear h
  induction this with
  | single h1 h2 _ _ => simpa using ⟨h1, h2⟩
  | snoc _ h1 h2 _ _ ih =>
    intro t ht
    rcases List.mem_append.1 ht with h | h
    · exact ih t h
    · simp at h; subst h; exact ⟨h1, h2⟩

end Replay
end Verif
