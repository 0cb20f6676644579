import Verif.PTree.LangLemmas
/-
Token game on unit-weight nets given as lists of transitions (textbook semantics; used for C14, C15).
-/
namespace Verif.Sys
open Verif Lang
variable {α : Type}

/-- a marking: number of tokens of every place -/
abbrev Mk := Nat → Nat

/-- a transition: places it consumes from, places it produces to (with repetitions for parallel arcs), label -/
structure Tr (α : Type) where
  pre : List Nat
  post : List Nat
  lab : Option α

/-- one token for every occurrence in the list -/
def toks (l : List Nat) : Mk := fun p => l.count p

/-- sum of two markings -/
def madd (M N : Mk) : Mk := fun p => M p + N p

/-- `t` is enabled in `M`, and firing it gives `M'` -/
def Tr.fires (t : Tr α) (M M' : Mk) : Prop :=
  (∀ p, t.pre.count p ≤ M p) ∧ ∀ p, M' p + t.pre.count p = M p + t.post.count p

/-- `w` is the sequence of labels of a firing sequence from `M` to `M'` -/
inductive Run (T : List (Tr α)) (M : Mk) : List α → Mk → Prop
  | nil : Run T M [] M
  | snoc {w M1 M2 t} : Run T M w M1 → t ∈ T → t.fires M1 M2 → Run T M (w ++ t.lab.toList) M2

theorem Run.step {T : List (Tr α)} {M M' : Mk} {t : Tr α} (ht : t ∈ T) (h : t.fires M M') : Run T M t.lab.toList M' :=
  Run.snoc .nil ht h

theorem Run.trans {T : List (Tr α)} {M1 M2 M3 : Mk} {u v : List α} (h1 : Run T M1 u M2) (h2 : Run T M2 v M3) :
    Run T M1 (u ++ v) M3 := by
  induction h2 with
  | nil => simpa using h1
  | snoc _ ht hf ih => rw [← List.append_assoc]; exact .snoc ih ht hf

theorem Run.mono {T T' : List (Tr α)} (hT : ∀ t ∈ T, t ∈ T') {M M' : Mk} {w : List α} (h : Run T M w M') : Run T' M w M' := by
  induction h with
  | nil => exact .nil
  | snoc _ ht hf ih => exact .snoc ih (hT _ ht) hf

theorem Run.cast {T : List (Tr α)} {M M' : Mk} {w w' : List α} (h : Run T M w M') (e : w = w') : Run T M w' M' := e ▸ h

/-- first step of a run -/
theorem Run.head {T : List (Tr α)} {M M' : Mk} {w : List α} (h : Run T M w M') :
    (w = [] ∧ M' = M) ∨ ∃ t ∈ T, ∃ M1 v, t.fires M M1 ∧ Run T M1 v M' ∧ w = t.lab.toList ++ v := by
  induction h with
  | nil => exact .inl ⟨rfl, rfl⟩
  | snoc _ ht hf ih =>
    right
    rcases ih with ⟨rfl, rfl⟩ | ⟨t', ht', M1, v, hf', hr, rfl⟩
    · exact ⟨_, ht, _, [], hf, .nil, by simp⟩
    · exact ⟨t', ht', M1, _, hf', .snoc hr ht hf, by simp⟩

/-- a run with a word that is a concatenation can be split -/
theorem Run.split {T : List (Tr α)} {M M' : Mk} {w : List α} (h : Run T M w M') : ∀ u v, w = u ++ v →
    ∃ M1, Run T M u M1 ∧ Run T M1 v M' := by
  induction h with
  | nil =>
    intro u v e
    obtain ⟨rfl, rfl⟩ := List.append_eq_nil_iff.1 e.symm
    exact ⟨M, .nil, .nil⟩
  | @snoc w M1 M2 t hr ht hf ih =>
    intro u v e
    cases hl : t.lab with
    | none =>
      rw [hl] at e
      obtain ⟨N, h1, h2⟩ := ih u v (by simpa using e)
      exact ⟨N, h1, (Run.snoc h2 ht hf).cast (by simp [hl])⟩
    | some a =>
      rw [hl] at e
      simp only [Option.toList_some] at e
      rcases List.append_eq_append_iff.1 e with ⟨x, hx1, hx2⟩ | ⟨x, hx1, hx2⟩
      · subst hx1
        have : x = [] ∧ v = [a] ∨ x = [a] ∧ v = [] := by
          cases x with
          | nil => left; simpa using hx2.symm
          | cons b x =>
            right
            simp only [List.cons_append, List.cons.injEq] at hx2
            obtain ⟨rfl, hx3⟩ := hx2
            have := List.append_eq_nil_iff.1 hx3.symm
            simp [this.1, this.2]
        rcases this with ⟨rfl, rfl⟩ | ⟨rfl, rfl⟩
        · exact ⟨M1, by simpa using hr, (Run.step ht hf).cast (by simp [hl])⟩
        · exact ⟨M2, (Run.snoc hr ht hf).cast (by simp [hl]), .nil⟩
      · subst hx2
        obtain ⟨N, h1, h2⟩ := ih u x (by simpa using hx1)
        exact ⟨N, h1, (Run.snoc h2 ht hf).cast (by simp [hl])⟩

@[simp] theorem toks_nil (p : Nat) : toks [] p = 0 := rfl
theorem toks_append (l m : List Nat) : toks (l ++ m) = madd (toks l) (toks m) := by
  funext p; simp [toks, madd, List.count_append]
theorem toks_single (i p : Nat) : toks [i] p = if p = i then 1 else 0 := by
  simp only [toks, List.count_singleton, beq_iff_eq]
  by_cases h : p = i
  · simp [h]
  · rw [if_neg h, if_neg (Ne.symm h)]
theorem toks_pos {l : List Nat} {p : Nat} : 1 ≤ toks l p ↔ p ∈ l := by
  unfold toks; exact List.count_pos_iff
theorem toks_zero {l : List Nat} {p : Nat} : toks l p = 0 ↔ p ∉ l := by
  unfold toks; exact List.count_eq_zero

theorem madd_comm (M N : Mk) : madd M N = madd N M := by funext p; simp [madd, Nat.add_comm]
theorem madd_assoc (M N K : Mk) : madd (madd M N) K = madd M (madd N K) := by funext p; simp [madd, Nat.add_assoc]
@[simp] theorem madd_zero (M : Mk) : madd M (toks []) = M := by funext p; simp [madd]
@[simp] theorem zero_madd (M : Mk) : madd (toks []) M = M := by funext p; simp [madd]

/-- a transition that has exactly its input tokens -/
theorem fires_self (t : Tr α) : t.fires (toks t.pre) (toks t.post) :=
  ⟨fun _ => Nat.le_refl _, fun p => by simp only [toks]; omega⟩

theorem Tr.fires.frame {t : Tr α} {M M' : Mk} (h : t.fires M M') (N : Mk) : t.fires (madd M N) (madd M' N) := by
  refine ⟨fun p => ?_, fun p => ?_⟩
  · have := h.1 p; simp only [madd]; omega
  · have := h.2 p; simp only [madd]; omega

theorem Run.frame {T : List (Tr α)} {M M' : Mk} {w : List α} (h : Run T M w M') (N : Mk) :
    Run T (madd M N) w (madd M' N) := by
  induction h with
  | nil => exact .nil
  | snoc _ ht hf ih => exact .snoc ih ht (hf.frame N)

/-- firing is deterministic -/
theorem Tr.fires.det {t : Tr α} {M M1 M2 : Mk} (h1 : t.fires M M1) (h2 : t.fires M M2) : M1 = M2 := by
  funext p
  have := h1.2 p; have := h2.2 p; omega

/-- a place not touched keeps its tokens -/
theorem Tr.fires.untouched {t : Tr α} {M M' : Mk} (h : t.fires M M') {p : Nat} (h1 : p ∉ t.pre) (h2 : p ∉ t.post) :
    M' p = M p := by
  have := h.2 p
  rw [List.count_eq_zero.2 h1, List.count_eq_zero.2 h2] at this
  omega

theorem Tr.fires.mem_pre {t : Tr α} {M M' : Mk} (h : t.fires M M') {p : Nat} (hp : p ∈ t.pre) : 1 ≤ M p :=
  Nat.le_trans (List.count_pos_iff.2 hp) (h.1 p)

/-- a token after firing was there before or has been produced -/
theorem Tr.fires.pos {t : Tr α} {M M' : Mk} (h : t.fires M M') {p : Nat} (hp : 1 ≤ M' p) : 1 ≤ M p ∨ p ∈ t.post := by
  by_cases hq : p ∈ t.post
  · exact .inr hq
  · left
    have h2 := h.2 p; have := h.1 p
    rw [List.count_eq_zero.2 hq] at h2
    omega

/-- all places of the transitions are in `P` -/
def Within (T : List (Tr α)) (P : Nat → Prop) : Prop := ∀ t ∈ T, (∀ p ∈ t.pre, P p) ∧ ∀ p ∈ t.post, P p

theorem Run.outside {T : List (Tr α)} {P : Nat → Prop} (hT : Within T P) {M M' : Mk} {w : List α} (h : Run T M w M')
    {p : Nat} (hp : ¬ P p) : M' p = M p := by
  induction h with
  | nil => rfl
  | snoc _ ht hf ih =>
    rw [hf.untouched (fun hm => hp ((hT _ ht).1 p hm)) (fun hm => hp ((hT _ ht).2 p hm)), ih]

theorem Shuffle.snoc_left {u v w x : List α} (h : Shuffle u v w) : Shuffle (u ++ x) v (w ++ x) := by
  induction h with
  | nil => simpa using Shuffle.nil_right x
  | left _ ih => exact .left ih
  | right _ ih => exact .right ih

theorem Shuffle.snoc_right {u v w x : List α} (h : Shuffle u v w) : Shuffle u (v ++ x) (w ++ x) :=
  (Shuffle.snoc_left h.symm).symm

/-- one step of a net in the presence of foreign tokens -/
theorem Tr.fires.unframe {t : Tr α} {M N M' : Mk} (h : t.fires (madd M N) M') (hN : ∀ p ∈ t.pre, N p = 0) :
    ∃ M1, t.fires M M1 ∧ M' = madd M1 N := by
  have hc : ∀ p, t.pre.count p ≤ M p := by
    intro p
    by_cases hp : p ∈ t.pre
    · have := h.1 p; rw [madd, hN p hp] at this; omega
    · rw [List.count_eq_zero.2 hp]; omega
  refine ⟨fun p => M p + t.post.count p - t.pre.count p, ⟨hc, fun p => ?_⟩, ?_⟩
  · have := hc p; show M p + _ - _ + _ = _; omega
  · funext p
    have h1 := h.2 p; have h2 := hc p
    simp only [madd] at h1 ⊢; omega

/-- two nets on different places run independently -/
theorem Run.prod {T1 T2 : List (Tr α)} {P1 P2 : Nat → Prop} (h1 : Within T1 P1) (h2 : Within T2 P2)
    (hd : ∀ p, P1 p → ¬ P2 p) {M1 M2 M' : Mk} (hM1 : ∀ p, ¬ P1 p → M1 p = 0) (hM2 : ∀ p, ¬ P2 p → M2 p = 0) {w : List α}
    (h : Run (T1 ++ T2) (madd M1 M2) w M') :
    ∃ M1' M2' u v, M' = madd M1' M2' ∧ Run T1 M1 u M1' ∧ Run T2 M2 v M2' ∧ Shuffle u v w := by
  induction h with
  | nil => exact ⟨M1, M2, [], [], rfl, .nil, .nil, .nil⟩
  | @snoc w N N' t hr ht hf ih =>
    obtain ⟨M1', M2', u, v, rfl, hr1, hr2, hs⟩ := ih
    rcases List.mem_append.1 ht with ht | ht
    · obtain ⟨M1'', hf', rfl⟩ := hf.unframe fun p hp => by
        rw [hr2.outside h2 (hd p ((h1 t ht).1 p hp))]; exact hM2 p (hd p ((h1 t ht).1 p hp))
      exact ⟨M1'', M2', _, v, rfl, .snoc hr1 ht hf', hr2, Shuffle.snoc_left hs⟩
    · rw [madd_comm] at hf
      obtain ⟨M2'', hf', rfl⟩ := hf.unframe fun p hp => by
        have : ¬ P1 p := fun hp1 => hd p hp1 ((h2 t ht).1 p hp)
        rw [hr1.outside h1 this]; exact hM1 p this
      exact ⟨M1', M2'', u, _, madd_comm _ _, hr1, .snoc hr2 ht hf', Shuffle.snoc_right hs⟩

theorem Run.shuffle {T1 T2 : List (Tr α)} {u v w : List α} (hs : Shuffle u v w) : ∀ {M1 M2 M1' M2' : Mk},
    Run T1 M1 u M1' → Run T2 M2 v M2' → Run (T1 ++ T2) (madd M1 M2) w (madd M1' M2') := by
  have hL : ∀ t ∈ T1, t ∈ T1 ++ T2 := fun t h => List.mem_append.2 (.inl h)
  have hR : ∀ t ∈ T2, t ∈ T1 ++ T2 := fun t h => List.mem_append.2 (.inr h)
  induction hs with
  | nil =>
    intro M1 M2 M1' M2' h1 h2
    have := ((h1.mono hL).frame M2).trans ((madd_comm _ _ ▸ (madd_comm M2' M1' ▸ (h2.mono hR).frame M1') :
      Run (T1 ++ T2) (madd M1' M2) [] (madd M1' M2')))
    simpa using this
  | @left a u v w _ ih =>
    intro M1 M2 M1' M2' h1 h2
    obtain ⟨N, h3, h4⟩ := h1.split [a] u rfl
    exact ((h3.mono hL).frame M2).trans (ih h4 h2)
  | @right a u v w _ ih =>
    intro M1 M2 M1' M2' h1 h2
    obtain ⟨N, h3, h4⟩ := h2.split [a] v rfl
    have := (h3.mono hR).frame M1
    rw [madd_comm _ M1, madd_comm _ M1] at this
    exact this.trans (ih h1 h4)

end Verif.Sys
