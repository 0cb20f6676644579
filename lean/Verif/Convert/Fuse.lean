import Verif.Petri.Sys
/-
Fusing a silent transition with its neighbour keeps the behaviour (C15): token-game level.
-/
namespace Verif.Sys
open Verif Lang
variable {α : Type}

/-- the marking in which every token of `p` has been replaced by one token on each place of `q` -/
def hat (p : Nat) (q : List Nat) (M : Mk) : Mk := fun x => if x = p then 0 else M x + M p * q.count x

theorem hat_of_zero {p : Nat} {q : List Nat} {M : Mk} (h : M p = 0) : hat p q M = M := by
  funext x
  unfold hat
  split
  · subst x; exact h.symm
  · rw [h]; omega

theorem hat_zero (p : Nat) (q : List Nat) (M : Mk) : hat p q M p = 0 := by simp [hat]

/-! ### fusing with the producer: `s` has the single input place `p` -/

/-- `e'` is `e` with its tokens for `p` replaced by tokens for `q` -/
structure FusePost (p : Nat) (q : List Nat) (e e' : Tr α) : Prop where
  npre : p ∉ e.pre
  pre : e'.pre = e.pre
  lab : e'.lab = e.lab
  post : ∀ x, e'.post.count x = if x = p then 0 else e.post.count x + e.post.count p * q.count x

/-- the fused net: the silent transition `s : p → q` is gone -/
structure EntryFusion (T T' : List (Tr α)) (p : Nat) (q : List Nat) : Prop where
  mem : (⟨[p], q, none⟩ : Tr α) ∈ T
  nq : p ∉ q
  fwd : ∀ e ∈ T, e = ⟨[p], q, none⟩ ∨ ∃ e' ∈ T', FusePost p q e e'
  bwd : ∀ e' ∈ T', ∃ e ∈ T, FusePost p q e e'

variable {T T' : List (Tr α)} {p : Nat} {q : List Nat}

theorem FusePost.fires {e e' : Tr α} (h : FusePost p q e e') {M M1 : Mk} (hf : e.fires M M1) :
    e'.fires (hat p q M) (hat p q M1) := by
  have hp : e.pre.count p = 0 := List.count_eq_zero.2 h.npre
  refine ⟨fun x => ?_, fun x => ?_⟩
  · rw [h.pre]
    have := hf.1 x
    unfold hat
    split
    · subst x; omega
    · have := Nat.zero_le (M p * q.count x); omega
  · rw [h.pre, h.post x]
    have h1 := hf.2 x
    have h2 := hf.2 p
    unfold hat
    split
    · subst x; omega
    · have : M1 p = M p + e.post.count p := by omega
      rw [this, Nat.add_mul]
      omega

/-- the silent transition can empty `p` -/
theorem EntryFusion.drain (h : EntryFusion T T' p q) (n : Nat) : ∀ M : Mk, M p = n → Run T M [] (hat p q M) := by
  induction n with
  | zero => intro M hM; rw [hat_of_zero hM]; exact .nil
  | succ n ih =>
    intro M hM
    have hq : q.count p = 0 := List.count_eq_zero.2 h.nq
    let M1 : Mk := fun x => M x + q.count x - [p].count x
    have hf : (⟨[p], q, none⟩ : Tr α).fires M M1 := by
      refine ⟨fun x => ?_, fun x => ?_⟩
      · show toks [p] x ≤ _
        rw [toks_single]; split
        · subst x; omega
        · omega
      · show M x + q.count x - toks [p] x + toks [p] x = M x + q.count x
        rw [toks_single]; split
        · subst x; omega
        · omega
    have h1 : M1 p = n := by
      show M p + q.count p - toks [p] p = n
      rw [toks_single, if_pos rfl]; omega
    have e : hat p q M1 = hat p q M := by
      funext x
      unfold hat
      split
      · rfl
      · rw [h1, hM]
        show M x + q.count x - toks [p] x + _ = _
        rw [toks_single, if_neg ‹_›, Nat.add_mul]; omega
    have := (Run.step h.mem hf).trans (ih M1 h1)
    rw [e] at this
    simpa using this

theorem EntryFusion.simulate (h : EntryFusion T T' p q) {M M' : Mk} {w : List α} (hr : Run T M w M') :
    Run T' (hat p q M) w (hat p q M') := by
  induction hr with
  | nil => exact .nil
  | @snoc w M1 M2 e hr he hf ih =>
    rcases h.fwd e he with rfl | ⟨e', he', hfu⟩
    · have hq : q.count p = 0 := List.count_eq_zero.2 h.nq
      have e : hat p q M2 = hat p q M1 := by
        funext x
        have h1 : M2 x + toks [p] x = M1 x + q.count x := hf.2 x
        have h2 : M2 p + toks [p] p = M1 p + q.count p := hf.2 p
        rw [toks_single, if_pos rfl] at h2
        rw [toks_single] at h1
        unfold hat
        split
        · rfl
        · rw [if_neg ‹_›] at h1
          have : M1 p = M2 p + 1 := by omega
          rw [this, Nat.add_mul]; omega
      rw [e]
      simpa using ih
    · rw [← hfu.lab]
      exact .snoc ih he' (hfu.fires hf)

theorem EntryFusion.back (h : EntryFusion T T' p q) {M M' : Mk} {w : List α} (hr : Run T' M w M') (hM : M p = 0) :
    Run T M w M' ∧ M' p = 0 := by
  induction hr with
  | nil => exact ⟨.nil, hM⟩
  | @snoc w M1 M2 e' hr he hf ih =>
    obtain ⟨ih1, ih2⟩ := ih
    obtain ⟨e, he, hfu⟩ := h.bwd e' he
    have hp : e.pre.count p = 0 := List.count_eq_zero.2 hfu.npre
    have hq : q.count p = 0 := List.count_eq_zero.2 h.nq
    let N : Mk := fun x => M1 x + e.post.count x - e.pre.count x
    have hle : ∀ x, e.pre.count x ≤ M1 x := by
      intro x; have := hf.1 x; rw [hfu.pre] at this; exact this
    have hN : e.fires M1 N := by
      refine ⟨hle, fun x => ?_⟩
      have := hle x
      show M1 x + e.post.count x - e.pre.count x + e.pre.count x = _; omega
    have e2 : hat p q N = M2 := by
      funext x
      have h1 := hf.2 x
      rw [hfu.pre, hfu.post x] at h1
      have h3 := hle x
      unfold hat
      split
      · subst x
        rw [if_pos rfl] at h1; omega
      · rw [if_neg ‹_›] at h1
        have : N p = e.post.count p := by show M1 p + e.post.count p - e.pre.count p = _; omega
        rw [this]
        show M1 x + e.post.count x - e.pre.count x + _ = _
        omega
    have h2 := (Run.snoc ih1 he hN).trans (h.drain _ N rfl)
    rw [e2] at h2
    refine ⟨?_, ?_⟩
    · rw [hfu.lab]; simpa using h2
    · rw [← e2]; exact hat_zero _ _ _

/-! ### fusing with the consumer: `s` has the single output place `p` -/

/-- `e'` is `e` with the tokens it takes from `p` replaced by tokens from `q` -/
structure FusePre (p : Nat) (q : List Nat) (e e' : Tr α) : Prop where
  npost : p ∉ e.post
  post : e'.post = e.post
  lab : e'.lab = e.lab
  pre : ∀ x, e'.pre.count x = if x = p then 0 else e.pre.count x + e.pre.count p * q.count x

/-- the fused net: the silent transition `s : q → p` is gone -/
structure ExitFusion (T T' : List (Tr α)) (p : Nat) (q : List Nat) : Prop where
  mem : (⟨q, [p], none⟩ : Tr α) ∈ T
  nq : p ∉ q
  fwd : ∀ e ∈ T, e = ⟨q, [p], none⟩ ∨ ∃ e' ∈ T', FusePre p q e e'
  bwd : ∀ e' ∈ T', ∃ e ∈ T, FusePre p q e e'

theorem FusePre.fires {e e' : Tr α} (h : FusePre p q e e') {M M1 : Mk} (hf : e.fires M M1) :
    e'.fires (hat p q M) (hat p q M1) := by
  have hp : e.post.count p = 0 := List.count_eq_zero.2 h.npost
  refine ⟨fun x => ?_, fun x => ?_⟩
  · rw [h.pre]
    have h1 := hf.1 x
    have h2 := hf.1 p
    unfold hat
    split
    · omega
    · have := Nat.mul_le_mul_right (q.count x) h2; omega
  · rw [h.post, h.pre x]
    have h1 := hf.2 x
    have h2 := hf.2 p
    unfold hat
    split
    · subst x; omega
    · have : M p = M1 p + e.pre.count p := by omega
      rw [this, Nat.add_mul]
      omega

/-- the silent transition can fill `p` -/
theorem ExitFusion.fill (h : ExitFusion T T' p q) (n : Nat) : ∀ M : Mk, M p = n → Run T (hat p q M) [] M := by
  induction n with
  | zero => intro M hM; rw [hat_of_zero hM]; exact .nil
  | succ n ih =>
    intro M hM
    have hq : q.count p = 0 := List.count_eq_zero.2 h.nq
    let M1 : Mk := fun x => if x = p then n else M x + q.count x
    have h1 : M1 p = n := by simp [M1]
    have hf : (⟨q, [p], none⟩ : Tr α).fires M1 M := by
      refine ⟨fun x => ?_, fun x => ?_⟩
      · show q.count x ≤ if x = p then n else M x + q.count x
        split
        · subst x; omega
        · omega
      · show M x + q.count x = (if x = p then n else M x + q.count x) + toks [p] x
        rw [toks_single]; split
        · subst x; omega
        · omega
    have e : hat p q M1 = hat p q M := by
      funext x
      unfold hat
      split
      · rfl
      · rw [h1, hM]
        show (if x = p then n else M x + q.count x) + _ = _
        rw [if_neg ‹_›, Nat.add_mul]; omega
    have := (ih M1 h1).trans (Run.step h.mem hf)
    rw [e] at this
    simpa using this

theorem ExitFusion.simulate (h : ExitFusion T T' p q) {M M' : Mk} {w : List α} (hr : Run T M w M') :
    Run T' (hat p q M) w (hat p q M') := by
  induction hr with
  | nil => exact .nil
  | @snoc w M1 M2 e hr he hf ih =>
    rcases h.fwd e he with rfl | ⟨e', he', hfu⟩
    · have hq : q.count p = 0 := List.count_eq_zero.2 h.nq
      have e : hat p q M2 = hat p q M1 := by
        funext x
        have h1 : M2 x + q.count x = M1 x + toks [p] x := hf.2 x
        have h2 : M2 p + q.count p = M1 p + toks [p] p := hf.2 p
        rw [toks_single, if_pos rfl] at h2
        rw [toks_single] at h1
        unfold hat
        split
        · rfl
        · rw [if_neg ‹_›] at h1
          have : M2 p = M1 p + 1 := by omega
          rw [this, Nat.add_mul]; omega
      rw [e]
      simpa using ih
    · rw [← hfu.lab]
      exact .snoc ih he' (hfu.fires hf)

theorem ExitFusion.back (h : ExitFusion T T' p q) {M M' : Mk} {w : List α} (hr : Run T' M w M') (hM : M p = 0) :
    Run T M w M' ∧ M' p = 0 := by
  induction hr with
  | nil => exact ⟨.nil, hM⟩
  | @snoc w M1 M2 e' hr he hf ih =>
    obtain ⟨ih1, ih2⟩ := ih
    obtain ⟨e, he, hfu⟩ := h.bwd e' he
    have hp : e.post.count p = 0 := List.count_eq_zero.2 hfu.npost
    have hq : q.count p = 0 := List.count_eq_zero.2 h.nq
    -- the marking after filling `p`
    let N : Mk := fun x => if x = p then e.pre.count p else M1 x - e.pre.count p * q.count x
    have hNp : N p = e.pre.count p := by simp [N]
    have hle : ∀ x, x ≠ p → e.pre.count x + e.pre.count p * q.count x ≤ M1 x := by
      intro x hx
      have := hf.1 x
      rw [hfu.pre x, if_neg hx] at this; exact this
    have e1 : hat p q N = M1 := by
      funext x
      unfold hat
      split
      · subst x; exact ih2.symm
      · rw [hNp]
        show (if x = p then _ else M1 x - e.pre.count p * q.count x) + _ = _
        rw [if_neg ‹_›]
        have := hle x ‹_›; omega
    have hN : e.fires N M2 := by
      refine ⟨fun x => ?_, fun x => ?_⟩
      · show e.pre.count x ≤ if x = p then _ else _
        split
        · subst x; omega
        · have := hle x ‹_›; omega
      · have h1 := hf.2 x
        rw [hfu.post, hfu.pre x] at h1
        show M2 x + e.pre.count x = (if x = p then e.pre.count p else M1 x - e.pre.count p * q.count x) + e.post.count x
        split
        · subst x
          rw [if_pos rfl] at h1; omega
        · rw [if_neg ‹_›] at h1
          have := hle x ‹_›; omega
    have h2 := h.fill _ N rfl
    rw [e1] at h2
    refine ⟨?_, ?_⟩
    · rw [hfu.lab]
      have := Run.snoc (ih1.trans h2) he hN
      simpa using this
    · have h1 := hf.2 p
      rw [hfu.post, hfu.pre p, if_pos rfl] at h1
      omega

/-! ### removing a silent transition that never takes part -/

/-- only `s` (a silent self-loop, or nobody) produces into its input place `p`: it never fires -/
theorem dead_entry {s : Tr α} (hs : p ∈ s.pre) (h : ∀ e ∈ T, e = s ∨ (e ∈ T' ∧ p ∉ e.post)) {M M' : Mk} {w : List α}
    (hr : Run T M w M') (hM : M p = 0) : Run T' M w M' ∧ M' p = 0 := by
  induction hr with
  | nil => exact ⟨.nil, hM⟩
  | @snoc w M1 M2 e hr he hf ih =>
    obtain ⟨ih1, ih2⟩ := ih
    rcases h e he with rfl | ⟨he', hp⟩
    · have := hf.mem_pre hs; omega
    · refine ⟨.snoc ih1 he' hf, ?_⟩
      have h1 := hf.2 p
      rw [List.count_eq_zero.2 hp] at h1
      omega

/-- nobody but `s` takes tokens from the place `p` that `s` fills: `s` is in no run that leaves `p` empty -/
theorem dead_exit {s : Tr α} (hs : s.post = [p]) (hs' : s.pre.count p ≤ 1) (h : ∀ e ∈ T, e = s ∨ (e ∈ T' ∧ p ∉ e.pre)) {M M' : Mk} {w : List α}
    (hr : Run T M w M') : M p ≤ M' p ∧ (M' p = 0 → Run T' M w M') := by
  induction hr with
  | nil => exact ⟨Nat.le_refl _, fun _ => .nil⟩
  | @snoc w M1 M2 e hr he hf ih =>
    obtain ⟨ih1, ih2⟩ := ih
    rcases h e he with rfl | ⟨he', hp⟩
    · have h1 := hf.2 p
      have h2 := hf.1 p
      have h3 : e.post.count p = 1 := by rw [hs]; simp
      rw [h3] at h1
      exact ⟨by omega, fun h0 => by omega⟩
    · have h1 := hf.2 p
      rw [List.count_eq_zero.2 hp] at h1
      exact ⟨by omega, fun h0 => .snoc (ih2 (by omega)) he' hf⟩

end Verif.Sys
