import Verif.BusinessHours.Model
import Verif.CycleTime.Theorems
/-
Property theorems C69: business-hour durations.
-/
set_option linter.unusedSectionVars false
namespace Verif
open BH CycleTime
namespace BH

/-! ### specification -/

/-- the slots of a week: within the week, not ending before they begin -/
def SlotsOK (slots : List Slot) : Prop := ∀ s ∈ slots, 0 ≤ s.1 ∧ s.1 ≤ s.2 ∧ s.2 ≤ week

/-- the second `k` (from `k` to `k + 1`) is a business second: its position in the week lies in a slot -/
def open_ (slots : List Slot) (k : Int) : Bool := slots.any fun s => decide (s.1 ≤ k % week) && decide (k % week < s.2)

/-- no slot begins exactly one second after the end of another one -/
def NoGap (slots : List Slot) : Prop := ∀ s ∈ slots, ∀ s' ∈ slots, s'.1 ≠ s.2 + 1

/-- the number of seconds `k` with `a ≤ k < b` that satisfy `p` -/
def seconds (p : Int → Bool) (a b : Int) : Nat := ((List.range (b - a).toNat).filter fun i => p (a + (i : Nat))).length

theorem seconds_eq (p : Int → Bool) (a b : Int) : seconds p a b = cnt p a (b - a).toNat := rfl

theorem seconds_split {p : Int → Bool} {a b c : Int} (h1 : a ≤ b) (h2 : b ≤ c) : seconds p a c = seconds p a b + seconds p b c := by
  rw [seconds_eq, seconds_eq, seconds_eq, show (c - a).toNat = (b - a).toNat + (c - b).toNat by omega, cnt_add]
  congr 2
  omega

theorem seconds_full {p : Int → Bool} {a b : Int} (hab : a ≤ b) (h : ∀ k, a ≤ k → k < b → p k = true) :
    (seconds p a b : Int) = b - a := by
  rw [seconds_eq, cnt_full (fun k h1 h2 => h k h1 (by omega))]; omega

theorem seconds_none {p : Int → Bool} {a b : Int} (h : ∀ k, a ≤ k → k < b → p k = false) : seconds p a b = 0 := by
  rw [seconds_eq]
  exact cnt_none (fun k h1 h2 => h k h1 (by omega))

theorem seconds_congr {p q : Int → Bool} {a b : Int} (h : ∀ k, a ≤ k → k < b → p k = q k) : seconds p a b = seconds q a b := by
  rw [seconds_eq, seconds_eq]
  exact cnt_congr (fun k h1 h2 => h k h1 (by omega))

theorem seconds_empty {p : Int → Bool} {a b : Int} (h : b ≤ a) : seconds p a b = 0 := seconds_none fun k h1 h2 => by omega

theorem cnt_or {p q : Int → Bool} {a : Int} : ∀ {n : Nat}, (∀ k, a ≤ k → k < a + n → ¬ (p k = true ∧ q k = true)) →
    cnt (fun k => p k || q k) a n = cnt p a n + cnt q a n
  | 0, _ => by simp [cnt]
  | n + 1, h => by
    rw [cnt_succ, cnt_succ, cnt_succ, cnt_or (fun k h1 h2 => h k h1 (by omega))]
    have := h (a + n) (by omega) (by omega)
    cases hp : p (a + n) <;> cases hq : q (a + n) <;> simp_all <;> omega

theorem seconds_or {p q : Int → Bool} {a b : Int} (h : ∀ k, a ≤ k → k < b → ¬ (p k = true ∧ q k = true)) :
    seconds (fun k => p k || q k) a b = seconds p a b + seconds q a b := by
  rw [seconds_eq, seconds_eq, seconds_eq, cnt_or (fun k h1 h2 => h k h1 (by omega))]

/-- counting the seconds of an interval that lie in another interval -/
theorem seconds_interval {a b s e : Int} : (seconds (fun k => decide (s ≤ k) && decide (k < e)) a b : Int) = overlap a b s e := by
  unfold overlap
  by_cases h0 : b ≤ a
  · rw [seconds_empty h0]; omega
  by_cases h : min b e ≤ max a s
  · rw [seconds_none]
    · omega
    · intro k h1 h2
      rw [Bool.and_eq_false_iff]
      simp only [decide_eq_false_iff_not]
      omega
  · have hmn : max a s ≤ min b e := by omega
    rw [seconds_split (b := max a s) (by omega) (by omega), seconds_split (a := max a s) (b := min b e) hmn (by omega),
      seconds_none (a := a), seconds_none (a := min b e)]
    · have := seconds_full (p := fun k => decide (s ≤ k) && decide (k < e)) hmn (fun k h1 h2 => by
        simp only [Bool.and_eq_true, decide_eq_true_eq]; omega)
      omega
    · intro k h1 h2
      rw [Bool.and_eq_false_iff]
      simp only [decide_eq_false_iff_not]
      omega
    · intro k h1 h2
      rw [Bool.and_eq_false_iff]
      simp only [decide_eq_false_iff_not]
      omega

/-! ### one slot -/

theorem mod_eq {k w : Int} (h1 : w ≤ k) (h2 : k < w + week) (hw : w % week = 0) : k % week = k - w := by
  unfold week at *
  omega

/-- the `while` loop adds up the slot in all the following weeks -/
theorem weeks_spec (b e : Int) (hb : 0 ≤ b) (hbe : b ≤ e) (he : e ≤ week) (d1 d2 : Int) (n : Nat) : ∀ w : Int, (d2 - (w + b)).toNat ≤ n →
    w % week = 0 → d1 < w + week →
    weeks d1 d2 (w + b) (w + e) = seconds (fun k => decide (b ≤ k % week) && decide (k % week < e)) (max d1 (w + week)) d2 := by
  have hW : week = 604800 := rfl
  induction n using Nat.strongRecOn with
  | _ n ih =>
  intro w hn hw hd
  rw [weeks]
  have hmax : max d1 (w + week) = w + week := by omega
  rw [hmax]
  have hw' : (w + week) % week = 0 := by rw [hW] at *; omega
  have hin : ∀ k, w + week ≤ k → k < w + week + week → k % week = k - (w + week) := fun k h1 h2 => mod_eq h1 h2 hw'
  split
  · next h =>
    rw [seconds_none]
    · rfl
    · -- no overlap: nothing of the slot before d2, and d2 is in that week (or the slot is empty)
      intro k h1 h2
      rw [Bool.and_eq_false_iff]
      simp only [decide_eq_false_iff_not]
      unfold overlap at h
      by_cases hemp : b = e
      · omega
      · have hd2 : d2 ≤ w + week + b := by omega
        have := hin k h1 (by omega)
        omega
  · next h =>
    unfold overlap at h
    have hlt : w + b + week < d2 := by omega
    have := ih (d2 - (w + week + b)).toNat (by omega) (w + week) (Nat.le_refl _) hw' (by omega)
    rw [show w + b + week = w + week + b by omega, show w + e + week = w + week + e by omega, this]
    have hmax2 : max d1 (w + week + week) = w + week + week := by omega
    rw [hmax2]
    -- split at the end of that week
    by_cases hd2 : d2 ≤ w + week + week
    · rw [seconds_empty hd2]
      rw [seconds_congr (q := fun k => decide (w + week + b ≤ k) && decide (k < w + week + e)) (fun k h1 h2 => ?_), seconds_interval]
      · unfold overlap; omega
      · have := hin k h1 (by omega)
        rw [this, Bool.eq_iff_iff]
        simp only [Bool.and_eq_true, decide_eq_true_eq]
        omega
    · rw [seconds_split (a := w + week) (b := w + week + week) (c := d2) (by omega) (by omega)]
      rw [seconds_congr (a := w + week) (q := fun k => decide (w + week + b ≤ k) && decide (k < w + week + e)) (fun k h1 h2 => ?_)]
      · have := seconds_interval (a := w + week) (b := w + week + week) (s := w + week + b) (e := w + week + e)
        rw [Int.natCast_add, this]
        unfold overlap; omega
      · have := hin k h1 (by omega)
        rw [this, Bool.eq_iff_iff]
        simp only [Bool.and_eq_true, decide_eq_true_eq]
        omega

theorem slotSeconds_spec {s : Slot} (hb : 0 ≤ s.1) (hbe : s.1 ≤ s.2) (he : s.2 ≤ week) (d1 d2 : Int) :
    slotSeconds d1 d2 s = seconds (fun k => decide (s.1 ≤ k % week) && decide (k % week < s.2)) d1 d2 := by
  have hW : week = 604800 := rfl
  have h0 : weekStart d1 % week = 0 := by unfold weekStart; rw [hW]; omega
  have h1 : weekStart d1 ≤ d1 := by unfold weekStart; rw [hW]; omega
  have h2 : d1 < weekStart d1 + week := by unfold weekStart; rw [hW]; omega
  unfold slotSeconds
  rw [weeks_spec s.1 s.2 hb hbe he d1 d2 _ (weekStart d1) (Nat.le_refl _) h0 h2]
  have hmax : max d1 (weekStart d1 + week) = weekStart d1 + week := by omega
  rw [hmax]
  have hin : ∀ k, weekStart d1 ≤ k → k < weekStart d1 + week → k % week = k - weekStart d1 := fun k h1 h2 => mod_eq h1 h2 h0
  by_cases hd : d2 ≤ weekStart d1 + week
  · rw [seconds_empty hd, ← seconds_interval, Int.natCast_zero, Int.add_zero]
    congr 1
    refine seconds_congr fun k h3 h4 => ?_
    have := hin k (by omega) (by omega)
    rw [this, Bool.eq_iff_iff]
    simp only [Bool.and_eq_true, decide_eq_true_eq]
    omega
  · rw [seconds_split (a := d1) (b := weekStart d1 + week) (c := d2) (by omega) (by omega), Int.natCast_add]
    congr 1
    rw [seconds_congr (a := d1) (q := fun k => decide (weekStart d1 + s.1 ≤ k) && decide (k < weekStart d1 + s.2)) (fun k h3 h4 => ?_), seconds_interval]
    · unfold overlap; omega
    · have := hin k (by omega) (by omega)
      rw [this, Bool.eq_iff_iff]
      simp only [Bool.and_eq_true, decide_eq_true_eq]
      omega

/-! ### unification of the slots -/

/-- `x` lies in one of the slots -/
def cov (l : List Slot) (x : Int) : Prop := ∃ s ∈ l, s.1 ≤ x ∧ x < s.2

/-- what holds after the slots `P` -/
structure UInv (P acc : List Slot) : Prop where
  ok : ∀ s ∈ acc, 0 ≤ s.1 ∧ s.1 ≤ s.2 ∧ s.2 ≤ week
  sep : acc.Pairwise fun x y => y.2 < x.1
  cov : ∀ x, cov acc x ↔ (cov P x ∨ ∃ s ∈ P, ∃ s' ∈ P, s.2 = x ∧ s'.1 = x + 1)
  head : ∀ l rest, acc = l :: rest → (∃ s ∈ P, s.1 = l.1) ∧ (∃ s ∈ P, s.2 = l.2) ∧ ∀ s ∈ P, s.2 ≤ l.2
  ne : acc = [] → P = []

theorem uinv_step {P acc : List Slot} {s : Slot} (h : UInv P acc) (hs : 0 ≤ s.1 ∧ s.1 ≤ s.2 ∧ s.2 ≤ week) (hle : ∀ x ∈ P, x.1 ≤ s.1)
    (hPok : ∀ x ∈ P, x.1 ≤ x.2) : UInv (P ++ [s]) (unifyStep acc s) := by
  have hcov : ∀ x, BH.cov (P ++ [s]) x ↔ BH.cov P x ∨ (s.1 ≤ x ∧ x < s.2) := by
    intro x
    constructor
    · rintro ⟨y, hy, h'⟩
      rcases List.mem_append.1 hy with hy | hy
      · exact .inl ⟨y, hy, h'⟩
      · rw [List.mem_singleton.1 hy] at h'; exact .inr h'
    · rintro (⟨y, hy, h'⟩ | h')
      · exact ⟨y, List.mem_append_left _ hy, h'⟩
      · exact ⟨s, by simp, h'⟩
  cases acc with
  | nil =>
    have hP := h.ne rfl
    subst hP
    simp only [unifyStep, List.nil_append]
    refine ⟨fun y hy => by rw [List.mem_singleton.1 hy]; exact hs, by simp, fun x => ⟨.inl, ?_⟩, fun l rest e => ?_, by simp⟩
    · rintro (h' | ⟨y, hy, z, hz, h1, h2⟩)
      · exact h'
      · rw [List.mem_singleton.1 hy] at h1; rw [List.mem_singleton.1 hz] at h2; omega
    · simp only [List.cons.injEq] at e
      rw [← e.1]
      exact ⟨⟨s, by simp, rfl⟩, ⟨s, by simp, rfl⟩, by simp⟩
  | cons l rest =>
    obtain ⟨⟨u, hu, hul⟩, ⟨m, hm, hml⟩, hmax⟩ := h.head l rest rfl
    have hlok := h.ok l (by simp)
    obtain ⟨hsep1, hsep2⟩ := List.pairwise_cons.1 h.sep
    have hlb : l.1 ≤ s.1 := by have := hle u hu; omega
    simp only [unifyStep]
    split
    · next hge =>
      refine ⟨fun y hy => ?_, List.pairwise_cons.2 ⟨fun y hy => hsep1 y hy, hsep2⟩, fun x => ?_, fun l' rest' e => ?_, by simp⟩
      · rcases List.mem_cons.1 hy with rfl | hy
        · simp only; omega
        · exact h.ok y (by simp [hy])
      · have hc := h.cov x
        constructor
        · rintro ⟨y, hy, h1, h2⟩
          rcases List.mem_cons.1 hy with rfl | hy
          · simp only at h1 h2
            by_cases hx : x < l.2
            · rcases hc.1 ⟨l, by simp, h1, hx⟩ with h' | ⟨y, hy, z, hz, h'⟩
              · exact .inl ((hcov x).2 (.inl h'))
              · exact .inr ⟨y, List.mem_append_left _ hy, z, List.mem_append_left _ hz, h'⟩
            · by_cases hx' : s.1 ≤ x
              · exact .inl ((hcov x).2 (.inr ⟨hx', by omega⟩))
              · exact .inr ⟨m, List.mem_append_left _ hm, s, by simp, by omega, by omega⟩
          · rcases hc.1 ⟨y, by simp [hy], h1, h2⟩ with h' | ⟨y, hy, z, hz, h'⟩
            · exact .inl ((hcov x).2 (.inl h'))
            · exact .inr ⟨y, List.mem_append_left _ hy, z, List.mem_append_left _ hz, h'⟩
        · have hup : BH.cov (l :: rest) x → BH.cov ((l.1, max l.2 s.2) :: rest) x := by
            rintro ⟨y, hy, h1, h2⟩
            rcases List.mem_cons.1 hy with rfl | hy
            · exact ⟨(y.1, max y.2 s.2), by simp, h1, by simp only; omega⟩
            · exact ⟨y, by simp [hy], h1, h2⟩
          rintro (h' | ⟨y, hy, z, hz, h1, h2⟩)
          · rcases (hcov x).1 h' with h' | h'
            · exact hup (hc.2 (.inl h'))
            · exact ⟨(l.1, max l.2 s.2), by simp, by simp only; omega, by simp only; omega⟩
          · rcases List.mem_append.1 hz with hz | hz
            · rcases List.mem_append.1 hy with hy | hy
              · exact hup (hc.2 (.inr ⟨y, hy, z, hz, h1, h2⟩))
              · rw [List.mem_singleton.1 hy] at h1
                have := hle z hz
                omega
            · rw [List.mem_singleton.1 hz] at h2
              rcases List.mem_append.1 hy with hy | hy
              · have := hPok y hy
                -- x = end of y, s begins at x + 1
                by_cases hlx : l.1 ≤ x
                · refine ⟨(l.1, max l.2 s.2), by simp, hlx, ?_⟩
                  simp only
                  omega
                · -- the last block begins at s.1 = x + 1: then it is a slot of P that begins there
                  exact hup (hc.2 (.inr ⟨y, hy, u, hu, h1, by have := hle u hu; omega⟩))
              · rw [List.mem_singleton.1 hy] at h1
                omega
      · simp only [List.cons.injEq] at e
        rw [← e.1]
        refine ⟨⟨u, List.mem_append_left _ hu, hul⟩, ?_, fun y hy => ?_⟩
        · by_cases hm' : l.2 ≤ s.2
          · exact ⟨s, by simp, by simp only; omega⟩
          · exact ⟨m, List.mem_append_left _ hm, by simp only; omega⟩
        · rcases List.mem_append.1 hy with hy | hy
          · have := hmax y hy; simp only; omega
          · rw [List.mem_singleton.1 hy]; simp only; omega
    · next hlt =>
      refine ⟨fun y hy => ?_, List.pairwise_cons.2 ⟨fun y hy => ?_, h.sep⟩, fun x => ?_, fun l' rest' e => ?_, by simp⟩
      · rcases List.mem_cons.1 hy with rfl | hy
        · exact hs
        · exact h.ok y hy
      · rcases List.mem_cons.1 hy with rfl | hy
        · omega
        · have := hsep1 y hy; omega
      · have hc := h.cov x
        constructor
        · rintro ⟨y, hy, h1, h2⟩
          rcases List.mem_cons.1 hy with rfl | hy
          · exact .inl ((hcov x).2 (.inr ⟨h1, h2⟩))
          · rcases hc.1 ⟨y, hy, h1, h2⟩ with h' | ⟨y, hy, z, hz, h'⟩
            · exact .inl ((hcov x).2 (.inl h'))
            · exact .inr ⟨y, List.mem_append_left _ hy, z, List.mem_append_left _ hz, h'⟩
        · have hup : BH.cov (l :: rest) x → BH.cov (s :: l :: rest) x := by
            rintro ⟨y, hy, h'⟩
            exact ⟨y, List.mem_cons_of_mem _ hy, h'⟩
          rintro (h' | ⟨y, hy, z, hz, h1, h2⟩)
          · rcases (hcov x).1 h' with h' | h'
            · exact hup (hc.2 (.inl h'))
            · exact ⟨s, by simp, h'⟩
          · rcases List.mem_append.1 hz with hz | hz
            · rcases List.mem_append.1 hy with hy | hy
              · exact hup (hc.2 (.inr ⟨y, hy, z, hz, h1, h2⟩))
              · rw [List.mem_singleton.1 hy] at h1
                have := hle z hz
                omega
            · rw [List.mem_singleton.1 hz] at h2
              rcases List.mem_append.1 hy with hy | hy
              · have := hmax y hy
                omega
              · rw [List.mem_singleton.1 hy] at h1
                omega
      · simp only [List.cons.injEq] at e
        rw [← e.1]
        refine ⟨⟨s, by simp, rfl⟩, ⟨s, by simp, rfl⟩, fun y hy => ?_⟩
        rcases List.mem_append.1 hy with hy | hy
        · have := hmax y hy; omega
        · rw [List.mem_singleton.1 hy]; omega

theorem uinv_foldl : ∀ (l : List Slot) {P acc : List Slot}, UInv P acc → SlotsOK l → (∀ x ∈ P, x.1 ≤ x.2) → (∀ x ∈ P, ∀ y ∈ l, x.1 ≤ y.1) →
    l.Pairwise (fun x y => x.1 ≤ y.1) → UInv (P ++ l) (l.foldl unifyStep acc)
  | [], P, acc, h, _, _, _, _ => by simpa using h
  | s :: l, P, acc, h, hok, hP, hle, hp => by
    rw [List.pairwise_cons] at hp
    have hs := hok s (by simp)
    have := uinv_foldl l (uinv_step h hs (fun x hx => hle x hx s (by simp)) hP) (fun x hx => hok x (by simp [hx])) (fun x hx => by
        rcases List.mem_append.1 hx with hx | hx
        · exact hP x hx
        · rw [List.mem_singleton.1 hx]; exact hs.2.1) (fun x hx y hy => by
        rcases List.mem_append.1 hx with hx | hx
        · exact hle x hx y (by simp [hy])
        · rw [List.mem_singleton.1 hx]; exact hp.1 y hy) hp.2
    simpa using this

theorem slotLe_trans (a b c : Slot) (h1 : slotLe a b = true) (h2 : slotLe b c = true) : slotLe a c = true := by
  simp only [slotLe, Bool.or_eq_true, Bool.and_eq_true, decide_eq_true_eq] at *; omega

theorem slotLe_total (a b : Slot) : (slotLe a b || slotLe b a) = true := by
  simp only [slotLe, Bool.or_eq_true, Bool.and_eq_true, decide_eq_true_eq]; omega

theorem unify_spec {slots : List Slot} (hok : SlotsOK slots) :
    (∀ s ∈ unify slots, 0 ≤ s.1 ∧ s.1 ≤ s.2 ∧ s.2 ≤ week) ∧ ((unify slots).Pairwise fun x y => x.2 < y.1) ∧
    ∀ x, cov (unify slots) x ↔ (cov slots x ∨ ∃ s ∈ slots, ∃ s' ∈ slots, s.2 = x ∧ s'.1 = x + 1) := by
  have hperm := List.mergeSort_perm slots slotLe
  have hsort : (slots.mergeSort slotLe).Pairwise (fun x y => x.1 ≤ y.1) := by
    refine (List.pairwise_mergeSort slotLe_trans slotLe_total slots).imp fun {a b} h => ?_
    simp only [slotLe, Bool.or_eq_true, Bool.and_eq_true, decide_eq_true_eq] at h
    omega
  have h0 : UInv [] [] := ⟨by simp, by simp, by simp [cov], by simp, by simp⟩
  have h := uinv_foldl (slots.mergeSort slotLe) h0 (fun s hs => hok s (hperm.mem_iff.1 hs)) (by simp) (by simp) hsort
  rw [List.nil_append] at h
  refine ⟨fun s hs => h.ok s (List.mem_reverse.1 hs), ?_, fun x => ?_⟩
  · rw [unify, List.pairwise_reverse]; exact h.sep
  · have hc := h.cov x
    unfold cov at *
    simp only [unify, List.mem_reverse] at *
    rw [hc]
    simp only [hperm.mem_iff]

/-! ### the sum -/

theorem sum_spec (d1 d2 : Int) : ∀ (l : List Slot) (acc : Int), (∀ s ∈ l, 0 ≤ s.1 ∧ s.1 ≤ s.2 ∧ s.2 ≤ week) → l.Pairwise (fun x y => x.2 < y.1) →
    (l.map (slotSeconds d1 d2)).foldl (· + ·) acc = acc + seconds (open_ l) d1 d2
  | [], acc, _, _ => by
    rw [seconds_none (p := open_ []) fun k _ _ => rfl]; simp
  | s :: l, acc, hok, hp => by
    rw [List.pairwise_cons] at hp
    have hs := hok s (by simp)
    rw [List.map_cons, List.foldl_cons, sum_spec d1 d2 l _ (fun x hx => hok x (by simp [hx])) hp.2, slotSeconds_spec hs.1 hs.2.1 hs.2.2]
    have : seconds (open_ (s :: l)) d1 d2 = seconds (fun k => decide (s.1 ≤ k % week) && decide (k % week < s.2)) d1 d2 + seconds (open_ l) d1 d2 := by
      rw [← seconds_or]
      · exact seconds_congr fun k _ _ => by simp [open_]
      · rintro k _ _ ⟨h1, h2⟩
        simp only [Bool.and_eq_true, decide_eq_true_eq] at h1
        simp only [open_, List.any_eq_true, Bool.and_eq_true, decide_eq_true_eq] at h2
        obtain ⟨x, hx, h3⟩ := h2
        have := hp.1 x hx
        omega
    rw [this]
    omega

theorem open_iff {l : List Slot} {k : Int} : open_ l k = true ↔ cov l (k % week) := by
  simp [open_, cov, List.any_eq_true]

theorem seconds_le (p : Int → Bool) {a b : Int} (h : a ≤ b) : (seconds p a b : Int) ≤ b - a := by
  have : seconds p a b ≤ (b - a).toNat := by
    unfold seconds
    exact Nat.le_trans (List.length_filter_le _ _) (by simp)
  omega

end BH

/-- **C69 (1)**: for all slots of the week, in any order and overlapping or not, and for all two points in time: the business-hour duration is
the number of seconds between them whose position in the week lies in a slot, or is the single second between the end of a slot and
the begin of another one. -/
theorem C69_exact {slots : List Slot} (hok : SlotsOK slots) (d1 d2 : Int) :
    ∃ p : Int → Bool, (∀ k, p k = true ↔ (open_ slots k = true ∨ ∃ s ∈ slots, ∃ s' ∈ slots, s.2 = k % week ∧ s'.1 = k % week + 1)) ∧
      getSeconds slots d1 d2 = seconds p d1 d2 := by
  obtain ⟨h1, h2, h3⟩ := unify_spec hok
  refine ⟨open_ (unify slots), fun k => ?_, ?_⟩
  · rw [open_iff, open_iff, h3]
  · rw [getSeconds, sum_spec d1 d2 _ _ h1 h2, Int.zero_add]

/-- **C69 (2)**: if no slot begins exactly one second after the end of another one, the business-hour duration is the number of business
seconds between the two points in time. -/
theorem C69_business_seconds {slots : List Slot} (hok : SlotsOK slots) (hg : NoGap slots) (d1 d2 : Int) :
    getSeconds slots d1 d2 = seconds (open_ slots) d1 d2 := by
  obtain ⟨p, hp, h⟩ := C69_exact hok d1 d2
  rw [h]
  congr 1
  refine seconds_congr fun k _ _ => ?_
  rw [Bool.eq_iff_iff, hp]
  refine ⟨fun h => h.elim id fun ⟨s, hs, s', hs', e1, e2⟩ => absurd ?_ (hg s hs s' hs'), .inl⟩
  omega

/-- **C69 (3)**: business-hour durations are between 0 and the elapsed time, add up over consecutive intervals, and are 0 if the second time
is not after the first. -/
theorem C69_duration {slots : List Slot} (hok : SlotsOK slots) :
    (∀ d1 d2, 0 ≤ getSeconds slots d1 d2) ∧ (∀ d1 d2, d2 ≤ d1 → getSeconds slots d1 d2 = 0) ∧
    (∀ d1 d2, d1 ≤ d2 → getSeconds slots d1 d2 ≤ d2 - d1) ∧
    ∀ d1 d2 d3, d1 ≤ d2 → d2 ≤ d3 → getSeconds slots d1 d3 = getSeconds slots d1 d2 + getSeconds slots d2 d3 := by
  obtain ⟨h1, h2, h3⟩ := unify_spec hok
  have h : ∀ d1 d2, getSeconds slots d1 d2 = seconds (open_ (unify slots)) d1 d2 := fun d1 d2 => by
    rw [getSeconds, sum_spec d1 d2 _ _ h1 h2, Int.zero_add]
  refine ⟨fun d1 d2 => ?_, fun d1 d2 hle => ?_, fun d1 d2 hle => ?_, fun d1 d2 d3 ha hb => ?_⟩
  · rw [h]; omega
  · rw [h, seconds_empty hle]; rfl
  · rw [h]; exact seconds_le _ hle
  · rw [h, h, h, seconds_split ha hb]; omega

/-- **C69 (4)**: adding a slot, or repeating one, never shortens a duration, and the order of the slots does not matter. -/
theorem C69_monotone {slots slots' : List Slot} (hok : SlotsOK slots') (hsub : ∀ s ∈ slots, s ∈ slots') (d1 d2 : Int) :
    getSeconds slots d1 d2 ≤ getSeconds slots' d1 d2 := by
  obtain ⟨p, hp, h⟩ := C69_exact (fun s hs => hok s (hsub s hs)) d1 d2
  obtain ⟨q, hq, h'⟩ := C69_exact hok d1 d2
  rw [h, h']
  have : ∀ k, p k = true → q k = true := by
    intro k hk
    rw [hq]
    rcases (hp k).1 hk with h | ⟨s, hs, s', hs', e⟩
    · left
      rw [open_iff] at *
      obtain ⟨s, hs, h'⟩ := h
      exact ⟨s, hsub s hs, h'⟩
    · exact .inr ⟨s, hsub s hs, s', hsub s' hs', e⟩
  unfold seconds
  have : ∀ l : List Nat, (l.filter fun i => p (d1 + (i : Nat))).length ≤ (l.filter fun i => q (d1 + (i : Nat))).length := by
    intro l
    induction l with
    | nil => simp
    | cons x l ih =>
      rw [List.filter_cons, List.filter_cons]
      by_cases h1 : p (d1 + (x : Nat)) = true
      · rw [if_pos h1, if_pos (this _ h1)]; simpa using ih
      · rw [if_neg h1]
        split
        · simp only [List.length_cons]; omega
        · exact ih
  have := this (List.range (d2 - d1).toNat)
  omega

/-- **C69 (refuted without the condition)**: slots that leave a gap of one second are merged: with the slots `[0, 10)` and `[11, 20)` the duration
from second 10 to second 11 is one second although no slot is open. -/
theorem C69_gap_refuted : getSeconds [(0, 10), (11, 20)] 10 11 = 1 ∧ seconds (open_ [(0, 10), (11, 20)]) 10 11 = 0 := by
  have hok : SlotsOK [(0, 10), (11, 20)] := by unfold SlotsOK week; decide
  refine ⟨?_, by decide⟩
  obtain ⟨p, hp, h⟩ := C69_exact hok 10 11
  rw [h, seconds_full (by decide)]
  · rfl
  · intro k h1 h2
    have : k = 10 := by omega
    subst this
    exact (hp 10).2 (.inr ⟨(0, 10), by simp, (11, 20), by simp, by decide, by decide⟩)

/-- the default slots (Monday to Friday, 7:00 to 17:00) meet the conditions; a whole week has 50 business hours -/
theorem C69_default : SlotsOK defaultSlots ∧ NoGap defaultSlots := by
  constructor
  · unfold SlotsOK week defaultSlots; decide
  · unfold NoGap defaultSlots; decide

/-- Friday 16:00 to Monday 8:00: two business hours -/
theorem C69_case : getSeconds defaultSlots ((4 * 24 + 16) * 3600) ((7 * 24 + 8) * 3600) = 2 * 3600 := by
  have h : ∀ d1 d2, getSeconds defaultSlots d1 d2 = seconds (open_ defaultSlots) d1 d2 := C69_business_seconds C69_default.1 C69_default.2
  rw [h]
  rw [seconds_split (a := (4 * 24 + 16) * 3600) (b := (4 * 24 + 17) * 3600) (by decide) (by decide),
    seconds_split (a := (4 * 24 + 17) * 3600) (b := (7 * 24 + 7) * 3600) (by decide) (by decide),
    seconds_none (a := (4 * 24 + 17) * 3600)]
  · have e1 := seconds_full (p := open_ defaultSlots) (a := (4 * 24 + 16) * 3600) (b := (4 * 24 + 17) * 3600) (by decide) (fun k h1 h2 =>
      open_iff.2 ⟨((4 * 24 + 7) * 60 * 60, (4 * 24 + 17) * 60 * 60), by simp [defaultSlots], by unfold week; simp only; omega, by unfold week; simp only; omega⟩)
    have e2 := seconds_full (p := open_ defaultSlots) (a := (7 * 24 + 7) * 3600) (b := (7 * 24 + 8) * 3600) (by decide) (fun k h1 h2 =>
      open_iff.2 ⟨((0 * 24 + 7) * 60 * 60, (0 * 24 + 17) * 60 * 60), by simp [defaultSlots], by unfold week; simp only; omega, by unfold week; simp only; omega⟩)
    omega
  · intro k h1 h2
    rw [← Bool.not_eq_true, open_iff]
    rintro ⟨s, hs, h3, h4⟩
    simp only [defaultSlots, List.mem_cons, List.not_mem_nil, or_false] at hs
    unfold week at h3 h4
    rcases hs with rfl | rfl | rfl | rfl | rfl <;> simp only at h3 h4 <;> omega

end Verif
