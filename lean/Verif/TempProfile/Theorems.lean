import Verif.TempProfile.Model
import Mathlib.Tactic.Linarith
import Mathlib.Tactic.FieldSimp
import Mathlib.Tactic.Positivity
import Mathlib.Tactic.Ring
/-
Property theorems C71: temporal profiles.
-/
set_option linter.unusedSectionVars false
namespace Verif
open TempProfile Dict
namespace TempProfile

/-! ### specification -/

/-- the difference between the events at the positions `i` and `j` of the trace, if the second does not start before the first ends -/
def pairAt (tr : List Ev) (i j : Nat) : Option ((String × String) × Int) :=
  match tr[i]?, tr[j]? with
  | some e, some f => if e.et ≤ f.st then some ((e.act, f.act), f.st - e.et) else none
  | _, _ => none

/-- the pairs of positions of the trace, first before second -/
def positions (tr : List Ev) : List (Nat × Nat) :=
  (List.range tr.length).flatMap fun i => (List.range tr.length).filterMap fun j => if i < j then some (i, j) else none

/-- all the time differences between an `a` and a later `b` in the log -/
def observations (log : List (List Ev)) (ab : String × String) : List Int :=
  log.flatMap fun tr => (positions tr).filterMap fun p =>
    match pairAt tr p.1 p.2 with
    | some r => if r.1 = ab then some r.2 else none
    | none => none

/-! ### pairs -/

theorem range_succ_map (n : Nat) : List.range (n + 1) = 0 :: (List.range n).map Nat.succ := List.range_succ_eq_map

theorem positions_cons (e : Ev) (rest : List Ev) : positions (e :: rest) =
    ((List.range rest.length).map fun j => (0, j + 1)) ++ (positions rest).map fun p => (p.1 + 1, p.2 + 1) := by
  unfold positions
  rw [List.length_cons, range_succ_map, List.flatMap_cons]
  congr 1
  · rw [List.filterMap_cons]
    simp only [Nat.lt_irrefl, ↓reduceIte]
    rw [List.filterMap_map]
    simp only [Function.comp_def, Nat.succ_eq_add_one, Nat.zero_lt_succ, ↓reduceIte]
    rw [← List.filterMap_eq_map]
    rfl
  · rw [List.flatMap_map, List.map_flatMap]
    congr 1
    funext i
    rw [List.filterMap_cons]
    simp only [Nat.not_lt_zero, ↓reduceIte, Nat.succ_eq_add_one]
    rw [List.filterMap_map, List.map_filterMap]
    congr 1
    funext j
    simp only [Function.comp_def, Nat.succ_eq_add_one, Nat.add_lt_add_iff_right]
    split <;> rfl

theorem range_getElem? {β : Type} (rest : List Ev) (g : Ev → Option β) :
    ((List.range rest.length).filterMap fun j => (rest[j]?).bind g) = rest.filterMap g := by
  induction rest with
  | nil => rfl
  | cons x xs ih =>
    rw [List.length_cons, range_succ_map, List.filterMap_cons, List.filterMap_map, List.filterMap_cons]
    simp only [List.getElem?_cons_zero, Option.bind_some, Function.comp_def, Nat.succ_eq_add_one, List.getElem?_cons_succ]
    rw [ih]

theorem pairsOf_eq : ∀ tr : List Ev, pairsOf tr = (positions tr).filterMap fun p => pairAt tr p.1 p.2
  | [] => rfl
  | e :: rest => by
    rw [pairsOf, positions_cons, List.filterMap_append, List.filterMap_map, List.filterMap_map, pairsOf_eq rest]
    congr 1
    rw [diffsFrom, ← range_getElem?]
    congr 1
    funext j
    simp only [Function.comp_def, pairAt, List.getElem?_cons_zero, List.getElem?_cons_succ, ge_iff_le]
    cases rest[j]? <;> rfl

theorem mem_positions {tr : List Ev} {i j : Nat} : (i, j) ∈ positions tr ↔ i < j ∧ j < tr.length := by
  simp only [positions, List.mem_flatMap, List.mem_range, List.mem_filterMap]
  constructor
  · rintro ⟨a, ha, b, hb, h⟩
    split at h
    · next hab =>
      simp only [Option.some.injEq, Prod.mk.injEq] at h
      omega
    · cases h
  · rintro ⟨h1, h2⟩
    exact ⟨i, by omega, j, h2, by rw [if_pos h1]⟩

theorem mem_pairsOf {tr : List Ev} {r : (String × String) × Int} : r ∈ pairsOf tr ↔
    ∃ i j, ∃ hi : i < tr.length, ∃ hj : j < tr.length, i < j ∧ tr[i].et ≤ tr[j].st ∧ r = ((tr[i].act, tr[j].act), tr[j].st - tr[i].et) := by
  rw [pairsOf_eq, List.mem_filterMap]
  constructor
  · rintro ⟨⟨i, j⟩, hp, h⟩
    obtain ⟨h1, h2⟩ := mem_positions.1 hp
    refine ⟨i, j, by omega, h2, h1, ?_⟩
    simp only [pairAt, List.getElem?_eq_getElem (show i < tr.length by omega), List.getElem?_eq_getElem h2] at h
    split at h
    · next hle => exact ⟨hle, by simpa using h.symm⟩
    · cases h
  · rintro ⟨i, j, hi, hj, hij, hle, rfl⟩
    refine ⟨(i, j), mem_positions.2 ⟨hij, hj⟩, ?_⟩
    simp only [pairAt, List.getElem?_eq_getElem hi, List.getElem?_eq_getElem hj, if_pos hle]

/-! ### recordings -/

theorem get?_record (l : List ((String × String) × Int)) (ab : String × String) : ∀ d : Dict (String × String) (List Int),
    (∀ k, get? d k ≠ some []) →
    (get? (l.foldl record d) ab).getD [] = (get? d ab).getD [] ++ (l.filterMap fun r => if r.1 = ab then some r.2 else none) ∧
      ∀ k, get? (l.foldl record d) k ≠ some [] := by
  induction l with
  | nil => intro d hd; exact ⟨by simp, hd⟩
  | cons r l ih =>
    intro d hd
    rw [List.foldl_cons]
    have hd' : ∀ k, get? (record d r) k ≠ some [] := by
      intro k
      rw [record, get?_set]
      split
      · simp
      · exact hd k
    obtain ⟨h1, h2⟩ := ih (record d r) hd'
    refine ⟨?_, h2⟩
    rw [h1, record, get?_set, List.filterMap_cons]
    by_cases h : r.1 = ab
    · rw [if_pos h, if_pos h, h]; simp
    · rw [if_neg h, if_neg h]

theorem recordings_get (log : List (List Ev)) (ab : String × String) :
    get? (recordings log) ab = if observations log ab = [] then none else some (observations log ab) := by
  obtain ⟨h1, h2⟩ := get?_record (log.flatMap pairsOf) ab [] (by simp)
  have e : ((log.flatMap pairsOf).filterMap fun r => if r.1 = ab then some r.2 else none) = observations log ab := by
    rw [List.filterMap_flatMap]
    unfold observations
    congr 1
    funext tr
    rw [pairsOf_eq, List.filterMap_filterMap]
    congr 1
    funext p
    cases pairAt tr p.1 p.2 <;> rfl
  rw [e] at h1
  simp only [get?_nil, Option.getD_none, List.nil_append] at h1
  change (get? (recordings log) ab).getD [] = _ at h1
  have h2 := h2 ab
  change get? (recordings log) ab ≠ _ at h2
  cases h : get? (recordings log) ab with
  | none => rw [h] at h1; simp only [Option.getD_none] at h1; rw [if_pos h1.symm]
  | some xs =>
    rw [h] at h1 h2
    simp only [Option.getD_some] at h1
    rw [if_neg (fun e => h2 (by rw [h1, e])), h1]

theorem get?_map (d : Dict (String × String) (List Int)) (f : List Int → ℝ × ℝ) (k : String × String) :
    get? (d.map fun r => (r.1, f r.2)) k = (get? d k).map f := by
  induction d with
  | nil => rfl
  | cons e d ih =>
    obtain ⟨a, v⟩ := e
    rw [List.map_cons, get?_cons, get?_cons, ih]
    split <;> rfl

/-! ### Samuelson's inequality -/

theorem sum_sq_le (l : List ℝ) : l.sum ^ 2 ≤ (l.length : ℝ) * (l.map fun x => x ^ 2).sum := by
  induction l with
  | nil => simp
  | cons a l ih =>
    rw [List.sum_cons, List.map_cons, List.sum_cons, List.length_cons, Nat.cast_add, Nat.cast_one]
    have hq : 0 ≤ (l.map fun x => x ^ 2).sum := List.sum_nonneg (by
      intro x hx
      obtain ⟨y, _, rfl⟩ := List.mem_map.1 hx
      positivity)
    cases hn : l.length with
    | zero =>
      rw [List.length_eq_zero_iff] at hn
      subst hn
      simp
    | succ n =>
      rw [hn] at ih
      push_cast at *
      set s := l.sum
      set q := (l.map fun x => x ^ 2).sum
      have hpos : (0 : ℝ) < (n : ℝ) + 1 := by positivity
      have h2 : 2 * a * s ≤ ((n : ℝ) + 1) * a ^ 2 + q := by
        have h3 : ((n : ℝ) + 1) * (2 * a * s) ≤ ((n : ℝ) + 1) * (((n : ℝ) + 1) * a ^ 2 + q) := by
          nlinarith [sq_nonneg (((n : ℝ) + 1) * a - s)]
        exact le_of_mul_le_mul_left h3 hpos
      nlinarith

theorem perm_sum_map {l l' : List Int} (h : l.Perm l') (f : Int → ℝ) : (l.map f).sum = (l'.map f).sum := (h.map f).sum_eq

theorem sum_sub_const (l : List Int) (m : ℝ) : (l.map fun (x : Int) => (x : ℝ) - m).sum = (l.map fun (x : Int) => (x : ℝ)).sum - l.length * m := by
  induction l with
  | nil => simp
  | cons a l ih =>
    rw [List.map_cons, List.map_cons, List.sum_cons, List.sum_cons, ih, List.length_cons]
    push_cast
    ring

theorem sum_dev (l : List Int) (hl : l ≠ []) : (l.map fun (x : Int) => (x : ℝ) - mean l).sum = 0 := by
  have hn : (l.length : ℝ) ≠ 0 := by
    have := List.length_pos_iff.2 hl
    exact_mod_cast (by omega : l.length ≠ 0)
  rw [sum_sub_const, mean]
  field_simp
  ring

/-- the squared deviation of one value from the mean is at most `(n-1)/n` times the sum of all squared deviations -/
theorem samuelson {l : List Int} {x : Int} (hx : x ∈ l) :
    (l.length : ℝ) * ((x : ℝ) - mean l) ^ 2 ≤ ((l.length : ℝ) - 1) * (l.map fun (y : Int) => ((y : ℝ) - mean l) ^ 2).sum := by
  obtain ⟨ys, hp⟩ : ∃ ys, l.Perm (x :: ys) := ⟨_, List.perm_cons_erase hx⟩
  have hl : l ≠ [] := by rintro rfl; simp at hx
  have h0 := sum_dev l hl
  rw [perm_sum_map hp, List.map_cons, List.sum_cons] at h0
  rw [perm_sum_map hp fun (y : Int) => ((y : ℝ) - mean l) ^ 2, List.map_cons, List.sum_cons]
  have hc := sum_sq_le (ys.map fun (y : Int) => (y : ℝ) - mean l)
  rw [List.map_map, List.length_map] at hc
  have hlen : (l.length : ℝ) = (ys.length : ℝ) + 1 := by rw [hp.length_eq, List.length_cons]; push_cast; ring
  rw [hlen]
  have e : (ys.map fun (y : Int) => (y : ℝ) - mean l).sum = -((x : ℝ) - mean l) := by linarith
  rw [e] at hc
  simp only [Function.comp_def] at hc
  nlinarith [hc]

/-- a value is at most `ζ` standard deviations away from the mean if `(n-1)² ≤ ζ² n` -/
theorem within {l : List Int} {x : Int} (hx : x ∈ l) (hl : 1 < l.length) {zeta : ℝ} (hz : 0 ≤ zeta)
    (h : ((l.length : ℝ) - 1) ^ 2 ≤ zeta ^ 2 * l.length) : |(x : ℝ) - mean l| ≤ zeta * stdev l := by
  have hs := samuelson hx
  set S := (l.map fun (y : Int) => ((y : ℝ) - mean l) ^ 2).sum
  have hn : (1 : ℝ) < l.length := by exact_mod_cast hl
  have hn1 : (0 : ℝ) < (l.length : ℝ) - 1 := by linarith
  have hn0 : (0 : ℝ) < (l.length : ℝ) := by linarith
  have hS : 0 ≤ S := List.sum_nonneg (by
    intro y hy
    obtain ⟨z, _, rfl⟩ := List.mem_map.1 hy
    positivity)
  have hsd : stdev l = Real.sqrt (S / ((l.length : ℝ) - 1)) := rfl
  rw [← abs_of_nonneg (show 0 ≤ zeta * stdev l from mul_nonneg hz (by rw [hsd]; exact Real.sqrt_nonneg _)), ← sq_le_sq, mul_pow, hsd,
    Real.sq_sqrt (by positivity)]
  -- n (x-m)² ≤ (n-1) S and (n-1)² ≤ ζ² n
  have h1 : (l.length : ℝ) * ((x : ℝ) - mean l) ^ 2 ≤ (l.length : ℝ) * (zeta ^ 2 * (S / ((l.length : ℝ) - 1))) := by
    calc (l.length : ℝ) * ((x : ℝ) - mean l) ^ 2 ≤ ((l.length : ℝ) - 1) * S := hs
      _ = ((l.length : ℝ) - 1) ^ 2 * (S / ((l.length : ℝ) - 1)) := by field_simp
      _ ≤ (zeta ^ 2 * l.length) * (S / ((l.length : ℝ) - 1)) := mul_le_mul_of_nonneg_right h (by positivity)
      _ = (l.length : ℝ) * (zeta ^ 2 * (S / ((l.length : ℝ) - 1))) := by ring
  exact le_of_mul_le_mul_left h1 hn0

end TempProfile

/-- **C71 (1)**: the discovered profile has an entry for a pair of activities exactly if some `a` is followed in its trace by a `b` that does not
start before the `a` ends; the entry is the mean and the sample standard deviation (0 for a single value) of all the times between
them. -/
theorem C71_discovery (log : List (List Ev)) (ab : String × String) :
    (observations log ab = [] → get? (discover log) ab = none) ∧
    (observations log ab ≠ [] → get? (discover log) ab = some (mean (observations log ab),
      if (observations log ab).length > 1 then stdev (observations log ab) else 0)) ∧
    (observations log ab ≠ [] ↔ ∃ tr ∈ log, ∃ i j, ∃ hi : i < tr.length, ∃ hj : j < tr.length, i < j ∧ tr[i].et ≤ tr[j].st ∧
      tr[i].act = ab.1 ∧ tr[j].act = ab.2) := by
  have hg : get? (discover log) ab = (if observations log ab = [] then none else some (observations log ab)).map entry := by
    rw [discover, get?_map, recordings_get]
  refine ⟨fun h => by rw [hg, if_pos h]; rfl, fun h => ?_, ?_⟩
  · rw [hg, if_neg h, Option.map_some, entry]
    split
    · rfl
    · next hl =>
      have : ∃ x, observations log ab = [x] := by
        match hm : observations log ab with
        | [] => exact absurd hm h
        | [x] => exact ⟨x, rfl⟩
        | x :: y :: l => rw [hm] at hl; simp at hl
      obtain ⟨x, hx⟩ := this
      rw [hx]
      simp [mean]
  · have e : observations log ab = (log.flatMap pairsOf).filterMap fun r => if r.1 = ab then some r.2 else none := by
      rw [List.filterMap_flatMap]
      unfold observations
      congr 1
      funext tr
      rw [pairsOf_eq, List.filterMap_filterMap]
      congr 1
      funext p
      cases pairAt tr p.1 p.2 <;> rfl
    constructor
    · intro h
      obtain ⟨x, hx⟩ := List.exists_mem_of_ne_nil _ h
      rw [e, List.mem_filterMap] at hx
      obtain ⟨r, hr, hx⟩ := hx
      obtain ⟨tr, htr, hr⟩ := List.mem_flatMap.1 hr
      obtain ⟨i, j, hi, hj, hij, hle, rfl⟩ := mem_pairsOf.1 hr
      split at hx
      · next hab => exact ⟨tr, htr, i, j, hi, hj, hij, hle, congrArg Prod.fst hab, congrArg Prod.snd hab⟩
      · cases hx
    · rintro ⟨tr, htr, i, j, hi, hj, hij, hle, h1, h2⟩ hnil
      have : tr[j].st - tr[i].et ∈ observations log ab := by
        rw [e, List.mem_filterMap]
        refine ⟨_, List.mem_flatMap.2 ⟨tr, htr, mem_pairsOf.2 ⟨i, j, hi, hj, hij, hle, rfl⟩⟩, ?_⟩
        rw [if_pos (Prod.ext h1 h2)]
      rw [hnil] at this
      simp at this

/-- **C71 (2)**: conformance checking reports, trace by trace, exactly the pairs of events whose time difference is more than `ζ` standard
deviations away from the mean of the profile. -/
theorem C71_conformance (profile : Dict (String × String) (ℝ × ℝ)) (zeta : ℝ) (log : List (List Ev)) :
    (conformance profile zeta log).length = log.length ∧
    ∀ k, ∀ hk : k < log.length, ∀ v : Dev, (∃ D, (conformance profile zeta log)[k]? = some D ∧ v ∈ D) ↔
      ∃ i j, ∃ hi : i < log[k].length, ∃ hj : j < log[k].length, ∃ m s, i < j ∧ log[k][i].et ≤ log[k][j].st ∧
        get? profile (log[k][i].act, log[k][j].act) = some (m, s) ∧
        |((log[k][j].st - log[k][i].et : Int) : ℝ) - m| > zeta * s ∧
        v.acts = (log[k][i].act, log[k][j].act) ∧ v.diff = log[k][j].st - log[k][i].et ∧
        (s > 0 → v.zeta = some (|((log[k][j].st - log[k][i].et : Int) : ℝ) - m| / s)) ∧ (¬ s > 0 → v.zeta = none) := by
  have habs : ∀ x m t : ℝ, (x < m - t ∨ x > m + t) ↔ |x - m| > t := by
    intro x m t
    rw [gt_iff_lt, gt_iff_lt, lt_abs]
    constructor
    · rintro (h | h)
      · right; linarith
      · left; linarith
    · rintro (h | h)
      · right; linarith
      · left; linarith
  refine ⟨by simp [conformance], fun k hk v => ?_⟩
  have e : (conformance profile zeta log)[k]? = some ((pairsOf log[k]).filterMap (check profile zeta)) := by
    simp [conformance, List.getElem?_map, List.getElem?_eq_getElem hk]
  rw [e]
  simp only [Option.some.injEq, exists_eq_left', List.mem_filterMap]
  constructor
  · rintro ⟨r, hr, hv⟩
    obtain ⟨i, j, hi, hj, hij, hle, rfl⟩ := mem_pairsOf.1 hr
    unfold check at hv
    split at hv
    · cases hv
    · next m s hg =>
      split at hv
      · next hd =>
        rw [habs] at hd
        simp only [Option.some.injEq] at hv
        subst hv
        exact ⟨i, j, hi, hj, m, s, hij, hle, hg, hd, rfl, rfl, fun h => by simp [h], fun h => by simp [h]⟩
      · cases hv
  · rintro ⟨i, j, hi, hj, m, s, hij, hle, hg, hd, h1, h2, h3, h4⟩
    refine ⟨_, mem_pairsOf.2 ⟨i, j, hi, hj, hij, hle, rfl⟩, ?_⟩
    unfold check
    simp only [hg]
    rw [if_pos ((habs _ _ _).2 hd)]
    obtain ⟨a, d, z⟩ := v
    simp only at h1 h2 h3 h4
    subst h1 h2
    by_cases hs : s > 0
    · rw [h3 hs]; simp [hs]
    · rw [h4 hs]; simp [hs]

/-- every reported number of standard deviations is larger than `ζ` -/
theorem C71_zeta (profile : Dict (String × String) (ℝ × ℝ)) (zeta : ℝ) (log : List (List Ev)) {D : List Dev} (hD : D ∈ conformance profile zeta log)
    {v : Dev} (hv : v ∈ D) {z : ℝ} (hz : v.zeta = some z) : z > zeta := by
  obtain ⟨k, hk, rfl⟩ := List.mem_iff_getElem.1 hD
  have hk' : k < log.length := by rw [(C71_conformance profile zeta log).1] at hk; exact hk
  obtain ⟨i, j, hi, hj, m, s, _, _, _, hd, _, _, h3, h4⟩ :=
    ((C71_conformance profile zeta log).2 k hk' v).1 ⟨_, List.getElem?_eq_getElem hk, hv⟩
  by_cases hs : s > 0
  · rw [h3 hs] at hz
    simp only [Option.some.injEq] at hz
    rw [← hz, gt_iff_lt, lt_div_iff₀ hs]
    exact hd
  · rw [h4 hs] at hz; cases hz

/-- **C71 (3)**: a log conforms to its own profile if no pair of activities has too many observations: `n` observations are never more than
`(n-1)/√n` standard deviations away from their mean. -/
theorem C71_self {log : List (List Ev)} {zeta : ℝ} (hz : 0 ≤ zeta)
    (h : ∀ ab, observations log ab ≠ [] → (((observations log ab).length : ℝ) - 1) ^ 2 ≤ zeta ^ 2 * (observations log ab).length) :
    ∀ D ∈ conformance (discover log) zeta log, D = [] := by
  intro D hD
  refine List.eq_nil_iff_forall_not_mem.2 fun v hv => ?_
  obtain ⟨k, hk, rfl⟩ := List.mem_iff_getElem.1 hD
  have hk' : k < log.length := by rw [(C71_conformance _ zeta log).1] at hk; exact hk
  obtain ⟨i, j, hi, hj, m, s, hij, hle, hg, hd, _, _, _, _⟩ :=
    ((C71_conformance (discover log) zeta log).2 k hk' v).1 ⟨_, List.getElem?_eq_getElem hk, hv⟩
  set ab := (log[k][i].act, log[k][j].act) with hab
  have hmem : log[k][j].st - log[k][i].et ∈ observations log ab := by
    unfold observations
    rw [List.mem_flatMap]
    refine ⟨log[k], List.getElem_mem hk', List.mem_filterMap.2 ⟨(i, j), mem_positions.2 ⟨hij, hj⟩, ?_⟩⟩
    simp only [pairAt, List.getElem?_eq_getElem hi, List.getElem?_eq_getElem hj, if_pos hle]
    rw [if_pos rfl]
  have hne : observations log ab ≠ [] := fun e => by rw [e] at hmem; simp at hmem
  have hp := (C71_discovery log ab).2.1 hne
  rw [hg] at hp
  simp only [Option.some.injEq, Prod.mk.injEq] at hp
  obtain ⟨rfl, rfl⟩ := hp
  by_cases hl : (observations log ab).length > 1
  · rw [if_pos hl] at hd
    have := within hmem hl hz (h ab hne)
    linarith
  · rw [if_neg hl, mul_zero] at hd
    have hx : observations log ab = [log[k][j].st - log[k][i].et] := by
      match hm : observations log ab with
      | [] => exact absurd hm hne
      | [x] => rw [hm] at hmem; rw [List.mem_singleton.1 hmem]
      | x :: y :: l => rw [hm] at hl; simp at hl
    rw [hx] at hd
    simp [mean] at hd

/-- with the default `ζ = 6` a log with at most 37 observations for every pair of activities conforms to its own profile -/
theorem C71_self_default {log : List (List Ev)} (h : ∀ ab, (observations log ab).length ≤ 37) :
    ∀ D ∈ conformance (discover log) 6 log, D = [] := by
  refine C71_self (by norm_num) fun ab hne => ?_
  have h1 : ((observations log ab).length : ℝ) ≤ 37 := by exact_mod_cast h ab
  have h3 : (1 : ℝ) ≤ ((observations log ab).length : ℝ) := by exact_mod_cast List.length_pos_iff.2 hne
  nlinarith

end Verif
