import Verif.TransSys.Model
/-
Property theorems C67: the discovered transition system replays the log.
-/
set_option linter.unusedSectionVars false
namespace Verif
open TransSys
namespace TransSys
variable {α : Type} [DecidableEq α]

/-! ### specification -/

/-- `ord` lists the elements of a set in some order -/
def IsOrder (ord : List Nat → List Nat) : Prop := ∀ l, (ord l).Perm l

/-- a path of the transition system from the state `i` to the state `j` that shows the activities `w` -/
inductive Path (t : TS α) : Nat → List α → Nat → Prop
  | nil (i) : Path t i [] i
  | cons {i a j w k} : (i, a, j) ∈ t.trans → Path t j w k → Path t i (a :: w) k

/-- no two consecutive windows of the trace have the same name -/
def NoStutter (d : Direction) (w : Nat) (v : View) (tr : List α) : Prop :=
  ∀ i < tr.length, same v (window d w tr i) (window d w tr (i + 1)) = false

/-! ### names -/

theorem same_refl (v : View) (x : List α) : same v x x = true := by
  cases v
  · simp [same]
  · simp only [same, List.isPerm_iff]; exact .refl _
  · simp [same]

theorem same_symm {v : View} {x y : List α} (h : same v x y = true) : same v y x = true := by
  cases v
  · simp [same] at *; exact h.symm
  · simp only [same, List.isPerm_iff] at *; exact h.symm
  · simp only [same, Bool.and_eq_true] at *; exact ⟨h.2, h.1⟩

theorem same_trans {v : View} {x y z : List α} (h : same v x y = true) (h' : same v y z = true) : same v x z = true := by
  cases v
  · simp [same] at *; exact h.trans h'
  · simp only [same, List.isPerm_iff] at *; exact h.trans h'
  · simp only [same, Bool.and_eq_true, List.all_eq_true, decide_eq_true_eq] at *
    exact ⟨fun a ha => h'.1 a (h.1 a ha), fun a ha => h.2 a (h'.2 a ha)⟩

theorem find_some {t : TS α} {ord : List Nat → List Nat} (ho : IsOrder ord) {v : View} {x : List α} {i : Nat}
    (h : t.find ord v x = some i) : i < t.states.length ∧ same v (t.name i) x = true := by
  have := List.mem_of_getLast? h
  rw [List.mem_filter, (ho _).mem_iff, List.mem_range] at this
  exact this

theorem find_none {t : TS α} {ord : List Nat → List Nat} (ho : IsOrder ord) {v : View} {x : List α}
    (h : t.find ord v x = none) {i : Nat} (hi : i < t.states.length) : same v (t.name i) x = false := by
  rw [TS.find, List.getLast?_eq_none_iff, List.filter_eq_nil_iff] at h
  have := h i ((ho _).mem_iff.2 (List.mem_range.2 hi))
  simpa using this

theorem name_append {t : List (List α)} {e : List (List α)} {tr : List (Nat × α × Nat)} {tr' : List (Nat × α × Nat)} {i : Nat}
    (hi : i < t.length) : (TS.mk (t ++ e) tr).name i = (TS.mk t tr').name i := by
  simp only [TS.name, List.getD_eq_getElem?_getD]
  rw [List.getElem?_append_left hi]

/-! ### the loop -/

/-- what holds after some of the steps -/
structure Good (v : View) (t : TS α) (done : List (Step α)) : Prop where
  bound : ∀ e ∈ t.trans, e.1 < t.states.length ∧ e.2.2 < t.states.length
  states : ∀ i < t.states.length, ∃ s ∈ done, same v (t.name i) s.src = true ∨ same v (t.name i) s.tgt = true
  sound : ∀ e ∈ t.trans, ∃ s ∈ done, s.act = e.2.1 ∧ same v (t.name e.1) s.src = true ∧ same v (t.name e.2.2) s.tgt = true
  complete : ∀ s ∈ done, ∃ e ∈ t.trans, e.2.1 = s.act ∧ same v (t.name e.1) s.src = true ∧ same v (t.name e.2.2) s.tgt = true

/-- facts on one step -/
theorem step_spec (ord : List Nat → List Nat) (ho : IsOrder ord) (v : View) (t : TS α) (s : Step α) :
    ∃ i j, ∃ e : List (List α), (t.step ord v s).states = t.states ++ e ∧
      (∀ x, x ∈ (t.step ord v s).trans ↔ x ∈ t.trans ∨ x = (i, s.act, j)) ∧
      i < (t.step ord v s).states.length ∧ j < (t.step ord v s).states.length ∧
      same v ((t.step ord v s).name i) s.src = true ∧ same v ((t.step ord v s).name j) s.tgt = true ∧
      (∀ k, t.states.length ≤ k → k < (t.step ord v s).states.length → k = i ∨ k = j) ∧
      (∀ k, t.states.length ≤ k → k = i → ∀ l < t.states.length, same v (t.name l) s.src = false) ∧
      (∀ k, t.states.length ≤ k → k = j → ∀ l < t.states.length, same v (t.name l) s.tgt = false) ∧
      (t.states.length ≤ i → t.states.length ≤ j → i ≠ j) := by
  have hmem : ∀ (p : Nat × α × Nat) (x : Nat × α × Nat), x ∈ (if p ∈ t.trans then t.trans else t.trans ++ [p]) ↔ x ∈ t.trans ∨ x = p := by
    intro p x
    split
    · next h => exact ⟨.inl, fun h' => h'.elim id fun e => e ▸ h⟩
    · simp
  have hname : ∀ (e : List (List α)) tr i, i < t.states.length → (TS.mk (t.states ++ e) tr).name i = t.name i := by
    intro e tr i hi
    simp only [TS.name, List.getD_eq_getElem?_getD]
    rw [List.getElem?_append_left hi]
  unfold TS.step
  cases h1 : t.find ord v s.src with
  | some i =>
    obtain ⟨hi, hsi⟩ := find_some ho h1
    cases h2 : t.find ord v s.tgt with
    | some j =>
      obtain ⟨hj, hsj⟩ := find_some ho h2
      refine ⟨i, j, [], by simp [pickOr], fun x => hmem (i, s.act, j) x, by simpa [pickOr] using hi,
        by simpa [pickOr] using hj, ?_, ?_, ?_, ?_, ?_, ?_⟩
      · simpa [pickOr, TS.name] using hsi
      · simpa [pickOr, TS.name] using hsj
      · intro k hk hk'; simp [pickOr] at hk'; omega
      · intro k hk hk'; omega
      · intro k hk hk'; omega
      · intro h; omega
    | none =>
      refine ⟨i, t.states.length, [s.tgt], by simp [pickOr], fun x => hmem (i, s.act, t.states.length) x,
        by simp [pickOr]; omega, by simp [pickOr], ?_, ?_, ?_, ?_, ?_, ?_⟩
      · simp only [pickOr, List.append_nil]
        rw [hname _ _ i hi]; exact hsi
      · simp [pickOr, TS.name, same_refl]
      · intro k hk hk'; simp [pickOr] at hk'; omega
      · intro k hk hk'; omega
      · intro k hk hk' l hl; exact find_none ho h2 hl
      · intro h; omega
  | none =>
    cases h2 : t.find ord v s.tgt with
    | some j =>
      obtain ⟨hj, hsj⟩ := find_some ho h2
      refine ⟨t.states.length, j, [s.src], by simp [pickOr], fun x => hmem (t.states.length, s.act, j) x,
        by simp [pickOr], by simp [pickOr]; omega, ?_, ?_, ?_, ?_, ?_, ?_⟩
      · simp [pickOr, TS.name, same_refl]
      · simp only [pickOr, List.append_nil]
        rw [hname _ _ j hj]; exact hsj
      · intro k hk hk'; simp [pickOr] at hk'; omega
      · intro k hk hk' l hl; exact find_none ho h1 hl
      · intro k hk hk'; omega
      · intro h; omega
    | none =>
      refine ⟨t.states.length, t.states.length + 1, [s.src, s.tgt], by simp [pickOr],
        fun x => hmem (t.states.length, s.act, t.states.length + 1) x,
        by simp [pickOr], by simp [pickOr], ?_, ?_, ?_, ?_, ?_, ?_⟩
      · simp [pickOr, TS.name, same_refl]
      · simp [pickOr, TS.name, same_refl]
      · intro k hk hk'; simp [pickOr] at hk'; omega
      · intro k hk hk' l hl; exact find_none ho h1 hl
      · intro k hk hk' l hl; exact find_none ho h2 hl
      · intro h; omega

theorem name_of_states {t t' : TS α} {e : List (List α)} (h : t'.states = t.states ++ e) {i : Nat} (hi : i < t.states.length) :
    t'.name i = t.name i := by
  simp only [TS.name, h, List.getD_eq_getElem?_getD]
  rw [List.getElem?_append_left hi]

theorem good_step {ord : List Nat → List Nat} (ho : IsOrder ord) {v : View} {t : TS α} {done : List (Step α)} (h : Good v t done)
    (s : Step α) : Good v (t.step ord v s) (done ++ [s]) := by
  obtain ⟨i, j, e, he, htr, hi, hj, hsi, hsj, hnew, _, _, _⟩ := step_spec ord ho v t s
  have hle : t.states.length ≤ (t.step ord v s).states.length := by rw [he]; simp
  have hsm : s ∈ done ++ [s] := by simp
  refine ⟨fun x hx => ?_, fun k hk => ?_, fun x hx => ?_, fun s' hs' => ?_⟩
  · rcases (htr x).1 hx with hx | rfl
    · have := h.bound x hx; omega
    · exact ⟨hi, hj⟩
  · by_cases hk' : k < t.states.length
    · obtain ⟨s', hs', h'⟩ := h.states k hk'
      rw [name_of_states he hk']
      exact ⟨s', List.mem_append_left _ hs', h'⟩
    · rcases hnew k (by omega) hk with rfl | rfl
      · exact ⟨s, hsm, .inl hsi⟩
      · exact ⟨s, hsm, .inr hsj⟩
  · rcases (htr x).1 hx with hx | rfl
    · obtain ⟨s', hs', h'⟩ := h.sound x hx
      have hb := h.bound x hx
      rw [name_of_states he hb.1, name_of_states he hb.2]
      exact ⟨s', List.mem_append_left _ hs', h'⟩
    · exact ⟨s, hsm, rfl, hsi, hsj⟩
  · rcases List.mem_append.1 hs' with hs' | hs'
    · obtain ⟨x, hx, h'⟩ := h.complete s' hs'
      have hb := h.bound x hx
      refine ⟨x, (htr x).2 (.inl hx), ?_⟩
      rw [name_of_states he hb.1, name_of_states he hb.2]
      exact h'
    · rw [List.mem_singleton.1 hs']
      exact ⟨_, (htr _).2 (.inr rfl), rfl, hsi, hsj⟩

/-- different states have different names -/
def Uniq (v : View) (t : TS α) : Prop :=
  ∀ i < t.states.length, ∀ j < t.states.length, same v (t.name i) (t.name j) = true → i = j

theorem uniq_step {ord : List Nat → List Nat} (ho : IsOrder ord) {v : View} {t : TS α} (h : Uniq v t) (s : Step α)
    (hs : same v s.src s.tgt = false) : Uniq v (t.step ord v s) := by
  obtain ⟨i, j, e, he, htr, hi, hj, hsi, hsj, hnew, hsrc, htgt, _⟩ := step_spec ord ho v t s
  have key : ∀ k, t.states.length ≤ k → k < (t.step ord v s).states.length → ∀ l < (t.step ord v s).states.length,
      same v ((t.step ord v s).name k) ((t.step ord v s).name l) = true → k = l := by
    intro k hk hk' l hl hkl
    have hno : ∀ x : Nat, l = x → x < t.states.length → same v (t.name l) ((t.step ord v s).name k) = true := by
      intro x hx hlt
      rw [← name_of_states he (hx ▸ hlt)]
      exact same_symm hkl
    rcases hnew k hk hk' with rfl | rfl
    · by_cases hl' : l < t.states.length
      · have := hsrc k hk rfl l hl'
        rw [same_trans (hno l rfl hl') hsi] at this
        cases this
      · rcases hnew l (by omega) hl with rfl | rfl
        · rfl
        · rw [same_trans (same_symm hsi) (same_trans hkl hsj)] at hs
          cases hs
    · by_cases hl' : l < t.states.length
      · have := htgt k hk rfl l hl'
        rw [same_trans (hno l rfl hl') hsj] at this
        cases this
      · rcases hnew l (by omega) hl with rfl | rfl
        · rw [same_trans (same_symm hsi) (same_trans (same_symm hkl) hsj)] at hs
          cases hs
        · rfl
  intro k hk l hl hkl
  by_cases hk' : k < t.states.length
  · by_cases hl' : l < t.states.length
    · rw [name_of_states he hk', name_of_states he hl'] at hkl
      exact h k hk' l hl' hkl
    · exact (key l (by omega) hl k hk (same_symm hkl)).symm
  · exact key k (by omega) hk l hl hkl

theorem good_foldl {ord : List Nat → List Nat} (ho : IsOrder ord) {v : View} : ∀ (l : List (Step α)) {t : TS α} {done : List (Step α)},
    Good v t done → Good v (l.foldl (TS.step ord v) t) (done ++ l)
  | [], t, done, h => by simpa using h
  | s :: l, t, done, h => by
    have := good_foldl ho l (good_step ho h s)
    simpa using this

theorem uniq_foldl {ord : List Nat → List Nat} (ho : IsOrder ord) {v : View} : ∀ (l : List (Step α)) {t : TS α},
    Uniq v t → (∀ s ∈ l, same v s.src s.tgt = false) → Uniq v (l.foldl (TS.step ord v) t)
  | [], t, h, _ => h
  | s :: l, t, h, hl => uniq_foldl ho l (uniq_step ho h s (hl s (by simp))) fun s' hs' => hl s' (by simp [hs'])

theorem good_discover {ord : List Nat → List Nat} (ho : IsOrder ord) (d : Direction) (w : Nat) (v : View) (log : List (List α)) :
    Good v (discover ord d w v log) (stepsOf d w log) := by
  have h0 : Good v ({} : TS α) [] := ⟨by simp, by simp, by simp, by simp⟩
  simpa [discover] using good_foldl ho (stepsOf d w log) h0

/-! ### the steps of a log -/

theorem mem_stepsFrom {d : Direction} {w : Nat} {tr : List α} {s : Step α} : ∀ {i : Nat} {rest : List α},
    s ∈ stepsFrom d w tr i rest ↔ ∃ k, ∃ h : k < rest.length, s = ⟨window d w tr (i + k), rest[k], window d w tr (i + k + 1)⟩
  | i, [] => by simp [stepsFrom]
  | i, a :: rest => by
    rw [stepsFrom, List.mem_cons, mem_stepsFrom (i := i + 1)]
    constructor
    · rintro (rfl | ⟨k, h, rfl⟩)
      · exact ⟨0, by simp, rfl⟩
      · refine ⟨k + 1, by simpa using h, ?_⟩
        simp only [List.getElem_cons_succ]
        rw [show i + (k + 1) = i + 1 + k by omega]
    · rintro ⟨k, h, rfl⟩
      match k with
      | 0 => exact .inl rfl
      | k + 1 =>
        refine .inr ⟨k, by simpa using h, ?_⟩
        simp only [List.getElem_cons_succ]
        rw [show i + (k + 1) = i + 1 + k by omega]

theorem mem_stepsOf {d : Direction} {w : Nat} {log : List (List α)} {s : Step α} :
    s ∈ stepsOf d w log ↔ ∃ tr ∈ log, ∃ k, ∃ h : k < tr.length, s = ⟨window d w tr k, tr[k], window d w tr (k + 1)⟩ := by
  unfold stepsOf
  rw [List.mem_flatMap]
  constructor
  · rintro ⟨tr, htr, h⟩
    obtain ⟨k, hk, e⟩ := mem_stepsFrom.1 h
    exact ⟨tr, htr, k, hk, by simpa using e⟩
  · rintro ⟨tr, htr, k, hk, e⟩
    exact ⟨tr, htr, mem_stepsFrom.2 ⟨k, hk, by simpa using e⟩⟩

/-! ### paths -/

theorem Path.snoc {t : TS α} {i j k : Nat} {w : List α} {a : α} (h : Path t i w j) (h' : (j, a, k) ∈ t.trans) : Path t i (w ++ [a]) k := by
  induction h with
  | nil i => exact .cons h' (.nil _)
  | cons he _ ih => exact .cons he (ih h')

theorem path_of_steps {t : TS α} {f : Nat → Nat} {tr : List α} (h : ∀ k, ∀ hk : k < tr.length, (f k, tr[k], f (k + 1)) ∈ t.trans)
    {a : Nat} : ∀ {n : Nat}, a ≤ n → n ≤ tr.length → Path t (f a) ((tr.take n).drop a) (f n)
  | 0, hn, _ => by
    have : a = 0 := by omega
    subst this; exact .nil _
  | n + 1, hn, hn' => by
    by_cases e : a = n + 1
    · subst e
      rw [List.drop_eq_nil_of_le (by rw [List.length_take]; omega)]
      exact .nil _
    · have ih := path_of_steps h (a := a) (n := n) (by omega) (by omega)
      have := ih.snoc (h n (by omega))
      rw [List.take_succ_eq_append_getElem (by omega), List.drop_append_of_le_length (by simp; omega)]
      exact this

end TransSys

variable {α : Type} [DecidableEq α]

/-- **C67 (1)**: for every log, window, direction and view, and for every iteration order of the set of states: every transition of the
discovered transition system belongs to an event of the log; it carries its activity and connects states named by the views before and
after the event. -/
theorem C67_transitions_observed {ord : List Nat → List Nat} (ho : IsOrder ord) (d : Direction) (w : Nat) (v : View) (log : List (List α))
    {i j : Nat} {a : α} (h : (i, a, j) ∈ (discover ord d w v log).trans) :
    i < (discover ord d w v log).states.length ∧ j < (discover ord d w v log).states.length ∧
    ∃ tr ∈ log, ∃ k, ∃ hk : k < tr.length, a = tr[k] ∧ same v ((discover ord d w v log).name i) (window d w tr k) = true ∧
      same v ((discover ord d w v log).name j) (window d w tr (k + 1)) = true := by
  have hg := good_discover ho d w v log
  obtain ⟨s, hs, h1, h2, h3⟩ := hg.sound _ h
  obtain ⟨tr, htr, k, hk, rfl⟩ := mem_stepsOf.1 hs
  exact ⟨(hg.bound _ h).1, (hg.bound _ h).2, tr, htr, k, hk, h1.symm, h2, h3⟩

/-- **C67 (2)**: every event of the log has a transition between states named by the views before and after it. -/
theorem C67_events_represented {ord : List Nat → List Nat} (ho : IsOrder ord) (d : Direction) (w : Nat) (v : View) (log : List (List α))
    {tr : List α} (htr : tr ∈ log) {k : Nat} (hk : k < tr.length) :
    ∃ i j, (i, tr[k], j) ∈ (discover ord d w v log).trans ∧ same v ((discover ord d w v log).name i) (window d w tr k) = true ∧
      same v ((discover ord d w v log).name j) (window d w tr (k + 1)) = true := by
  obtain ⟨e, he, h1, h2, h3⟩ := (good_discover ho d w v log).complete _ (mem_stepsOf.2 ⟨tr, htr, k, hk, rfl⟩)
  refine ⟨e.1, e.2.2, ?_, h2, h3⟩
  rw [← show e.2.1 = tr[k] from h1]; exact he

/-- every state is named by a view of a trace of the log -/
theorem C67_states_observed {ord : List Nat → List Nat} (ho : IsOrder ord) (d : Direction) (w : Nat) (v : View) (log : List (List α))
    {i : Nat} (hi : i < (discover ord d w v log).states.length) :
    ∃ tr ∈ log, ∃ k ≤ tr.length, same v ((discover ord d w v log).name i) (window d w tr k) = true := by
  obtain ⟨s, hs, h⟩ := (good_discover ho d w v log).states i hi
  obtain ⟨tr, htr, k, hk, rfl⟩ := mem_stepsOf.1 hs
  rcases h with h | h
  · exact ⟨tr, htr, k, by omega, h⟩
  · exact ⟨tr, htr, k + 1, hk, h⟩

/-- **C67 (3)**: if no trace has two consecutive views that are equal, then different states have different names. -/
theorem C67_states_unique {ord : List Nat → List Nat} (ho : IsOrder ord) (d : Direction) (w : Nat) (v : View) (log : List (List α))
    (hns : ∀ tr ∈ log, NoStutter d w v tr) : ∀ i < (discover ord d w v log).states.length,
      ∀ j < (discover ord d w v log).states.length,
      same v ((discover ord d w v log).name i) ((discover ord d w v log).name j) = true → i = j := by
  refine uniq_foldl ho (stepsOf d w log) (t := {}) (by intro i hi; simp at hi) fun s hs => ?_
  obtain ⟨tr, htr, k, hk, rfl⟩ := mem_stepsOf.1 hs
  exact hns tr htr k hk

/-- **C67 (4)**: then the transition system replays every (non-empty) trace of the log: there is a path from the state of its first view
to the state of its last view that shows exactly its activities and goes through the states of its views. -/
theorem C67_replay {ord : List Nat → List Nat} (ho : IsOrder ord) (d : Direction) (w : Nat) (v : View) (log : List (List α))
    (hns : ∀ tr ∈ log, NoStutter d w v tr) {tr : List α} (htr : tr ∈ log) (hne : tr ≠ []) :
    ∃ f : Nat → Nat, (∀ k ≤ tr.length, same v ((discover ord d w v log).name (f k)) (window d w tr k) = true) ∧
      (∀ a n, a ≤ n → n ≤ tr.length → Path (discover ord d w v log) (f a) ((tr.take n).drop a) (f n)) ∧
      Path (discover ord d w v log) (f 0) tr (f tr.length) := by
  have hu := C67_states_unique ho d w v log hns
  have hst : ∀ k, ∃ i, k ≤ tr.length → i < (discover ord d w v log).states.length ∧
      same v ((discover ord d w v log).name i) (window d w tr k) = true := by
    intro k
    have hpos : 0 < tr.length := List.length_pos_iff.2 hne
    by_cases hk : k < tr.length
    · obtain ⟨i, j, h1, h2, h3⟩ := C67_events_represented ho d w v log htr hk
      exact ⟨i, fun _ => ⟨((good_discover ho d w v log).bound _ h1).1, h2⟩⟩
    · by_cases hk' : k = tr.length
      · obtain ⟨i, j, h1, h2, h3⟩ := C67_events_represented ho d w v log htr (k := tr.length - 1) (by omega)
        refine ⟨j, fun _ => ⟨((good_discover ho d w v log).bound _ h1).2, ?_⟩⟩
        rw [show k = tr.length - 1 + 1 by omega]; exact h3
      · exact ⟨0, fun h => by omega⟩
  let f := fun k => (hst k).choose
  have hf : ∀ k ≤ tr.length, f k < (discover ord d w v log).states.length ∧
      same v ((discover ord d w v log).name (f k)) (window d w tr k) = true := fun k hk => (hst k).choose_spec hk
  have hstep : ∀ k, ∀ hk : k < tr.length, (f k, tr[k], f (k + 1)) ∈ (discover ord d w v log).trans := by
    intro k hk
    obtain ⟨i, j, h1, h2, h3⟩ := C67_events_represented ho d w v log htr hk
    have hb := (good_discover ho d w v log).bound _ h1
    have e1 : f k = i := hu _ (hf k (by omega)).1 _ hb.1 (same_trans (hf k (by omega)).2 (same_symm h2))
    have e2 : f (k + 1) = j := hu _ (hf (k + 1) hk).1 _ hb.2 (same_trans (hf (k + 1) hk).2 (same_symm h3))
    rw [e1, e2]; exact h1
  refine ⟨f, fun k hk => (hf k hk).2, fun a n h1 h2 => path_of_steps hstep h1 h2, ?_⟩
  have := path_of_steps hstep (a := 0) (n := tr.length) (by omega) (by omega)
  simpa using this

/-- **C67 (5)**: with the backward direction and the sequence view the transition system is deterministic. -/
theorem C67_deterministic {ord : List Nat → List Nat} (ho : IsOrder ord) (w : Nat) (log : List (List α))
    (hns : ∀ tr ∈ log, NoStutter .backward w .sequence tr) {i j j' : Nat} {a : α}
    (h : (i, a, j) ∈ (discover ord .backward w .sequence log).trans)
    (h' : (i, a, j') ∈ (discover ord .backward w .sequence log).trans) : j = j' := by
  have hwin : ∀ (tr : List α) k, ∀ hk : k < tr.length, window .backward w tr (k + 1) =
      (window .backward w tr k ++ [tr[k]]).drop ((window .backward w tr k).length + 1 - w) := by
    intro tr k hk
    simp only [window]
    rw [List.take_succ_eq_append_getElem hk]
    have hl : ((tr.take k).drop (k - w)).length = k - (k - w) := by rw [List.length_drop, List.length_take]; omega
    rw [hl, ← List.drop_append_of_le_length (by rw [List.length_take]; omega), List.drop_drop]
    congr 1
    omega
  obtain ⟨_, hj, tr, _, k, hk, e1, h2, h3⟩ := C67_transitions_observed ho _ w _ log h
  obtain ⟨_, hj', tr', _, k', hk', e1', h2', h3'⟩ := C67_transitions_observed ho _ w _ log h'
  refine C67_states_unique ho _ w _ log hns j hj j' hj' ?_
  simp only [same, decide_eq_true_eq] at *
  rw [h3, h3', hwin tr k hk, hwin tr' k' hk', ← e1, ← e1', ← h2, ← h2']

/-- **C67 (6)**: with the backward direction, the sequence view and a window that is at least as long as the traces, the transition system
is the prefix automaton of the log: from the state of the empty view exactly the prefixes of the traces can be played. -/
theorem C67_prefix_automaton {ord : List Nat → List Nat} (ho : IsOrder ord) (w : Nat) (log : List (List α))
    (hw : ∀ tr ∈ log, tr.length ≤ w) (hne : ∃ tr ∈ log, tr ≠ []) :
    ∃ i, (discover ord .backward w .sequence log).name i = [] ∧ i < (discover ord .backward w .sequence log).states.length ∧
      (∀ u, (∃ j, Path (discover ord .backward w .sequence log) i u j) ↔ ∃ tr ∈ log, u <+: tr) ∧
      ∀ u j, Path (discover ord .backward w .sequence log) i u j → (discover ord .backward w .sequence log).name j = u := by
  have hwin : ∀ tr ∈ log, ∀ k ≤ tr.length, window .backward w tr k = tr.take k := by
    intro tr htr k hk
    have := hw tr htr
    simp only [window]
    rw [show k - w = 0 by omega]; rfl
  have hns : ∀ tr ∈ log, NoStutter .backward w .sequence tr := by
    intro tr htr k hk
    rw [hwin tr htr k (by omega), hwin tr htr (k + 1) hk]
    simp only [same, decide_eq_false_iff_not]
    intro e
    have := congrArg List.length e
    rw [List.length_take, List.length_take] at this
    omega
  have hu := C67_states_unique ho .backward w .sequence log hns
  obtain ⟨tr0, htr0, hne0⟩ := hne
  have hpos : 0 < tr0.length := List.length_pos_iff.2 hne0
  obtain ⟨i, j0, h1, h2, _⟩ := C67_events_represented ho .backward w .sequence log htr0 hpos
  have hi := ((good_discover ho .backward w .sequence log).bound _ h1).1
  have hi0 : (discover ord .backward w .sequence log).name i = [] := by
    rw [hwin tr0 htr0 0 (by omega)] at h2
    simp only [same, decide_eq_true_eq] at h2
    simpa using h2
  have hpath : ∀ {p j : Nat} {u : List α}, Path (discover ord .backward w .sequence log) p u j →
      (u = [] ∨ ∃ tr ∈ log, (discover ord .backward w .sequence log).name p ++ u <+: tr) ∧
      (discover ord .backward w .sequence log).name j = (discover ord .backward w .sequence log).name p ++ u := by
    intro p j u hp
    induction hp with
    | nil i => exact ⟨.inl rfl, by simp⟩
    | cons he _ ih =>
      obtain ⟨_, _, tr, htr, k, hk, e1, h2, h3⟩ := C67_transitions_observed ho _ w _ log he
      rw [hwin tr htr k (by omega)] at h2
      rw [hwin tr htr (k + 1) hk] at h3
      simp only [same, decide_eq_true_eq] at h2 h3
      rw [List.take_succ_eq_append_getElem hk, ← h2, ← e1] at h3
      obtain ⟨ih1, ih2⟩ := ih
      rw [h3] at ih1 ih2
      refine ⟨.inr ?_, by rw [ih2]; simp⟩
      rcases ih1 with rfl | ⟨tr', htr', hpre⟩
      · refine ⟨tr, htr, ?_⟩
        rw [h2, e1, ← List.take_succ_eq_append_getElem hk]
        exact List.take_prefix _ _
      · exact ⟨tr', htr', by simpa using hpre⟩
  refine ⟨i, hi0, hi, fun u => ⟨fun ⟨j, hp⟩ => ?_, fun ⟨tr, htr, hpre⟩ => ?_⟩, fun u j hp => by rw [(hpath hp).2, hi0]; rfl⟩
  · rcases (hpath hp).1 with rfl | ⟨tr, htr, h⟩
    · exact ⟨tr0, htr0, List.nil_prefix⟩
    · rw [hi0] at h
      exact ⟨tr, htr, h⟩
  · by_cases he : tr = []
    · subst he
      rw [List.prefix_nil.1 hpre]
      exact ⟨i, .nil _⟩
    · obtain ⟨f, hf1, hf2, _⟩ := C67_replay ho .backward w .sequence log hns htr he
      have h0 := hf1 0 (by omega)
      have hlt : 0 < tr.length := List.length_pos_iff.2 he
      have hfi : f 0 = i := by
        have hb : f 0 < (discover ord .backward w .sequence log).states.length := by
          have hp1 := hf2 0 1 (by omega) hlt
          cases ht : (tr.take 1).drop 0 with
          | nil =>
            have := congrArg List.length ht
            rw [List.length_drop, List.length_take, List.length_nil] at this; omega
          | cons b bs =>
            rw [ht] at hp1
            cases hp1 with
            | cons hm _ => exact ((good_discover ho .backward w .sequence log).bound _ hm).1
        refine hu _ hb _ hi ?_
        rw [hi0]
        rw [hwin tr htr 0 (by omega)] at h0
        simpa using h0
      have hl := hpre.length_le
      have hp := hf2 0 u.length (Nat.zero_le _) hl
      rw [List.drop_zero, ← List.prefix_iff_eq_take.1 hpre, hfi] at hp
      exact ⟨_, hp⟩

end Verif
