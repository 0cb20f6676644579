import Verif.TreePlayout.ExtProofs
set_option linter.unusedSectionVars false
namespace Verif.TreePlayout
open Lang
variable {α : Type} [DecidableEq α]

/-- `u` is a do-word, then `k` times a redo-word and a do-word (forwards) -/
inductive LReach (D R : Lang α) : Nat → Lang α
  | zero {d} : D d → LReach D R 0 d
  | succ {k u r d} : LReach D R k u → R r → D d → LReach D R (k + 1) (u ++ r ++ d)

theorem LReach.front {D R : Lang α} {k : Nat} {w : List α} (h : LReach D R k w) {d r : List α} (hd : D d) (hr : R r) :
    LReach D R (k + 1) (d ++ r ++ w) := by
  induction h with
  | zero hd' => exact .succ (.zero hd) hr hd'
  | succ _ hr' hd' ih =>
    have := LReach.succ ih hr' hd'
    simpa using this

theorem BLoop.mono {D R : Lang α} {n m : Nat} {w : List α} (h : BLoop D R n w) (hm : n ≤ m) : BLoop D R m w := by
  induction h generalizing m with
  | exit hd => exact .exit hd
  | again hd hr _ ih =>
    obtain ⟨m, rfl⟩ := Nat.exists_eq_succ_of_ne_zero (n := m) (by omega)
    exact .again hd hr (ih (by omega))

theorem BLoop.back {D R : Lang α} {n : Nat} {w : List α} (h : BLoop D R n w) {d r : List α} (hr : R r) (hd : D d) :
    BLoop D R (n + 1) (w ++ r ++ d) := by
  induction h with
  | exit hd' => exact .again hd' hr (.exit hd)
  | again hd' hr' _ ih =>
    have := BLoop.again hd' hr' ih
    simpa using this

theorem bloop_iff {D R : Lang α} {n : Nat} {w : List α} : BLoop D R n w ↔ ∃ k ≤ n, LReach D R k w := by
  constructor
  · intro h
    induction h with
    | exit hd => exact ⟨0, by omega, .zero hd⟩
    | again hd hr _ ih =>
      obtain ⟨k, hk, h⟩ := ih
      exact ⟨k + 1, by omega, h.front hd hr⟩
  · rintro ⟨k, hk, h⟩
    refine BLoop.mono ?_ hk
    clear hk
    induction h with
    | zero hd => exact .exit hd
    | succ _ hr hd ih => exact ih.back hr hd

/-- language of a list of words -/
def inL (l : List (List α)) : Lang α := fun w => w ∈ l

/-! ### soundness, for every limit and number of rounds -/

/-- what the entries of the queue are -/
def EntryOk (loops : Nat) (dos redos : List (List α)) (e : LEntry α) : Prop :=
  match e with
  | (u, false, k) => k ≤ loops ∧ LReach (inL dos) (inL redos) k u
  | (v, true, k) => k ≤ loops ∧ ∃ u r k', k = k' + 1 ∧ v = u ++ r ∧ LReach (inL dos) (inL redos) k' u ∧ r ∈ redos

/-- soundness invariant -/
def LSound (loops : Nat) (dos redos : List (List α)) (d1 d3 : Int) (st : LState α) : Prop :=
  (∀ e ∈ st.queue, EntryOk loops dos redos e) ∧
  ∀ w ∈ st.final, BLoop (inL dos) (inL redos) loops w ∧ d3 ≤ (w.length : Int) ∧ (w.length : Int) ≤ d1

theorem mem_of_takeWhile {β : Type} {P : β → Bool} {l : List β} {x : β} (h : x ∈ l.takeWhile P) : x ∈ l ∧ P x = true := by
  induction l with
  | nil => simp at h
  | cons a l ih =>
    rw [List.takeWhile_cons] at h
    split at h
    · rcases List.mem_cons.1 h with rfl | h
      · exact ⟨by simp, by assumption⟩
      · exact ⟨by simp [(ih h).1], (ih h).2⟩
    · simp at h

/-- the list of final traces after closing `u` -/
def addFinal (d1 d3 : Int) (u : List α) (f : List (List α)) : List (List α) :=
  if d3 ≤ (u.length : Int) ∧ (u.length : Int) ≤ d1 then (if u ∈ f then f else f ++ [u]) else f

theorem lstep_false (c : Cfg α) (dos redos : List (List α)) (d1 d2 d3 : Int) (u : List α) (k : Nat) (st : LState α) :
    lstep c dos redos d1 d2 d3 (u, false, k) st =
      if u ∈ st.closed then (st, false)
      else if (d3 ≤ (u.length : Int) ∧ (u.length : Int) ≤ d1) ∧ (addFinal d1 d3 u st.final).length > c.limit then
        ({ queue := st.queue, closed := st.closed ++ [u], final := addFinal d1 d3 u st.final }, true)
      else (LState.mk (st.queue ++ (redos.takeWhile fun y =>
          decide (((u ++ y).length : Int) ≤ d2) && decide (k + 1 ≤ c.loops)).map (fun y => (u ++ y, true, k + 1)))
          (st.closed ++ [u]) (addFinal d1 d3 u st.final), false) := by
  simp only [lstep, addFinal]
  by_cases hb : d3 ≤ (u.length : Int) ∧ (u.length : Int) ≤ d1
  · simp only [hb, and_self, if_true, true_and]
  · simp only [hb, if_false, false_and]

theorem mem_addFinal {d1 d3 : Int} {u w : List α} {f : List (List α)} (h : w ∈ addFinal d1 d3 u f) :
    w ∈ f ∨ (w = u ∧ d3 ≤ (u.length : Int) ∧ (u.length : Int) ≤ d1) := by
  unfold addFinal at h
  split at h
  · split at h
    · exact .inl h
    · rename_i hb _
      rcases List.mem_append.1 h with h | h
      · exact .inl h
      · simp at h; exact .inr ⟨h, hb⟩
  · exact .inl h

theorem lrun_nil (c : Cfg α) (dos redos : List (List α)) (d1 d2 d3 : Int) (n : Nat) (st : LState α) (h : st.queue = []) :
    lrun c dos redos d1 d2 d3 n st = some st := by
  rw [lrun.eq_def]; simp only [h]

theorem lrun_zero (c : Cfg α) (dos redos : List (List α)) (d1 d2 d3 : Int) (st : LState α) {e : LEntry α} {q : List (LEntry α)}
    (h : st.queue = e :: q) : lrun c dos redos d1 d2 d3 0 st = none := by
  rw [lrun.eq_def]; simp only [h]

theorem lrun_cons (c : Cfg α) (dos redos : List (List α)) (d1 d2 d3 : Int) (n : Nat) (st : LState α) {e : LEntry α} {q : List (LEntry α)}
    (h : st.queue = e :: q) : lrun c dos redos d1 d2 d3 (n + 1) st =
      if (lstep c dos redos d1 d2 d3 e { st with queue := q }).2 = true then
        some (lstep c dos redos d1 d2 d3 e { st with queue := q }).1
      else lrun c dos redos d1 d2 d3 n (lstep c dos redos d1 d2 d3 e { st with queue := q }).1 := by
  rw [lrun.eq_def]; simp only [h]
  split <;> rename_i heq <;> rw [heq] <;> simp

theorem lstep_sound (c : Cfg α) (dos redos : List (List α)) (d1 d2 d3 : Int) (e : LEntry α) (st : LState α)
    (he : EntryOk c.loops dos redos e) (h : LSound c.loops dos redos d1 d3 st) :
    LSound c.loops dos redos d1 d3 (lstep c dos redos d1 d2 d3 e st).1 := by
  obtain ⟨u, b, k⟩ := e
  cases b with
  | false =>
    obtain ⟨hk, hu⟩ := he
    rw [lstep_false]
    have hf : ∀ w ∈ addFinal d1 d3 u st.final,
        BLoop (inL dos) (inL redos) c.loops w ∧ d3 ≤ (w.length : Int) ∧ (w.length : Int) ≤ d1 := by
      intro w hw
      rcases mem_addFinal hw with hw | ⟨rfl, hb⟩
      · exact h.2 w hw
      · exact ⟨bloop_iff.2 ⟨k, hk, hu⟩, hb⟩
    split
    · exact h
    · split
      · exact ⟨h.1, hf⟩
      · refine ⟨?_, hf⟩
        intro e he
        rcases List.mem_append.1 he with he | he
        · exact h.1 e he
        · obtain ⟨y, hy, rfl⟩ := List.mem_map.1 he
          obtain ⟨hy, hp⟩ := mem_of_takeWhile hy
          simp only [Bool.and_eq_true, decide_eq_true_eq] at hp
          exact ⟨hp.2, u, y, k, rfl, rfl, hu, hy⟩
  | true =>
    obtain ⟨hk, v, r, k', rfl, rfl, hv, hr⟩ := he
    simp only [lstep]
    refine ⟨?_, h.2⟩
    intro e he
    rcases List.mem_append.1 he with he | he
    · exact h.1 e he
    · obtain ⟨y, hy, rfl⟩ := List.mem_map.1 he
      obtain ⟨hy, _⟩ := mem_of_takeWhile hy
      exact ⟨hk, .succ hv hr hy⟩

theorem lrun_sound (c : Cfg α) (dos redos : List (List α)) (d1 d2 d3 : Int) : ∀ (n : Nat) (st S : LState α),
    LSound c.loops dos redos d1 d3 st → lrun c dos redos d1 d2 d3 n st = some S → LSound c.loops dos redos d1 d3 S := by
  intro n
  induction n with
  | zero =>
    intro st S h hr
    cases hq : st.queue with
    | nil => rw [lrun_nil _ _ _ _ _ _ _ _ hq] at hr; simp at hr; subst hr; exact h
    | cons e q => rw [lrun_zero _ _ _ _ _ _ _ hq] at hr; simp at hr
  | succ n ih =>
    intro st S h hr
    cases hq : st.queue with
    | nil => rw [lrun_nil _ _ _ _ _ _ _ _ hq] at hr; simp at hr; subst hr; exact h
    | cons e q =>
      rw [lrun_cons _ _ _ _ _ _ _ _ hq] at hr
      have h' := lstep_sound c dos redos d1 d2 d3 e { st with queue := q } (h.1 e (by rw [hq]; simp))
        ⟨fun e' he' => h.1 e' (by rw [hq]; exact List.mem_cons_of_mem _ he'), h.2⟩
      split at hr
      · simp at hr; subst hr
        exact h'
      · exact ih _ _ h' hr

/-! ### termination -/

/-- rounds for an entry that waits for a redo word, `j` more loops allowed -/
def lw (nd nr : Nat) : Nat → Nat
  | 0 => 1
  | j + 1 => 1 + nr * (1 + nd * lw nd nr j)

/-- rounds for an entry -/
def ew (loops nd nr : Nat) : LEntry α → Nat
  | (_, false, k) => lw nd nr (loops - k)
  | (_, true, k) => 1 + nd * lw nd nr (loops - k)

/-- rounds for a queue -/
def qw (loops nd nr : Nat) (q : List (LEntry α)) : Nat := (q.map (ew loops nd nr)).sum

theorem lw_pos (nd nr j : Nat) : 0 < lw nd nr j := by cases j <;> simp only [lw] <;> omega

theorem ew_pos (loops nd nr : Nat) (e : LEntry α) : 0 < ew loops nd nr e := by
  obtain ⟨u, b, k⟩ := e
  cases b
  · exact lw_pos _ _ _
  · simp only [ew]; omega

theorem qw_append (loops nd nr : Nat) (a b : List (LEntry α)) : qw loops nd nr (a ++ b) = qw loops nd nr a + qw loops nd nr b := by
  simp [qw]

theorem qw_const (loops nd nr : Nat) (l : List (LEntry α)) (m : Nat) (h : ∀ e ∈ l, ew loops nd nr e = m) :
    qw loops nd nr l = l.length * m := by
  induction l with
  | nil => simp [qw]
  | cons e l ih =>
    have := ih (fun e he => h e (by simp [he]))
    simp only [qw, List.map_cons, List.sum_cons, List.length_cons] at this ⊢
    rw [this, h e (by simp), Nat.add_mul]; omega

theorem takeWhile_length_le {β : Type} (P : β → Bool) (l : List β) : (l.takeWhile P).length ≤ l.length :=
  (List.takeWhile_sublist P).length_le

theorem lstep_queue (c : Cfg α) (dos redos : List (List α)) (d1 d2 d3 : Int) (e : LEntry α) (st : LState α) :
    ∃ N, (lstep c dos redos d1 d2 d3 e st).1.queue = st.queue ++ N ∧
      qw c.loops dos.length redos.length N + 1 ≤ ew c.loops dos.length redos.length e := by
  obtain ⟨u, b, k⟩ := e
  cases b with
  | false =>
    have hp := ew_pos c.loops dos.length redos.length (u, false, k)
    rw [lstep_false]
    split
    · exact ⟨[], by simp, by simp [qw]; exact hp⟩
    · split
      · exact ⟨[], by simp, by simp [qw]; exact hp⟩
      · refine ⟨_, rfl, ?_⟩
        by_cases hk : k + 1 ≤ c.loops
        · rw [qw_const _ _ _ _ (1 + dos.length * lw dos.length redos.length (c.loops - (k + 1)))]
          · rw [List.length_map]
            simp only [ew]
            obtain ⟨j, hj⟩ : ∃ j, c.loops - k = j + 1 := ⟨c.loops - k - 1, by omega⟩
            have hj' : c.loops - (k + 1) = j := by omega
            rw [hj, hj', lw]
            have := Nat.mul_le_mul_right (1 + dos.length * lw dos.length redos.length j)
              (takeWhile_length_le (fun y : List α => decide (((u ++ y).length : Int) ≤ d2) && decide (k + 1 ≤ c.loops)) redos)
            omega
          · intro e he
            obtain ⟨y, _, rfl⟩ := List.mem_map.1 he
            rfl
        · have : (redos.takeWhile fun y => decide (((u ++ y).length : Int) ≤ d2) && decide (k + 1 ≤ c.loops)) = [] := by
            cases redos with
            | nil => rfl
            | cons a l => rw [List.takeWhile_cons]; simp [hk]
          rw [this]
          simp [qw]; exact hp
  | true =>
    simp only [lstep]
    refine ⟨_, rfl, ?_⟩
    rw [qw_const _ _ _ _ (lw dos.length redos.length (c.loops - k))]
    · rw [List.length_map]
      simp only [ew]
      have := Nat.mul_le_mul_right (lw dos.length redos.length (c.loops - k))
        (takeWhile_length_le (fun y : List α => decide (((u ++ y).length : Int) ≤ d1)) dos)
      omega
    · intro e he
      obtain ⟨y, _, rfl⟩ := List.mem_map.1 he
      rfl

/-- The loop ends for every limit. -/
theorem lrun_term (c : Cfg α) (dos redos : List (List α)) (d1 d2 d3 : Int) : ∀ (W : Nat) (st : LState α),
    qw c.loops dos.length redos.length st.queue ≤ W → ∃ S, ∀ n, W ≤ n → lrun c dos redos d1 d2 d3 n st = some S := by
  intro W
  induction W with
  | zero =>
    intro st hw
    cases hq : st.queue with
    | nil => exact ⟨st, fun n _ => lrun_nil _ _ _ _ _ _ _ _ hq⟩
    | cons e q =>
      rw [hq] at hw
      have := ew_pos c.loops dos.length redos.length e
      simp [qw] at hw; omega
  | succ W ih =>
    intro st hw
    cases hq : st.queue with
    | nil => exact ⟨st, fun n _ => lrun_nil _ _ _ _ _ _ _ _ hq⟩
    | cons e q =>
      obtain ⟨N, hN, hwN⟩ := lstep_queue c dos redos d1 d2 d3 e { st with queue := q }
      by_cases hb : (lstep c dos redos d1 d2 d3 e { st with queue := q }).2 = true
      · refine ⟨(lstep c dos redos d1 d2 d3 e { st with queue := q }).1, fun n hn => ?_⟩
        obtain ⟨n, rfl⟩ := Nat.exists_eq_succ_of_ne_zero (n := n) (by omega)
        rw [lrun_cons _ _ _ _ _ _ _ _ hq, if_pos hb]
      · obtain ⟨S, hS⟩ := ih (lstep c dos redos d1 d2 d3 e { st with queue := q }).1 (by
          rw [hN, qw_append]
          rw [hq] at hw
          simp only [qw, List.map_cons, List.sum_cons] at hw hwN ⊢
          omega)
        refine ⟨S, fun n hn => ?_⟩
        obtain ⟨n, rfl⟩ := Nat.exists_eq_succ_of_ne_zero (n := n) (by omega)
        rw [lrun_cons _ _ _ _ _ _ _ _ hq, if_neg hb]
        exact hS n (by omega)

/-! ### completeness -/

/-- the key of an entry in the order of the queue -/
def key : LEntry α → Nat
  | (_, false, k) => 2 * k
  | (_, true, k) => 2 * k - 1

/-- the do continuations of `v` are handled -/
def Exp (dos : List (List α)) (d1 : Int) (ck : List (List α × Nat)) (q : List (LEntry α)) (v : List α) (k : Nat) : Prop :=
  ∀ d ∈ dos, ((v ++ d).length : Int) ≤ d1 → (v ++ d, false, k) ∈ q ∨ ∃ k' ≤ k, (v ++ d, k') ∈ ck

/-- completeness invariant; `ck` are the closed traces with the number of loops when they were closed -/
structure LInv (loops : Nat) (dos redos : List (List α)) (d1 d2 d3 : Int) (ck : List (List α × Nat)) (st : LState α) : Prop where
  closed : ∀ u, u ∈ st.closed ↔ ∃ k, (u, k) ∈ ck
  sorted : st.queue.Pairwise fun a b => key a ≤ key b
  near : ∀ a ∈ st.queue, ∀ b ∈ st.queue, key b ≤ key a + 1
  below : ∀ x ∈ ck, ∀ e ∈ st.queue, 2 * x.2 ≤ key e
  pos : ∀ u k, (u, true, k) ∈ st.queue → 1 ≤ k
  init : ∀ d ∈ dos, (d, false, 0) ∈ st.queue ∨ (d, 0) ∈ ck
  redo : ∀ u k, (u, k) ∈ ck → k + 1 ≤ loops → ∀ r ∈ redos, ((u ++ r).length : Int) ≤ d2 →
    (u ++ r, true, k + 1) ∈ st.queue ∨ Exp dos d1 ck st.queue (u ++ r) (k + 1)
  final : ∀ u ∈ st.closed, d3 ≤ (u.length : Int) → (u.length : Int) ≤ d1 → u ∈ st.final

/-- the step without a limit -/
def ustep (loops : Nat) (dos redos : List (List α)) (d1 d2 d3 : Int) (e : LEntry α) (st : LState α) : LState α :=
  match e with
  | (u, false, k) =>
    if u ∈ st.closed then st
    else { queue := st.queue ++ (redos.takeWhile fun y =>
            decide (((u ++ y).length : Int) ≤ d2) && decide (k + 1 ≤ loops)).map fun y => (u ++ y, true, k + 1)
           closed := st.closed ++ [u]
           final := addFinal d1 d3 u st.final }
  | (u, true, k) =>
    { st with queue := st.queue ++ (dos.takeWhile fun y => decide (((u ++ y).length : Int) ≤ d1)).map fun y => (u ++ y, false, k) }

theorem ustep_final (loops : Nat) (dos redos : List (List α)) (d1 d2 d3 : Int) (e : LEntry α) (st : LState α) :
    (ustep loops dos redos d1 d2 d3 e st).final.length ≤ st.final.length + 1 := by
  obtain ⟨u, b, k⟩ := e
  cases b
  · simp only [ustep]
    split
    · omega
    · simp only [addFinal]
      split
      · split
        · omega
        · simp
      · omega
  · simp only [ustep]; omega

theorem lstep_eq_ustep (c : Cfg α) (dos redos : List (List α)) (d1 d2 d3 : Int) (e : LEntry α) (st : LState α)
    (hl : st.final.length + 1 ≤ c.limit) : lstep c dos redos d1 d2 d3 e st = (ustep c.loops dos redos d1 d2 d3 e st, false) := by
  obtain ⟨u, b, k⟩ := e
  cases b
  · rw [lstep_false]
    simp only [ustep]
    have hfl : (addFinal d1 d3 u st.final).length ≤ st.final.length + 1 := by
      unfold addFinal
      split
      · split
        · omega
        · simp
      · omega
    rw [if_neg (c := (d3 ≤ (u.length : Int) ∧ (u.length : Int) ≤ d1) ∧ (addFinal d1 d3 u st.final).length > c.limit) (by omega)]
    split <;> rfl
  · rfl

theorem linv_step (loops : Nat) (dos redos : List (List α)) (d1 d2 d3 : Int) (ck : List (List α × Nat)) (st : LState α)
    (hd : dos.Pairwise fun a b => a.length ≤ b.length) (hr : redos.Pairwise fun a b => a.length ≤ b.length)
    (h : LInv loops dos redos d1 d2 d3 ck st) {e : LEntry α} {q : List (LEntry α)} (hq : st.queue = e :: q) :
    ∃ ck', LInv loops dos redos d1 d2 d3 ck' (ustep loops dos redos d1 d2 d3 e { st with queue := q }) := by
  obtain ⟨h1, h2, h3, h4, h5, h6, h7, h8⟩ := h
  rw [hq] at h2 h3 h4 h5 h6 h7
  have hmin : ∀ b ∈ q, key e ≤ key b := fun b hb => List.rel_of_pairwise_cons h2 hb
  have hmax : ∀ b ∈ q, key b ≤ key e + 1 := fun b hb => h3 e (by simp) b (by simp [hb])
  have h2' := (List.pairwise_cons.1 h2).2
  have sorted' : ∀ N : List (LEntry α), (∀ b ∈ N, key b = key e + 1) →
      (q ++ N).Pairwise (fun a b => key a ≤ key b) ∧ ∀ a ∈ q ++ N, ∀ b ∈ q ++ N, key b ≤ key a + 1 := by
    intro N hN
    constructor
    · rw [List.pairwise_append]
      refine ⟨h2', ?_, ?_⟩
      · rw [List.pairwise_iff_forall_sublist]
        intro a b hab
        have ha := hN a (hab.subset (by simp))
        have hb := hN b (hab.subset (by simp))
        omega
      · intro a ha b hb
        have := hmax a ha
        have := hN b hb
        omega
    · intro a ha b hb
      have : key e ≤ key a := by
        rcases List.mem_append.1 ha with ha | ha
        · exact hmin a ha
        · have := hN a ha; omega
      have : key b ≤ key e + 1 := by
        rcases List.mem_append.1 hb with hb | hb
        · exact hmax b hb
        · have := hN b hb; omega
      omega
  obtain ⟨u, b, k⟩ := e
  cases b with
  | false =>
    simp only [ustep]
    by_cases hc : u ∈ st.closed
    · rw [if_pos hc]
      obtain ⟨k0, hk0⟩ := (h1 u).1 hc
      have hk0' : k0 ≤ k := by
        have := h4 _ hk0 (u, false, k) (by simp)
        simp [key] at this; omega
      have swap : ∀ v j, (v, false, j) ∈ (u, false, k) :: q → (v, false, j) ∈ q ∨ ∃ k' ≤ j, (v, k') ∈ ck := by
        intro v j hv
        rcases List.mem_cons.1 hv with heq | hv
        · simp only [Prod.mk.injEq, true_and] at heq
          obtain ⟨rfl, rfl⟩ := heq
          exact .inr ⟨k0, hk0', hk0⟩
        · exact .inl hv
      refine ⟨ck, h1, h2', fun a ha b hb => h3 a (by simp [ha]) b (by simp [hb]), fun x hx e he => h4 x hx e (by simp [he]),
        fun u k hu => h5 u k (by simp [hu]), ?_, ?_, h8⟩
      · intro d hd
        rcases h6 d hd with h' | h'
        · rcases swap _ _ h' with h' | ⟨k', hk', h'⟩
          · exact .inl h'
          · obtain rfl : k' = 0 := by omega
            exact .inr h'
        · exact .inr h'
      · intro v j hv hj r hr hl
        rcases h7 v j hv hj r hr hl with h' | h'
        · left
          simpa using h'
        · right
          intro d hd hl2
          rcases h' d hd hl2 with h' | h'
          · exact swap _ _ h'
          · exact .inr h'
    · rw [if_neg hc]
      have swap : ∀ (N : List (LEntry α)) v j, (v, false, j) ∈ (u, false, k) :: q →
          (v, false, j) ∈ q ++ N ∨ ∃ k' ≤ j, (v, k') ∈ ck ++ [(u, k)] := by
        intro N v j hv
        rcases List.mem_cons.1 hv with heq | hv
        · simp only [Prod.mk.injEq, true_and] at heq
          obtain ⟨rfl, rfl⟩ := heq
          exact .inr ⟨_, Nat.le_refl _, by simp⟩
        · exact .inl (by simp [hv])
      have hN : ∀ b ∈ (redos.takeWhile fun y => decide (((u ++ y).length : Int) ≤ d2) && decide (k + 1 ≤ loops)).map
          (fun y => (u ++ y, true, k + 1)), key b = key (u, false, k) + 1 := by
        intro b hb
        obtain ⟨y, _, rfl⟩ := List.mem_map.1 hb
        simp [key]; omega
      obtain ⟨s1, s2⟩ := sorted' _ hN
      refine ⟨ck ++ [(u, k)], ?_, s1, s2, ?_, ?_, ?_, ?_, ?_⟩
      · intro v
        simp only [List.mem_append, List.mem_singleton, h1 v, Prod.mk.injEq]
        constructor
        · rintro (⟨j, hj⟩ | rfl)
          · exact ⟨j, .inl hj⟩
          · exact ⟨k, .inr ⟨rfl, rfl⟩⟩
        · rintro ⟨j, hj | hj⟩
          · exact .inl ⟨j, hj⟩
          · exact .inr hj.1
      · intro x hx e he
        have hke : key (u, false, k) ≤ key e := by
          rcases List.mem_append.1 he with he | he
          · exact hmin e he
          · have := hN e he; omega
        rcases List.mem_append.1 hx with hx | hx
        · have := h4 x hx (u, false, k) (by simp)
          omega
        · simp at hx; subst hx
          simpa [key] using hke
      · intro v j hv
        rcases List.mem_append.1 hv with hv | hv
        · exact h5 v j (by simp [hv])
        · obtain ⟨y, _, heq⟩ := List.mem_map.1 hv
          simp only [Prod.mk.injEq, true_and] at heq
          omega
      · intro d hd
        rcases h6 d hd with h' | h'
        · rcases swap _ _ _ h' with h' | ⟨k', hk', h'⟩
          · exact .inl h'
          · obtain rfl : k' = 0 := by omega
            exact .inr h'
        · exact .inr (by simp [h'])
      · intro v j hv hj r hr' hl
        rcases List.mem_append.1 hv with hv | hv
        · rcases h7 v j hv hj r hr' hl with h' | h'
          · left
            simp at h'
            simp [h']
          · right
            intro d hd hl2
            rcases h' d hd hl2 with h' | ⟨k', hk', h'⟩
            · exact swap _ _ _ h'
            · exact .inr ⟨k', hk', List.mem_append_left _ h'⟩
        · simp only [List.mem_singleton, Prod.mk.injEq] at hv
          obtain ⟨rfl, rfl⟩ := hv
          left
          refine List.mem_append_right _ (List.mem_map.2 ⟨r, ?_, rfl⟩)
          refine takeWhile_sorted hr _ ?_ hr' (by simp only [Bool.and_eq_true, decide_eq_true_eq]; exact ⟨hl, hj⟩)
          intro a b hab
          simp only [Bool.and_eq_true, decide_eq_true_eq, List.length_append]
          intro ⟨h1, h2⟩
          exact ⟨by omega, h2⟩
      · intro v hv hb1 hb2
        rcases List.mem_append.1 hv with hv | hv
        · have := h8 v hv hb1 hb2
          simp only [addFinal]
          split
          · split
            · exact this
            · simp [this]
          · exact this
        · simp at hv; subst hv
          simp only [addFinal, hb1, hb2, and_self, if_true]
          split
          · assumption
          · simp
  | true =>
    simp only [ustep]
    have hk := h5 u k (by simp)
    have hN : ∀ b ∈ (dos.takeWhile fun y => decide (((u ++ y).length : Int) ≤ d1)).map (fun y => (u ++ y, false, k)),
        key b = key (u, true, k) + 1 := by
      intro b hb
      obtain ⟨y, _, rfl⟩ := List.mem_map.1 hb
      simp [key]; omega
    obtain ⟨s1, s2⟩ := sorted' _ hN
    refine ⟨ck, h1, s1, s2, ?_, ?_, ?_, ?_, h8⟩
    · intro x hx e he
      have hke : key (u, true, k) ≤ key e := by
        rcases List.mem_append.1 he with he | he
        · exact hmin e he
        · have := hN e he; omega
      have := h4 x hx (u, true, k) (by simp)
      omega
    · intro v j hv
      rcases List.mem_append.1 hv with hv | hv
      · exact h5 v j (by simp [hv])
      · obtain ⟨y, _, heq⟩ := List.mem_map.1 hv
        simp at heq
    · intro d hd
      rcases h6 d hd with h' | h'
      · left
        simp at h'
        simp [h']
      · exact .inr h'
    · intro v j hv hj r hr' hl
      rcases h7 v j hv hj r hr' hl with h' | h'
      · rcases List.mem_cons.1 h' with heq | h'
        · simp only [Prod.mk.injEq, true_and] at heq
          obtain ⟨rfl, rfl⟩ := heq
          right
          intro d hd' hl2
          left
          refine List.mem_append_right _ (List.mem_map.2 ⟨d, ?_, rfl⟩)
          refine takeWhile_sorted hd _ ?_ hd' (by simp only [decide_eq_true_eq]; exact hl2)
          intro a b hab
          simp only [decide_eq_true_eq, List.length_append]
          omega
        · exact .inl (by simp [h'])
      · right
        intro d hd' hl2
        rcases h' d hd' hl2 with h' | h'
        · left
          simp at h'
          simp [h']
        · exact .inr h'

/-- With enough rounds and a high limit the loop finds all words. -/
theorem lrun_complete (c : Cfg α) (dos redos : List (List α)) (d1 d2 d3 : Int)
    (hd : dos.Pairwise fun a b => a.length ≤ b.length) (hr : redos.Pairwise fun a b => a.length ≤ b.length) :
    ∀ (W : Nat) (st : LState α) (ck : List (List α × Nat)),
    qw c.loops dos.length redos.length st.queue ≤ W → LInv c.loops dos redos d1 d2 d3 ck st →
    ∃ S ck', (∀ n limit, W ≤ n → st.final.length + W ≤ limit → lrun { c with limit := limit } dos redos d1 d2 d3 n st = some S) ∧
      LInv c.loops dos redos d1 d2 d3 ck' S ∧ S.queue = [] := by
  intro W
  induction W with
  | zero =>
    intro st ck hw h
    cases hq : st.queue with
    | nil => exact ⟨st, ck, fun n _ _ _ => lrun_nil _ _ _ _ _ _ _ _ hq, h, hq⟩
    | cons e q =>
      rw [hq] at hw
      have := ew_pos c.loops dos.length redos.length e
      simp [qw] at hw; omega
  | succ W ih =>
    intro st ck hw h
    cases hq : st.queue with
    | nil => exact ⟨st, ck, fun n _ _ _ => lrun_nil _ _ _ _ _ _ _ _ hq, h, hq⟩
    | cons e q =>
      obtain ⟨ck1, h1⟩ := linv_step c.loops dos redos d1 d2 d3 ck st hd hr h hq
      obtain ⟨N, hN, hwN⟩ := lstep_queue { c with limit := st.final.length + 1 } dos redos d1 d2 d3 e { st with queue := q }
      rw [lstep_eq_ustep { c with limit := st.final.length + 1 } dos redos d1 d2 d3 e { st with queue := q } (Nat.le_refl _)] at hN
      obtain ⟨S, ck', hS, hI, hE⟩ := ih (ustep c.loops dos redos d1 d2 d3 e { st with queue := q }) ck1 (by
          rw [show (ustep c.loops dos redos d1 d2 d3 e { st with queue := q }).queue = q ++ N from hN, qw_append]
          rw [hq] at hw
          simp only [qw, List.map_cons, List.sum_cons] at hw hwN ⊢
          omega) h1
      refine ⟨S, ck', fun n limit hn hlim => ?_, hI, hE⟩
      obtain ⟨n, rfl⟩ := Nat.exists_eq_succ_of_ne_zero (n := n) (by omega)
      rw [lrun_cons _ _ _ _ _ _ _ _ hq, lstep_eq_ustep { c with limit := limit } dos redos d1 d2 d3 e { st with queue := q } (by simp only; omega)]
      simp only [Bool.false_eq_true, if_false]
      have := ustep_final c.loops dos redos d1 d2 d3 e { st with queue := q }
      exact hS n limit (by omega) (by simp only at this; omega)

theorem linv_init (loops : Nat) (dos redos : List (List α)) (d1 d2 d3 : Int) :
    LInv loops dos redos d1 d2 d3 [] { queue := dos.map fun x => (x, false, 0), closed := [], final := [] } where
  closed := by simp
  sorted := by
    rw [List.pairwise_map]
    exact List.pairwise_of_forall (by intro a b; simp [key])
  near := by
    intro a ha b hb
    obtain ⟨x, _, rfl⟩ := List.mem_map.1 ha
    obtain ⟨y, _, rfl⟩ := List.mem_map.1 hb
    simp [key]
  below := by simp
  pos := by intro u k hu; simp at hu
  init := by intro d hd; left; exact List.mem_map.2 ⟨d, hd, rfl⟩
  redo := by simp
  final := by simp

theorem linv_done {loops : Nat} {dos redos : List (List α)} {d1 d2 d3 : Int} {ck : List (List α × Nat)} {S : LState α}
    (h : LInv loops dos redos d1 d2 d3 ck S) (hq : S.queue = []) (hd2 : ∀ d ∈ dos, d1 - (d.length : Int) ≤ d2)
    {k : Nat} {u : List α} (hu : LReach (inL dos) (inL redos) k u) (hk : k ≤ loops) (hl : (u.length : Int) ≤ d1) :
    ∃ k' ≤ k, (u, k') ∈ ck := by
  induction hu with
  | zero hd =>
    rcases h.init _ hd with h' | h'
    · rw [hq] at h'; simp at h'
    · exact ⟨0, by omega, h'⟩
  | @succ k u r d _ hr hd ih =>
    obtain ⟨k', hk', hc⟩ := ih (by omega) (by simp at hl; omega)
    have := hd2 d hd
    rcases h.redo u k' hc (by omega) r hr (by simp at hl ⊢; omega) with h' | h'
    · rw [hq] at h'; simp at h'
    · rcases h' d hd hl with h' | ⟨k2, hk2, h'⟩
      · rw [hq] at h'; simp at h'
      · exact ⟨k2, by omega, h'⟩

end Verif.TreePlayout
