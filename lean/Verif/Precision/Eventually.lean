import Verif.Align.Search
/-
C66: the visible transitions that are eventually enabled by a marking,
/repo/pm4py/objects/petri_net/utils/align_utils.py:430-469.
-/
set_option linter.unusedSectionVars false
namespace Verif
open Dict Align
namespace Precision
variable {P T A : Type} [DecidableEq P] [DecidableEq T]

/-! ### Model -/

/-- local variables of `get_visible_transitions_eventually_enabled_by_marking` -/
structure EE (P T : Type) where
  queue : List T
  dictio : Dict T (Marking P)
  visible : List T
  visited : List (T × Marking P)
  i : Nat

/-- the loops that store the marking of the transitions just listed (align_utils.py:443-445, 463-465) -/
def store (m : Marking P) (ts : List T) (d : Dict T (Marking P)) : Dict T (Marking P) :=
  ts.foldl (fun d t => Dict.set d t m) d

/-- one iteration of the `while` loop (align_utils.py:450-467).  `ord` is the order `sorted(..., key=(name, id))` gives to
a list of transitions.  Simplification: `repr([t, marking])` is taken to identify the transition and the marking (names of
places and transitions are distinct). -/
def eeStep (net : LNet P T A) (ord : List T → List T) (s : EE P T) : EE P T :=
  match s.queue[s.i]? with
  | none => s
  | some t =>
    let m := (get? s.dictio t).getD []
    if s.visited.any (fun v => decide (v.1 = t) && Marking.eq v.2 m) then { s with i := s.i + 1 }
    else if (net.label t).isSome then
      { s with visible := setAdd s.visible t, visited := s.visited ++ [(t, m)], i := s.i + 1 }
    else match net.toNet.execute t m with
      | some m' =>
        let new := ord (net.toNet.enabledTransitions m')
        { s with queue := s.queue ++ new, dictio := store m' new s.dictio, visited := s.visited ++ [(t, m)], i := s.i + 1 }
      | none => { s with visited := s.visited ++ [(t, m)], i := s.i + 1 }

/-- the variables before the loop (align_utils.py:439-449) -/
def eeInit (net : LNet P T A) (ord : List T → List T) (m : Marking P) : EE P T :=
  let q := ord (net.toNet.enabledTransitions m)
  { queue := q, dictio := store m q [], visible := [], visited := [], i := 0 }

/-- the variables after `n` iterations -/
def eeRun (net : LNet P T A) (ord : List T → List T) (m : Marking P) : Nat → EE P T
  | 0 => eeInit net ord m
  | n + 1 => eeStep net ord (eeRun net ord m n)

/-- the loop condition is false -/
def EE.Done (s : EE P T) : Prop := s.queue.length ≤ s.i

/-! ### Specification -/

/-- `m'` is reached from `m` by firing silent transitions only -/
def SilentTo (net : LNet P T A) (m m' : Marking P) : Prop :=
  ∃ ts : List T, (∀ t ∈ ts, net.label t = none) ∧ ts.foldlM (fun m t => net.toNet.execute t m) m = some m'

/-- `t` is a visible transition that is enabled after firing silent transitions -/
def EventuallyEnabled (net : LNet P T A) (m : Marking P) (t : T) : Prop :=
  (net.label t).isSome ∧ ∃ m', SilentTo net m m' ∧ net.toNet.isEnabled t m' = true

/-- all silently reachable markings that enable a given silent transition are the same -/
def OneContext (net : LNet P T A) (m : Marking P) : Prop :=
  ∀ t, net.label t = none → ∀ m1 m2, SilentTo net m m1 → SilentTo net m m2 →
    net.toNet.isEnabled t m1 = true → net.toNet.isEnabled t m2 = true → SameTokens m1 m2

/-! ### Proofs -/

theorem get?_store (m : Marking P) (ts : List T) (d : Dict T (Marking P)) (t : T) :
    get? (store m ts d) t = if t ∈ ts then some m else get? d t := by
  induction ts generalizing d with
  | nil => simp [store]
  | cons u ts ih =>
    simp only [store, List.foldl_cons] at ih ⊢
    rw [ih, get?_set]
    by_cases h : t ∈ ts
    · simp [h]
    · by_cases h' : u = t
      · simp [h']
      · simp [h, h', Ne.symm h']

theorem SilentTo.refl (net : LNet P T A) (m : Marking P) : SilentTo net m m := ⟨[], by simp, rfl⟩

theorem SilentTo.snoc {net : LNet P T A} {m m' m'' : Marking P} {t : T} (h : SilentTo net m m') (hl : net.label t = none)
    (he : net.toNet.execute t m' = some m'') : SilentTo net m m'' := by
  obtain ⟨ts, h1, h2⟩ := h
  refine ⟨ts ++ [t], ?_, ?_⟩
  · intro u hu
    rcases List.mem_append.1 hu with hu | hu
    · exact h1 u hu
    · rw [List.mem_singleton.1 hu]; exact hl
  · rw [List.foldlM_append, h2]; simp [he]

/-- induction over the last silent transition -/
theorem SilentTo.induct {net : LNet P T A} {m : Marking P} {motive : Marking P → Prop} (base : motive m)
    (step : ∀ m' m'' t, SilentTo net m m' → motive m' → net.label t = none → net.toNet.execute t m' = some m'' → motive m'')
    {m' : Marking P} (h : SilentTo net m m') : motive m' := by
  obtain ⟨ts, h1, h2⟩ := h
  induction ts using snocInduct generalizing m' with
  | nil => simp at h2; subst h2; exact base
  | snoc ts t ih =>
    rw [List.foldlM_append] at h2
    simp only [List.foldlM_cons, List.foldlM_nil, Option.bind_eq_bind, Option.bind_eq_some_iff, Option.pure_def] at h2
    obtain ⟨x, hx, y, hy, hz⟩ := h2
    simp at hz; subst hz
    have hts : ∀ u ∈ ts, net.label u = none := fun u hu => h1 u (List.mem_append_left _ hu)
    exact step x y t ⟨ts, hts, hx⟩ (ih hts hx) (h1 t (by simp)) hy

theorem mem_enabledT (net : Net P T) (m : Marking P) (t : T) : t ∈ net.enabledTransitions m ↔ net.isEnabled t m = true := by
  rw [Net.enabledTransitions, List.mem_filter]
  constructor
  · exact fun h => h.2
  · intro h; exact ⟨((Net.isEnabled_iff _ _ _).1 h).1, h⟩

theorem isEnabled_congr {net : Net P T} {m n : Marking P} (h : SameTokens m n) (t : T) (he : net.isEnabled t m = true) :
    net.isEnabled t n = true := by
  rw [Net.isEnabled_iff] at he ⊢
  exact ⟨he.1, fun a ha => by rw [← h]; exact he.2 a ha⟩

theorem execute_some_iff {net : Net P T} {m : Marking P} (t : T) : (∃ m', net.execute t m = some m') ↔ net.isEnabled t m = true := by
  unfold Net.execute; split <;> simp_all

theorem execute_congr {net : Net P T} {m n m' n' : Marking P} (h : SameTokens m n) {t : T} (h1 : net.execute t m = some m')
    (h2 : net.execute t n = some n') : SameTokens m' n' := by
  intro p
  rw [C01_execute_exact net t m m' h1 p, C01_execute_exact net t n n' h2 p, h p]

theorem SilentTo.pos {net : LNet P T A} (hs : net.toNet.Simple) {m m' : Marking P} (hp : Pos m) (h : SilentTo net m m') : Pos m' := by
  obtain ⟨ts, _, h⟩ := h
  exact C01_run_positive net.toNet hs ts m m' hp h

/-- loop invariant -/
structure EInv (net : LNet P T A) (im : Marking P) (s : EE P T) : Prop where
  dict : ∀ t ∈ s.queue, ∃ m, get? s.dictio t = some m ∧ SilentTo net im m ∧ net.toNet.isEnabled t m = true
  vis : ∀ t ∈ s.visible, EventuallyEnabled net im t
  ini : ∀ t, net.toNet.isEnabled t im = true → t ∈ s.queue
  vtd : ∀ v ∈ s.visited, SilentTo net im v.2 ∧ net.toNet.isEnabled v.1 v.2 = true ∧
    if (net.label v.1).isSome then v.1 ∈ s.visible
    else ∃ m', net.toNet.execute v.1 v.2 = some m' ∧ ∀ t, net.toNet.isEnabled t m' = true → t ∈ s.queue
  done : ∀ t ∈ s.queue.take s.i, ∃ m, (t, m) ∈ s.visited

theorem einv_init (net : LNet P T A) (ord : List T → List T) (ho : ∀ l, (ord l).Perm l) (im : Marking P) :
    EInv net im (eeInit net ord im) where
  dict t ht := by
    simp only [eeInit] at ht ⊢
    refine ⟨im, by rw [get?_store, if_pos ht], .refl net im, ?_⟩
    exact (mem_enabledT _ _ _).1 ((ho _).mem_iff.1 ht)
  vis t ht := by simp [eeInit] at ht
  ini t ht := (ho _).mem_iff.2 ((mem_enabledT _ _ _).2 ht)
  vtd v hv := by simp [eeInit] at hv
  done t ht := by simp [eeInit] at ht

theorem mem_take_succ {X : Type} (l : List X) (i : Nat) (x y : X) (h : l[i]? = some x) : y ∈ l.take (i + 1) → y ∈ l.take i ∨ y = x := by
  rw [List.take_add_one, h]; simp

theorem take_append_lt {X : Type} (l r : List X) (i : Nat) (x : X) (h : l[i]? = some x) : (l ++ r).take (i + 1) = l.take (i + 1) := by
  have : i < l.length := by
    rcases Nat.lt_or_ge i l.length with h' | h'
    · exact h'
    · rw [List.getElem?_eq_none h'] at h; cases h
  rw [List.take_append_of_le_length (by omega)]

theorem einv_step (net : LNet P T A) (ord : List T → List T) (ho : ∀ l, (ord l).Perm l) (im : Marking P) (s : EE P T)
    (h : EInv net im s) : EInv net im (eeStep net ord s) := by
  unfold eeStep
  split
  · exact h
  · rename_i t hq
    have htq : t ∈ s.queue := List.mem_of_getElem? hq
    obtain ⟨m, hm, hs1, he⟩ := h.dict t htq
    simp only [hm, Option.getD_some]
    split
    · rename_i hv
      rw [List.any_eq_true] at hv
      obtain ⟨v, hv, hv'⟩ := hv
      simp only [Bool.and_eq_true, decide_eq_true_eq] at hv'
      refine ⟨h.dict, h.vis, h.ini, h.vtd, ?_⟩
      intro u hu
      rcases mem_take_succ _ _ _ _ hq hu with hu | rfl
      · exact h.done u hu
      · exact ⟨v.2, by rw [← hv'.1]; exact hv⟩
    · split
      · rename_i hl
        refine ⟨h.dict, ?_, h.ini, ?_, ?_⟩
        · intro u hu
          rcases (mem_setAdd _ _ _).1 hu with hu | rfl
          · exact h.vis u hu
          · exact ⟨hl, m, hs1, he⟩
        · intro v hv
          rcases List.mem_append.1 hv with hv | hv
          · obtain ⟨h1, h2, h3⟩ := h.vtd v hv
            refine ⟨h1, h2, ?_⟩
            split
            · rename_i hh; rw [if_pos hh] at h3; exact (mem_setAdd _ _ _).2 (.inl h3)
            · rename_i hh; rw [if_neg hh] at h3; exact h3
          · rw [List.mem_singleton.1 hv]
            exact ⟨hs1, he, by rw [if_pos hl]; exact (mem_setAdd _ _ _).2 (.inr rfl)⟩
        · intro u hu
          rcases mem_take_succ _ _ _ _ hq hu with hu | rfl
          · obtain ⟨m', h'⟩ := h.done u hu; exact ⟨m', List.mem_append_left _ h'⟩
          · exact ⟨m, by simp⟩
      · rename_i hl
        have hl' : net.label t = none := by simpa using hl
        obtain ⟨m', hm'⟩ := (execute_some_iff t).2 he
        rw [hm']
        refine ⟨?_, h.vis, fun u hu => List.mem_append_left _ (h.ini u hu), ?_, ?_⟩
        · intro u hu
          simp only [get?_store]
          by_cases hun : u ∈ ord (net.toNet.enabledTransitions m')
          · exact ⟨m', by rw [if_pos hun], hs1.snoc hl' hm', (mem_enabledT _ _ _).1 ((ho _).mem_iff.1 hun)⟩
          · rw [if_neg hun]
            rcases List.mem_append.1 hu with hu | hu
            · exact h.dict u hu
            · exact absurd hu hun
        · intro v hv
          rcases List.mem_append.1 hv with hv | hv
          · obtain ⟨h1, h2, h3⟩ := h.vtd v hv
            refine ⟨h1, h2, ?_⟩
            split
            · rename_i hh; rw [if_pos hh] at h3; exact h3
            · rename_i hh; rw [if_neg hh] at h3
              obtain ⟨m2, h4, h5⟩ := h3
              exact ⟨m2, h4, fun u hu => List.mem_append_left _ (h5 u hu)⟩
          · rw [List.mem_singleton.1 hv]
            refine ⟨hs1, he, ?_⟩
            rw [if_neg hl]
            exact ⟨m', hm', fun u hu => List.mem_append_right _ ((ho _).mem_iff.2 ((mem_enabledT _ _ _).2 hu))⟩
        · intro u hu
          simp only [take_append_lt _ _ _ _ hq] at hu
          rcases mem_take_succ _ _ _ _ hq hu with hu | rfl
          · obtain ⟨m', h'⟩ := h.done u hu; exact ⟨m', List.mem_append_left _ h'⟩
          · exact ⟨m, by simp⟩

theorem einv (net : LNet P T A) (ord : List T → List T) (ho : ∀ l, (ord l).Perm l) (im : Marking P) (n : Nat) :
    EInv net im (eeRun net ord im n) := by
  induction n with
  | zero => exact einv_init net ord ho im
  | succ n ih => exact einv_step net ord ho im _ ih

/-- C66: every transition the function returns is visible and enabled after firing silent transitions. -/
theorem _root_.Verif.C66_eventually_sound (net : LNet P T A) (ord : List T → List T) (ho : ∀ l, (ord l).Perm l)
    (m : Marking P) (n : Nat) : ∀ t ∈ (eeRun net ord m n).visible, EventuallyEnabled net m t :=
  (einv net ord ho m n).vis

/-- C66: if every silent transition can only be enabled in one silently reachable marking, the function returns all
visible transitions that are enabled after firing silent transitions. -/
theorem _root_.Verif.C66_eventually_complete (net : LNet P T A) (ord : List T → List T) (ho : ∀ l, (ord l).Perm l)
    (m : Marking P) (h1 : OneContext net m) (n : Nat) (hd : (eeRun net ord m n).Done) (t : T) :
    EventuallyEnabled net m t ↔ t ∈ (eeRun net ord m n).visible := by
  have hi := einv net ord ho m n
  generalize eeRun net ord m n = s at hi hd
  constructor
  · rintro ⟨hl, m', hm', he⟩
    have htake : s.queue.take s.i = s.queue := List.take_of_length_le hd
    have hall : ∀ u ∈ s.queue, ∃ m, (u, m) ∈ s.visited := by rw [← htake]; exact hi.done
    have key : ∀ u, net.toNet.isEnabled u m' = true → u ∈ s.queue := by
      refine SilentTo.induct (motive := fun m' => ∀ u, net.toNet.isEnabled u m' = true → u ∈ s.queue) hi.ini ?_ hm'
      intro m1 m2 u hm1 ih hul hex u2 hu2
      have hue := (execute_some_iff u).1 ⟨m2, hex⟩
      obtain ⟨mv, hv⟩ := hall u (ih u hue)
      obtain ⟨h2, h3, h4⟩ := hi.vtd _ hv
      rw [if_neg (by simp [hul])] at h4
      obtain ⟨m3, h5, h6⟩ := h4
      have hsame := h1 u hul m1 mv hm1 h2 hue h3
      exact h6 u2 (isEnabled_congr (execute_congr hsame hex h5) u2 hu2)
    obtain ⟨mv, hv⟩ := hall t (key t he)
    obtain ⟨_, _, h4⟩ := hi.vtd _ hv
    rwa [if_pos hl] at h4
  · exact hi.vis t

/-! ### Termination -/

/-- C66: the loop ends if finitely many markings are silently reachable (`L` lists them). -/
theorem _root_.Verif.C66_eventually_terminates (net : LNet P T A) (hs : net.toNet.Simple) (ord : List T → List T)
    (ho : ∀ l, (ord l).Perm l) (m : Marking P) (hp : Pos m) (L : List (Marking P)) (hLp : ∀ x ∈ L, Pos x)
    (hL : ∀ m', SilentTo net m m' → ∃ x ∈ L, SameTokens x m') : ∃ n, (eeRun net ord m n).Done := by
  let U : List (T × Marking P) := net.transitions.flatMap fun t => L.map fun x => (t, x)
  let B := net.transitions.length
  let μ : EE P T → Nat := fun s => (s.queue.length - s.i) +
    (B + 1) * U.countP fun u => !s.visited.any fun v => decide (v.1 = u.1) && Marking.eq v.2 u.2
  have hdec : ∀ n, ¬ (eeRun net ord m n).Done → μ (eeRun net ord m (n + 1)) < μ (eeRun net ord m n) := by
    intro n hnd
    have hi := einv net ord ho m n
    simp only [eeRun]
    generalize eeRun net ord m n = s at hi hnd
    have hlt : s.i < s.queue.length := by unfold EE.Done at hnd; omega
    have hq : s.queue[s.i]? = some s.queue[s.i] := List.getElem?_eq_getElem hlt
    unfold eeStep
    rw [hq]
    generalize s.queue[s.i] = t at hq
    have htq : t ∈ s.queue := List.mem_of_getElem? hq
    obtain ⟨mt, hm, hs1, he⟩ := hi.dict t htq
    simp only [hm, Option.getD_some]
    obtain ⟨x, hxL, hx⟩ := hL mt hs1
    have hpm := hs1.pos hs hp
    have hxe : Marking.eq mt x = true := (C02_eq _ _ hpm (hLp x hxL)).2 fun p => (hx p).symm
    have htt : t ∈ net.transitions := ((Net.isEnabled_iff _ _ _).1 he).1
    have hU : (t, x) ∈ U := List.mem_flatMap.2 ⟨t, htt, List.mem_map.2 ⟨x, hxL, rfl⟩⟩
    split
    · simp only [μ]; omega
    · rename_i hnv
      have hcount : (U.countP fun u => !(s.visited ++ [(t, mt)]).any fun v => decide (v.1 = u.1) && Marking.eq v.2 u.2) <
          U.countP fun u => !s.visited.any fun v => decide (v.1 = u.1) && Marking.eq v.2 u.2 := by
        refine countP_lt _ _ _ ?_ (t, x) hU ?_ ?_
        · intro z _ hz; simp only [List.any_append, Bool.not_or, Bool.and_eq_true] at hz; exact hz.1
        · rw [Bool.not_eq_true', ← Bool.not_eq_true, List.any_eq_true]
          rintro ⟨v, hv, hve⟩
          rw [List.any_eq_true] at hnv
          simp only [Bool.and_eq_true, decide_eq_true_eq] at hve
          exact hnv ⟨v, hv, by
            simp only [Bool.and_eq_true, decide_eq_true_eq]
            exact ⟨hve.1, C02_eq_equivalence.trans hve.2 (C02_eq_equivalence.symm hxe)⟩⟩
        · simp [hxe]
      have hmul := Nat.mul_le_mul_left (B + 1) (Nat.succ_le_of_lt hcount)
      rw [Nat.mul_succ] at hmul
      split
      · simp only [μ]; omega
      · split
        · rename_i m' hm'
          have h5 := (ho (net.toNet.enabledTransitions m')).length_eq
          have h6 : (net.toNet.enabledTransitions m').length ≤ B := List.length_filter_le _ _
          simp only [μ, List.length_append]; omega
        · simp only [μ]; omega
  have key : ∀ k n, μ (eeRun net ord m n) ≤ k → ∃ n, (eeRun net ord m n).Done := by
    intro k
    induction k with
    | zero =>
      intro n hn
      refine ⟨n, ?_⟩
      rw [EE.Done]
      have : (eeRun net ord m n).queue.length - (eeRun net ord m n).i ≤ μ (eeRun net ord m n) := Nat.le_add_right _ _
      omega
    | succ k ih =>
      intro n hn
      rcases Nat.lt_or_ge (eeRun net ord m n).i (eeRun net ord m n).queue.length with h | h
      · have := hdec n (by unfold EE.Done; omega)
        exact ih (n + 1) (by omega)
      · exact ⟨n, h⟩
  exact key _ 0 (Nat.le_refl _)

/-! ### Completeness fails in general -/

/-- places 0 (i), 1 (a), 2 (b), 3 (c), 4 (d), 5 (o); silent transitions 0: i → a,c; 1: i → a,d; 2: a → b;
visible transitions 3 (`v`): b,c → o; 4 (`w`): b,d → o. -/
def exEE : LNet Nat Nat String where
  places := [0, 1, 2, 3, 4, 5]
  transitions := [0, 1, 2, 3, 4]
  inArcs t := if t ≤ 1 then [(0, 1)] else if t = 2 then [(1, 1)] else if t = 3 then [(2, 1), (3, 1)] else [(2, 1), (4, 1)]
  outArcs t := if t = 0 then [(1, 1), (3, 1)] else if t = 1 then [(1, 1), (4, 1)] else if t = 2 then [(2, 1)] else [(5, 1)]
  label t := if t = 3 then some "v" else if t = 4 then some "w" else none

/-- C66: with a silent transition that is enabled in two markings the function can miss an activity: `v` is enabled after
firing the silent transitions 0 and 2, and is not returned. -/
theorem _root_.Verif.C66_eventually_refuted : ∃ n, (eeRun exEE id [(0, 1)] n).Done ∧
    EventuallyEnabled exEE [(0, 1)] 3 ∧ 3 ∉ (eeRun exEE id [(0, 1)] n).visible := by
  refine ⟨6, ?_, ⟨by decide, [(3, 1), (2, 1)], ⟨[0, 2], by decide, by decide⟩, by decide⟩, by decide⟩
  unfold EE.Done; decide

/-- a net that meets the hypothesis of `C66_eventually_complete`: silent 0: 0 → 1, visible 1: 1 → 2 -/
def exEE1 : LNet Nat Nat String where
  places := [0, 1, 2]
  transitions := [0, 1]
  inArcs t := if t = 0 then [(0, 1)] else [(1, 1)]
  outArcs t := if t = 0 then [(1, 1)] else [(2, 1)]
  label t := if t = 0 then none else some "a"

theorem exEE1_silent (m' : Marking Nat) (h : SilentTo exEE1 [(0, 1)] m') : m' = [(0, 1)] ∨ m' = [(1, 1)] := by
  refine SilentTo.induct (motive := fun m' => m' = [(0, 1)] ∨ m' = [(1, 1)]) (.inl rfl) ?_ h
  intro m1 m2 t _ ih hl he
  have ht : t = 0 := by
    simp only [exEE1] at hl; split at hl
    · assumption
    · cases hl
  subst ht
  rcases ih with rfl | rfl
  · right
    have : exEE1.toNet.execute 0 [(0, 1)] = some [(1, 1)] := by decide
    rw [this] at he; simpa using he.symm
  · have : exEE1.toNet.execute 0 [(1, 1)] = none := by decide
    rw [this] at he; cases he

example : OneContext exEE1 [(0, 1)] := by
  intro t hl m1 m2 h1 h2 e1 e2
  have ht : t = 0 := by
    simp only [exEE1] at hl; split at hl
    · assumption
    · cases hl
  subst ht
  rcases exEE1_silent m1 h1 with rfl | rfl
  · rcases exEE1_silent m2 h2 with rfl | rfl
    · exact fun _ => rfl
    · exact absurd e2 (by decide)
  · exact absurd e1 (by decide)

example : (eeRun exEE1 id [(0, 1)] 2).Done ∧ (eeRun exEE1 id [(0, 1)] 2).visible = [1] := by
  constructor
  · unfold EE.Done; decide
  · decide

end Precision
end Verif
