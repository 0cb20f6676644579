import Verif.Petri.Theorems
/-
C03: reachability graph, /repo/pm4py/objects/petri_net/utils/reachability_graph.py.
-/
namespace Verif
open Dict
namespace Reach

/-! ### Model -/

/-- The semantics object passed to `marking_flow_petri` (`semantics.enabled_transitions`,
`semantics.weak_execute`), together with equality of states (`Marking.__eq__`). -/
structure Sem (S T : Type) where
  enabled : S → List T
  exec : T → S → S
  eqv : S → S → Bool

variable {S T : Type} [DecidableEq T]

/-- Local variables of `marking_flow_petri`: the dictionaries `incoming_transitions` and
`outgoing_transitions` (insertion order) and the stack `active` (top first). -/
structure State (S T : Type) where
  incoming : List (S × List T)
  outgoing : List (S × List (T × S))
  active : List S

/-- `incoming_transitions[nm].add(t)` (a set: no duplicates) -/
def addIncoming (sem : Sem S T) (nm : S) (t : T) : List (S × List T) → List (S × List T)
  | [] => []
  | (k, ts) :: rest =>
    if sem.eqv k nm then (k, if t ∈ ts then ts else ts ++ [t]) :: rest
    else (k, ts) :: addIncoming sem nm t rest

/-- body of `for t in enabled_transitions` (reachability_graph.py:88-94); `outs` is
`outgoing_transitions[m]` -/
def inner (sem : Sem S T) (m : S) (st : (List (S × List T) × List S) × List (T × S)) (t : T) :
    (List (S × List T) × List S) × List (T × S) :=
  let nm := sem.exec t m
  let outs := st.2 ++ [(t, nm)]
  let p := if st.1.1.any (fun e => sem.eqv e.1 nm) then st.1
    else (st.1.1 ++ [(nm, [])], if st.1.2.any (fun a => sem.eqv a nm) then st.1.2 else nm :: st.1.2)
  ((addIncoming sem nm t p.1, p.2), outs)

/-- one iteration of `while active` (reachability_graph.py:78-94, without the timeout and the optional
`eventually_enabled` computation) -/
def step (sem : Sem S T) (s : State S T) : State S T :=
  match s.active with
  | [] => s
  | m :: rest =>
    let r := (sem.enabled m).foldl (inner sem m) ((s.incoming, rest), [])
    { incoming := r.1.1, outgoing := s.outgoing ++ [(m, r.2)], active := r.1.2 }

/-- `marking_flow_petri` after `n` iterations of its loop -/
def run (sem : Sem S T) (im : S) : Nat → State S T
  | 0 => { incoming := [(im, [])], outgoing := [], active := [im] }
  | n + 1 => step sem (run sem im n)

/-- `construct_reachability_graph_from_flow` (reachability_graph.py:99-136): one state per key of `incoming`,
one arc per entry of `outgoing`.  States are represented by the marking they stand for (Python: a fresh
`State` object with a printable name). -/
def graph (sem : Sem S T) (s : State S T) : List S × List (S × T × S) :=
  (s.incoming.map Prod.fst,
   s.outgoing.flatMap fun e => e.2.filterMap fun o =>
     -- `map_states[s2]`: the key equal to `s2`
     ((s.incoming.find? fun k => sem.eqv k.1 o.2).map fun k => (e.1, o.1, k.1)))

/-! ### Specification -/

/-- `m'` is obtained from `m` by firing one enabled transition. -/
def Step (sem : Sem S T) (m : S) (t : T) (m' : S) : Prop := t ∈ sem.enabled m ∧ m' = sem.exec t m

/-- reachable by a finite firing sequence -/
inductive Reachable (sem : Sem S T) (im : S) : S → Prop
  | refl : Reachable sem im im
  | step {m t m'} : Reachable sem im m → Step sem m t m' → Reachable sem im m'

/-- what is needed of a semantics: state equality is an equivalence and equal (reachable) states behave
equally -/
structure Lawful (sem : Sem S T) (im : S) : Prop where
  refl : ∀ a, sem.eqv a a = true
  symm : ∀ a b, sem.eqv a b = true → sem.eqv b a = true
  trans : ∀ a b c, sem.eqv a b = true → sem.eqv b c = true → sem.eqv a c = true
  enabled_congr : ∀ a b, Reachable sem im a → Reachable sem im b → sem.eqv a b = true →
    ∀ t, t ∈ sem.enabled a → t ∈ sem.enabled b
  exec_congr : ∀ a b, Reachable sem im a → Reachable sem im b → sem.eqv a b = true →
    ∀ t ∈ sem.enabled a, sem.eqv (sem.exec t a) (sem.exec t b) = true

/-! ### Proofs -/

theorem addIncoming_keys (sem : Sem S T) (nm : S) (t : T) (inc : List (S × List T)) :
    (addIncoming sem nm t inc).map Prod.fst = inc.map Prod.fst := by
  induction inc with
  | nil => rfl
  | cons e inc ih =>
    obtain ⟨k, ts⟩ := e
    simp only [addIncoming]
    split <;> simp [ih]

theorem addIncoming_mono (sem : Sem S T) (nm : S) (t : T) (inc : List (S × List T)) (k : S) (ts : List T)
    (h : (k, ts) ∈ inc) : ∃ ts', (k, ts') ∈ addIncoming sem nm t inc ∧ ∀ u ∈ ts, u ∈ ts' := by
  induction inc with
  | nil => cases h
  | cons e inc ih =>
    obtain ⟨k', ts'⟩ := e
    simp only [addIncoming]
    cases h with
    | head =>
      split
      · exact ⟨_, List.mem_cons_self, fun u hu => by split <;> simp_all⟩
      · exact ⟨_, List.mem_cons_self, fun u hu => hu⟩
    | tail _ h =>
      split
      · exact ⟨ts, List.mem_cons_of_mem _ h, fun u hu => hu⟩
      · obtain ⟨ts'', h1, h2⟩ := ih h
        exact ⟨ts'', List.mem_cons_of_mem _ h1, h2⟩

theorem addIncoming_new (sem : Sem S T) (nm : S) (t : T) (inc : List (S × List T))
    (h : inc.any (fun e => sem.eqv e.1 nm) = true) :
    ∃ k ts, (k, ts) ∈ addIncoming sem nm t inc ∧ sem.eqv k nm = true ∧ t ∈ ts := by
  induction inc with
  | nil => simp at h
  | cons e inc ih =>
    obtain ⟨k', ts'⟩ := e
    simp only [addIncoming]
    by_cases hk : sem.eqv k' nm = true
    · simp only [hk, if_true]
      exact ⟨k', _, List.mem_cons_self, hk, by split <;> simp_all⟩
    · simp only [hk, if_false]
      simp only [List.any_cons, hk, Bool.false_or] at h
      obtain ⟨k, ts, h1, h2, h3⟩ := ih (by simpa using h)
      exact ⟨k, ts, by simp [h1], h2, h3⟩

theorem addIncoming_only (sem : Sem S T) (nm : S) (t : T) (inc : List (S × List T)) (k : S) (ts : List T)
    (h : (k, ts) ∈ addIncoming sem nm t inc) (u : T) (hu : u ∈ ts) :
    (∃ ts', (k, ts') ∈ inc ∧ u ∈ ts') ∨ (u = t ∧ sem.eqv k nm = true) := by
  induction inc with
  | nil => simp [addIncoming] at h
  | cons e inc ih =>
    obtain ⟨k', ts'⟩ := e
    simp only [addIncoming] at h
    split at h
    · rename_i hk
      rcases List.mem_cons.1 h with h | h
      · simp only [Prod.mk.injEq] at h
        obtain ⟨rfl, rfl⟩ := h
        split at hu
        · exact .inl ⟨ts', List.mem_cons_self, hu⟩
        · simp only [List.mem_append, List.mem_singleton] at hu
          rcases hu with hu | hu
          · exact .inl ⟨ts', List.mem_cons_self, hu⟩
          · exact .inr ⟨hu, hk⟩
      · exact .inl ⟨ts, List.mem_cons_of_mem _ h, hu⟩
    · rcases List.mem_cons.1 h with h | h
      · exact .inl ⟨ts, h ▸ List.mem_cons_self, hu⟩
      · rcases ih h with ⟨ts'', h1, h2⟩ | h
        · exact .inl ⟨ts'', List.mem_cons_of_mem _ h1, h2⟩
        · exact .inr h

/-- Invariant of the inner loop after the transitions `done` were handled. `cur` are all markings that are
keys of `outgoing` (including the current marking). -/
structure InnerInv (sem : Sem S T) (im m : S) (cur : List S) (edges : T → S → Prop) (done : List T)
    (st : (List (S × List T) × List S) × List (T × S)) : Prop where
  pair : (st.1.1.map Prod.fst).Pairwise (fun a b => sem.eqv a b = false)
  perm : (cur ++ st.1.2).Perm (st.1.1.map Prod.fst)
  reach : ∀ k ∈ st.1.1.map Prod.fst, Reachable sem im k
  outs : st.2 = done.map fun t => (t, sem.exec t m)
  sound : ∀ k ts u, (k, ts) ∈ st.1.1 → u ∈ ts → (∃ nm, edges u nm ∧ sem.eqv k nm = true) ∨
    (u ∈ done ∧ sem.eqv k (sem.exec u m) = true)
  complete : ∀ u nm, edges u nm ∨ (u ∈ done ∧ nm = sem.exec u m) →
    ∃ k ts, (k, ts) ∈ st.1.1 ∧ sem.eqv k nm = true ∧ u ∈ ts

theorem inner_inv (sem : Sem S T) (im m : S) (hl : Lawful sem im) (hm : Reachable sem im m) (cur : List S)
    (edges : T → S → Prop) (done : List T) (t : T) (ht : t ∈ sem.enabled m)
    (st : (List (S × List T) × List S) × List (T × S)) (h : InnerInv sem im m cur edges done st) :
    InnerInv sem im m cur edges (done ++ [t]) (inner sem m st t) := by
  obtain ⟨⟨inc, act⟩, outs⟩ := st
  unfold inner
  simp only
  -- the intermediate pair
  have hp : ∃ inc' act', (if inc.any (fun e => sem.eqv e.1 (sem.exec t m)) then (inc, act)
      else (inc ++ [(sem.exec t m, [])], if act.any (fun a => sem.eqv a (sem.exec t m)) then act
        else sem.exec t m :: act)) = (inc', act') ∧
      (inc'.map Prod.fst).Pairwise (fun a b => sem.eqv a b = false) ∧
      (cur ++ act').Perm (inc'.map Prod.fst) ∧
      (∀ k ∈ inc'.map Prod.fst, Reachable sem im k) ∧
      inc'.any (fun e => sem.eqv e.1 (sem.exec t m)) = true ∧
      (∀ e ∈ inc, e ∈ inc') ∧ (∀ k ts, (k, ts) ∈ inc' → (k, ts) ∈ inc ∨ ts = []) := by
    by_cases hany : inc.any (fun e => sem.eqv e.1 (sem.exec t m)) = true
    · rw [if_pos hany]
      exact ⟨inc, act, rfl, h.pair, h.perm, h.reach, hany, fun e he => he, fun k ts hk => .inl hk⟩
    · rw [if_neg hany]
      have hno : ∀ k ∈ inc.map Prod.fst, sem.eqv k (sem.exec t m) = false := by
        intro k hk
        obtain ⟨e, he, rfl⟩ := List.mem_map.1 hk
        simp only [Bool.not_eq_true, List.any_eq_false] at hany
        simpa using hany e he
      have hact : act.any (fun a => sem.eqv a (sem.exec t m)) = false := by
        rw [List.any_eq_false]
        intro a ha
        have : a ∈ inc.map Prod.fst := h.perm.mem_iff.1 (by simp [ha])
        simp [hno a this]
      rw [hact]
      refine ⟨inc ++ [(sem.exec t m, [])], sem.exec t m :: act, by simp, ?_, ?_, ?_, ?_, ?_, ?_⟩
      · simp only [List.map_append, List.map_cons, List.map_nil]
        rw [List.pairwise_append]
        refine ⟨h.pair, by simp, ?_⟩
        intro a ha b hb
        simp only [List.mem_singleton] at hb
        subst hb; exact hno a ha
      · simp only [List.map_append, List.map_cons, List.map_nil]
        refine List.perm_middle.trans ?_
        exact (h.perm.cons _).trans (List.perm_append_singleton _ _).symm
      · intro k hk
        simp only [List.map_append, List.map_cons, List.map_nil, List.mem_append, List.mem_singleton] at hk
        rcases hk with hk | rfl
        · exact h.reach k hk
        · exact .step hm ⟨ht, rfl⟩
      · simp [hl.refl]
      · intro e he; simp [he]
      · intro k ts hk
        simp at hk
        rcases hk with hk | ⟨_, hk⟩
        · exact .inl hk
        · exact .inr hk
  obtain ⟨inc', act', he, h1, h2, h3, h4, h5, h6⟩ := hp
  rw [he]
  simp only
  refine ⟨?_, ?_, ?_, ?_, ?_, ?_⟩
  · rw [addIncoming_keys]; exact h1
  · rw [addIncoming_keys]; exact h2
  · rw [addIncoming_keys]; exact h3
  · have := h.outs; simp only at this; rw [this]; simp
  · intro k ts u hk hu
    rcases addIncoming_only _ _ _ _ _ _ hk u hu with ⟨ts', h7, h8⟩ | ⟨rfl, h8⟩
    · rcases h6 k ts' h7 with h9 | h9
      · rcases h.sound k ts' u h9 h8 with h10 | h10
        · exact .inl h10
        · exact .inr ⟨by simp [h10.1], h10.2⟩
      · subst h9; simp at h8
    · exact .inr ⟨by simp, h8⟩
  · intro u nm hu
    have : (edges u nm ∨ (u ∈ done ∧ nm = sem.exec u m)) ∨ (u = t ∧ nm = sem.exec t m) := by
      rcases hu with hu | ⟨hu, hnm⟩
      · exact .inl (.inl hu)
      · simp at hu
        rcases hu with hu | rfl
        · exact .inl (.inr ⟨hu, hnm⟩)
        · exact .inr ⟨rfl, hnm⟩
    rcases this with hu | ⟨rfl, rfl⟩
    · obtain ⟨k, ts, h7, h8, h9⟩ := h.complete u nm hu
      obtain ⟨ts', h10, h11⟩ := addIncoming_mono sem (sem.exec t m) t inc' k ts (h5 _ h7)
      exact ⟨k, ts', h10, h8, h11 u h9⟩
    · exact addIncoming_new _ _ _ _ h4

/-- Invariant of the outer loop. -/
structure Inv (sem : Sem S T) (im : S) (s : State S T) : Prop where
  pair : (s.incoming.map Prod.fst).Pairwise (fun a b => sem.eqv a b = false)
  perm : (s.outgoing.map Prod.fst ++ s.active).Perm (s.incoming.map Prod.fst)
  reach : ∀ k ∈ s.incoming.map Prod.fst, Reachable sem im k
  outs : ∀ m o, (m, o) ∈ s.outgoing → o = (sem.enabled m).map fun t => (t, sem.exec t m)
  sound : ∀ k ts u, (k, ts) ∈ s.incoming → u ∈ ts →
    ∃ m o nm, (m, o) ∈ s.outgoing ∧ (u, nm) ∈ o ∧ sem.eqv k nm = true
  complete : ∀ m o u nm, (m, o) ∈ s.outgoing → (u, nm) ∈ o → ∃ k ts, (k, ts) ∈ s.incoming ∧ sem.eqv k nm = true ∧ u ∈ ts
  init : im ∈ s.incoming.map Prod.fst

theorem step_inv (sem : Sem S T) (im : S) (hl : Lawful sem im) (s : State S T) (h : Inv sem im s) :
    Inv sem im (step sem s) := by
  unfold step
  cases ha : s.active with
  | nil => simpa [ha] using h
  | cons m rest =>
    simp only
    have hp := h.perm
    rw [ha] at hp
    have hmk : m ∈ s.incoming.map Prod.fst := hp.mem_iff.1 (by simp)
    have hm := h.reach m hmk
    let edges : T → S → Prop := fun u nm => ∃ m o, (m, o) ∈ s.outgoing ∧ (u, nm) ∈ o
    have key : ∀ (todo done : List T) (st : (List (S × List T) × List S) × List (T × S)),
        (∀ t ∈ todo, t ∈ sem.enabled m) → InnerInv sem im m (s.outgoing.map Prod.fst ++ [m]) edges done st →
        (∀ e ∈ s.incoming.map Prod.fst, e ∈ st.1.1.map Prod.fst) →
        InnerInv sem im m (s.outgoing.map Prod.fst ++ [m]) edges (done ++ todo) (todo.foldl (inner sem m) st) ∧
        (∀ e ∈ s.incoming.map Prod.fst, e ∈ (todo.foldl (inner sem m) st).1.1.map Prod.fst) := by
      intro todo
      induction todo with
      | nil => intro done st _ h1 h2; rw [List.append_nil]; exact ⟨h1, h2⟩
      | cons t todo ih =>
        intro done st h1 h2 h3
        have := ih (done ++ [t]) (inner sem m st t) (fun u hu => h1 u (by simp [hu]))
          (inner_inv sem im m hl hm _ edges done t (h1 t (by simp)) st h2) (by
            intro e he
            have := h3 e he
            unfold inner
            simp only [addIncoming_keys]
            split
            · exact this
            · simp only [List.map_append, List.mem_append]; exact .inl this)
        simpa only [List.append_assoc, List.singleton_append, List.foldl_cons] using this
    obtain ⟨hI, hkeep⟩ := key (sem.enabled m) [] ((s.incoming, rest), []) (fun t ht => ht)
      ⟨h.pair, by simpa using hp, h.reach, rfl, (by
        intro k ts u hk hu
        obtain ⟨m', o, nm, h1, h2, h3⟩ := h.sound k ts u hk hu
        exact .inl ⟨nm, ⟨m', o, h1, h2⟩, h3⟩), (by
        rintro u nm (⟨m', o, h1, h2⟩ | ⟨hu, _⟩)
        · exact h.complete m' o u nm h1 h2
        · simp at hu)⟩ (fun e he => he)
    generalize (sem.enabled m).foldl (inner sem m) ((s.incoming, rest), []) = r at *
    simp only [List.nil_append] at hI
    refine ⟨hI.pair, ?_, hI.reach, ?_, ?_, ?_, hkeep im h.init⟩
    · simpa using hI.perm
    · intro m' o ho
      simp at ho
      rcases ho with ho | ⟨rfl, rfl⟩
      · exact h.outs m' o ho
      · exact hI.outs
    · intro k ts u hk hu
      rcases hI.sound k ts u hk hu with ⟨nm, ⟨m', o, h1, h2⟩, h3⟩ | ⟨h1, h2⟩
      · exact ⟨m', o, nm, by simp [h1], h2, h3⟩
      · refine ⟨m, r.2, sem.exec u m, by simp, ?_, h2⟩
        rw [hI.outs]; exact List.mem_map.2 ⟨u, h1, rfl⟩
    · intro m' o u nm ho hu
      simp at ho
      rcases ho with ho | ⟨rfl, rfl⟩
      · exact hI.complete u nm (.inl ⟨m', o, ho, hu⟩)
      · rw [hI.outs] at hu
        obtain ⟨t, ht, he⟩ := List.mem_map.1 hu
        simp at he
        obtain ⟨rfl, rfl⟩ := he
        exact hI.complete t _ (.inr ⟨ht, rfl⟩)

theorem run_inv (sem : Sem S T) (im : S) (hl : Lawful sem im) (n : Nat) : Inv sem im (run sem im n) := by
  induction n with
  | zero => exact ⟨by simp [run], by simp [run], by simp [run]; exact .refl, by simp [run],
      by intro k ts u h hu; simp [run] at h; obtain ⟨rfl, rfl⟩ := h; simp at hu, by simp [run], by simp [run]⟩
  | succ n ih => exact step_inv sem im hl _ ih

/-- pairwise different states that are all represented in `L` are at most `|L|` many -/
theorem pigeonhole (sem : Sem S T) (hs : ∀ a b, sem.eqv a b = true → sem.eqv b a = true)
    (ht : ∀ a b c, sem.eqv a b = true → sem.eqv b c = true → sem.eqv a c = true)
    (K L : List S) (hp : K.Pairwise fun a b => sem.eqv a b = false)
    (hc : ∀ k ∈ K, ∃ l ∈ L, sem.eqv k l = true) : K.length ≤ L.length := by
  induction K generalizing L with
  | nil => simp
  | cons k K ih =>
    obtain ⟨l, hl, hkl⟩ := hc k (by simp)
    rw [List.pairwise_cons] at hp
    obtain ⟨L1, L2, rfl⟩ := List.append_of_mem hl
    have := ih (L1 ++ L2) hp.2 (by
      intro k' hk'
      obtain ⟨l', hl', hkl'⟩ := hc k' (by simp [hk'])
      simp at hl'
      rcases hl' with h | rfl | h
      · exact ⟨l', by simp [h], hkl'⟩
      · have := ht _ _ _ hkl (hs _ _ hkl')
        rw [hp.1 k' hk'] at this; simp at this
      · exact ⟨l', by simp [h], hkl'⟩)
    simp at this ⊢; omega

theorem run_outgoing_length (sem : Sem S T) (im : S) (n : Nat) :
    (run sem im n).active = [] ∨ (run sem im n).outgoing.length = n := by
  induction n with
  | zero => right; rfl
  | succ n ih =>
    simp only [run]
    rcases ih with h | h
    · left; simp [step, h]
    · unfold step
      cases ha : (run sem im n).active with
      | nil => left; exact ha
      | cons m rest => right; simp [h]

theorem reachable_covered (sem : Sem S T) (im : S) (hl : Lawful sem im) (s : State S T) (h : Inv sem im s)
    (hd : s.active = []) (m : S) (hm : Reachable sem im m) : ∃ k ∈ s.incoming.map Prod.fst, sem.eqv k m = true := by
  induction hm with
  | refl => exact ⟨im, h.init, hl.refl im⟩
  | @step m t m' hr hst ih =>
    obtain ⟨k, hk, hkm⟩ := ih
    have hp := h.perm
    rw [hd, List.append_nil] at hp
    have hko := hp.mem_iff.2 hk
    obtain ⟨⟨k', o⟩, ho, rfl⟩ := List.mem_map.1 hko
    have hkr := h.reach _ hk
    obtain ⟨hten, rfl⟩ := hst
    have hten' := hl.enabled_congr m k' hr hkr (hl.symm _ _ hkm) t hten
    have hex := hl.exec_congr k' m hkr hr hkm t hten'
    obtain ⟨k2, ts, h1, h2, _⟩ := h.complete k' o t (sem.exec t k') ho (by
      rw [h.outs k' o ho]; exact List.mem_map.2 ⟨t, hten', rfl⟩)
    exact ⟨k2, List.mem_map.2 ⟨_, h1, rfl⟩, hl.trans _ _ _ h2 hex⟩

end Reach

open Reach

/-- The classic semantics of a net as passed to `marking_flow_petri`. -/
def Net.sem {P T : Type} [DecidableEq P] [DecidableEq T] (net : Net P T) : Reach.Sem (Marking P) T where
  enabled m := net.enabledTransitions m
  exec t m := net.weakExecute t m
  eqv := Marking.eq

section
variable {P T : Type} [DecidableEq P] [DecidableEq T]

/-- Reachability with the textbook firing rule `execute`. -/
inductive Net.Reach (net : Net P T) (im : Marking P) : Marking P → Prop
  | refl : Net.Reach net im im
  | step {m t m'} : Net.Reach net im m → net.execute t m = some m' → Net.Reach net im m'

theorem Net.reach_pos {net : Net P T} (hs : net.Simple) {im : Marking P} (hi : Pos im) {m : Marking P}
    (h : net.Reach im m) : Pos m := by
  induction h with
  | refl => exact hi
  | step _ h ih => exact Net.execute_pos hs ih h

theorem Net.reachable_iff (net : Net P T) (hs : net.Simple) (im : Marking P) (hi : Pos im) (m : Marking P) :
    Reachable net.sem im m ↔ net.Reach im m := by
  constructor
  · intro h
    induction h with
    | refl => exact .refl
    | @step m t m' _ hst ih =>
      obtain ⟨h1, rfl⟩ := hst
      have h1' : net.isEnabled t m = true := (List.mem_filter.1 h1).2
      exact .step ih (Net.weakExecute_eq hs (Net.reach_pos hs hi ih) h1')
  · intro h
    induction h with
    | refl => exact .refl
    | @step m t m' hr he ih =>
      have h1 := ((Net.execute_some_iff _ _ _ _).1 he).1
      have h2 := Net.weakExecute_eq hs (Net.reach_pos hs hi hr) h1
      rw [he] at h2
      simp at h2
      exact .step ih ⟨List.mem_filter.2 ⟨((Net.isEnabled_iff _ _ _).1 h1).1, h1⟩, h2⟩

theorem Net.lawful (net : Net P T) (hs : net.Simple) (im : Marking P) (hi : Pos im) : Lawful net.sem im where
  refl a := C02_eq_equivalence.refl a
  symm _ _ h := C02_eq_equivalence.symm h
  trans _ _ _ h1 h2 := C02_eq_equivalence.trans h1 h2
  enabled_congr a b _ _ h t ht := by
    have hc : ∀ p, count a p = count b p := fun p => Marking.count_eq_of_get? ((Marking.eq_iff a b).1 h p)
    have h1 := List.mem_filter.1 ht
    refine List.mem_filter.2 ⟨h1.1, ?_⟩
    rw [Net.isEnabled_iff]
    refine ⟨h1.1, fun x hx => ?_⟩
    rw [← hc]; exact ((Net.isEnabled_iff _ _ _).1 h1.2).2 x hx
  exec_congr a b ha hb h t ht := by
    have hc : ∀ p, count a p = count b p := fun p => Marking.count_eq_of_get? ((Marking.eq_iff a b).1 h p)
    have pa := Net.reach_pos hs hi ((Net.reachable_iff net hs im hi a).1 ha)
    have pb := Net.reach_pos hs hi ((Net.reachable_iff net hs im hi b).1 hb)
    have h1 := List.mem_filter.1 ht
    have h2 : net.isEnabled t b = true := by
      rw [Net.isEnabled_iff]
      refine ⟨h1.1, fun x hx => ?_⟩
      rw [← hc]; exact ((Net.isEnabled_iff _ _ _).1 h1.2).2 x hx
    have e1 := Net.weakExecute_eq hs pa h1.2
    have e2 := Net.weakExecute_eq hs pb h2
    refine (C02_eq _ _ (Net.execute_pos hs pa e1) (Net.execute_pos hs pb e2)).2 ?_
    intro p
    rw [Net.execute_fires e1 p, Net.execute_fires e2 p, hc]

/-- C03: when the construction has finished, (1) every state is a reachable marking, (2) every reachable
marking is equal to a state, (3) no two states are equal. -/
theorem C03_states (net : Net P T) (hs : net.Simple) (im : Marking P) (hi : Pos im) (n : Nat)
    (hfin : (run net.sem im n).active = []) :
    (∀ k ∈ (graph net.sem (run net.sem im n)).1, net.Reach im k) ∧
    (∀ m, net.Reach im m → ∃ k ∈ (graph net.sem (run net.sem im n)).1, Marking.eq k m = true) ∧
    (graph net.sem (run net.sem im n)).1.Pairwise (fun a b => Marking.eq a b = false) := by
  have hl := net.lawful hs im hi
  have h := run_inv net.sem im hl n
  refine ⟨?_, ?_, h.pair⟩
  · intro k hk; exact (Net.reachable_iff net hs im hi k).1 (h.reach k hk)
  · intro m hm
    exact reachable_covered net.sem im hl _ h hfin m ((Net.reachable_iff net hs im hi m).2 hm)

/-- C03: the arcs of the graph are exactly the firings between states: `k1 -t-> k2` is an arc iff `k1`, `k2`
are states and firing `t` in `k1` yields a marking equal to `k2`. -/
theorem C03_arcs (net : Net P T) (hs : net.Simple) (im : Marking P) (hi : Pos im) (n : Nat)
    (hfin : (run net.sem im n).active = []) (k1 k2 : Marking P) (t : T) :
    (k1, t, k2) ∈ (graph net.sem (run net.sem im n)).2 ↔
      k1 ∈ (graph net.sem (run net.sem im n)).1 ∧ k2 ∈ (graph net.sem (run net.sem im n)).1 ∧
      ∃ m', net.execute t k1 = some m' ∧ Marking.eq k2 m' = true := by
  have hl := net.lawful hs im hi
  have h := run_inv net.sem im hl n
  have hp := h.perm
  generalize run net.sem im n = s at *
  rw [hfin, List.append_nil] at hp
  have hpos : ∀ k ∈ s.incoming.map Prod.fst, Pos k := fun k hk =>
    Net.reach_pos hs hi ((Net.reachable_iff net hs im hi k).1 (h.reach k hk))
  constructor
  · intro hm
    simp only [graph, List.mem_flatMap, List.mem_filterMap, Option.map_eq_some_iff] at hm
    obtain ⟨⟨m, o⟩, ho, ⟨u, nm⟩, hu, ⟨k, ts⟩, hf, he⟩ := hm
    simp only [Prod.mk.injEq] at he
    obtain ⟨rfl, rfl, rfl⟩ := he
    have hk1 : m ∈ s.incoming.map Prod.fst := hp.mem_iff.1 (List.mem_map.2 ⟨_, ho, rfl⟩)
    refine ⟨hk1, List.mem_map.2 ⟨_, List.mem_of_find?_eq_some hf, rfl⟩, nm, ?_, List.find?_some (p := fun (e : Marking P × List T) => Marking.eq e.1 nm) hf⟩
    rw [h.outs m o ho] at hu
    obtain ⟨t', ht', he⟩ := List.mem_map.1 hu
    simp only [Prod.mk.injEq] at he
    obtain ⟨rfl, rfl⟩ := he
    exact Net.weakExecute_eq hs (hpos _ hk1) (List.mem_filter.1 ht').2
  · rintro ⟨hk1, hk2, m', hex, heq⟩
    obtain ⟨⟨m, o⟩, ho, rfl⟩ := List.mem_map.1 (hp.mem_iff.2 hk1)
    have hen := ((Net.execute_some_iff _ _ _ _).1 hex).1
    have hw := Net.weakExecute_eq hs (hpos _ hk1) hen
    rw [hex] at hw
    simp only [Option.some.injEq] at hw
    simp only [graph, List.mem_flatMap, List.mem_filterMap, Option.map_eq_some_iff]
    refine ⟨(m, o), ho, (t, m'), ?_, ?_⟩
    · rw [h.outs m o ho]
      exact List.mem_map.2 ⟨t, List.mem_filter.2 ⟨((Net.isEnabled_iff _ _ _).1 hen).1, hen⟩, by rw [hw]; rfl⟩
    · -- the key found is `k2`
      obtain ⟨⟨k, ts⟩, hkm, rfl⟩ := List.mem_map.1 hk2
      have hsome : (s.incoming.find? fun e => net.sem.eqv e.1 m').isSome := by
        rw [List.find?_isSome]; exact ⟨_, hkm, heq⟩
      rw [Option.isSome_iff_exists] at hsome
      obtain ⟨⟨k', ts'⟩, hf⟩ := hsome
      refine ⟨(k', ts'), hf, ?_⟩
      have h1 : Marking.eq k' m' = true := List.find?_some (p := fun (e : Marking P × List T) => Marking.eq e.1 m') hf
      have h2 : Marking.eq k k' = true := C02_eq_equivalence.trans heq (C02_eq_equivalence.symm h1)
      have hk' : k' ∈ s.incoming.map Prod.fst := List.mem_map.2 ⟨_, List.mem_of_find?_eq_some hf, rfl⟩
      -- equal keys are the same key
      have : k' = k := by
        have hpw := h.pair
        refine Classical.byContradiction fun hne => ?_
        have : Marking.eq k k' = false ∨ Marking.eq k' k = false := by
          rcases List.mem_iff_getElem.1 hk' with ⟨i, hi', e1⟩
          rcases List.mem_iff_getElem.1 (show k ∈ s.incoming.map Prod.fst from hk2) with ⟨j, hj', e2⟩
          rw [List.pairwise_iff_getElem] at hpw
          rcases Nat.lt_trichotomy i j with hij | hij | hij
          · right; have := hpw i j hi' hj' hij; rw [e1, e2] at this; exact this
          · subst hij; rw [e1] at e2; exact absurd e2 hne
          · left; have := hpw j i hj' hi' hij; rw [e1, e2] at this; exact this
        rcases this with h3 | h3
        · rw [h2] at h3; simp at h3
        · rw [C02_eq_equivalence.symm h2] at h3; simp at h3
      rw [this]

/-- C03: `incoming_transitions` records exactly which transitions lead into a state. -/
theorem C03_incoming (net : Net P T) (hs : net.Simple) (im : Marking P) (hi : Pos im) (n : Nat)
    (hfin : (run net.sem im n).active = []) (k : Marking P) (ts : List T) (t : T)
    (hk : (k, ts) ∈ (run net.sem im n).incoming) :
    t ∈ ts ↔ ∃ m m', net.Reach im m ∧ net.execute t m = some m' ∧ Marking.eq k m' = true := by
  have hl := net.lawful hs im hi
  have h := run_inv net.sem im hl n
  have hcov := reachable_covered net.sem im hl _ h hfin
  have hp := h.perm
  generalize run net.sem im n = s at *
  rw [hfin, List.append_nil] at hp
  have hpos : ∀ k ∈ s.incoming.map Prod.fst, Pos k := fun k hk =>
    Net.reach_pos hs hi ((Net.reachable_iff net hs im hi k).1 (h.reach k hk))
  constructor
  · intro ht
    obtain ⟨m, o, nm, h1, h2, h3⟩ := h.sound k ts t hk ht
    have hm : m ∈ s.incoming.map Prod.fst := hp.mem_iff.1 (List.mem_map.2 ⟨_, h1, rfl⟩)
    refine ⟨m, nm, (Net.reachable_iff net hs im hi m).1 (h.reach m hm), ?_, h3⟩
    rw [h.outs m o h1] at h2
    obtain ⟨t', ht', he⟩ := List.mem_map.1 h2
    simp only [Prod.mk.injEq] at he
    obtain ⟨rfl, rfl⟩ := he
    exact Net.weakExecute_eq hs (hpos _ hm) (List.mem_filter.1 ht').2
  · rintro ⟨m, m', hr, hex, heq⟩
    have hr' := (Net.reachable_iff net hs im hi m).2 hr
    obtain ⟨k1, hk1, hk1m⟩ := hcov m hr'
    obtain ⟨⟨m1, o⟩, ho, rfl⟩ := List.mem_map.1 (hp.mem_iff.2 hk1)
    have hen := ((Net.execute_some_iff _ _ _ _).1 hex).1
    have hten : t ∈ net.sem.enabled m := List.mem_filter.2 ⟨((Net.isEnabled_iff _ _ _).1 hen).1, hen⟩
    have hten1 := hl.enabled_congr m m1 hr' (h.reach _ hk1) (hl.symm _ _ hk1m) t hten
    have hc := hl.exec_congr m1 m (h.reach _ hk1) hr' hk1m t hten1
    have hw := Net.weakExecute_eq hs (Net.reach_pos hs hi hr) hen
    rw [hex] at hw; simp only [Option.some.injEq] at hw
    obtain ⟨k2, ts2, h1, h2, h3⟩ := h.complete m1 o t (net.sem.exec t m1) ho (by
      rw [h.outs m1 o ho]; exact List.mem_map.2 ⟨t, hten1, rfl⟩)
    have h4 : Marking.eq k2 k = true := by
      refine C02_eq_equivalence.trans (C02_eq_equivalence.trans h2 hc) ?_
      refine C02_eq_equivalence.symm ?_
      have : net.sem.exec t m = m' := hw.symm
      rw [this]; exact heq
    -- same key, hence same entry
    have hpw := h.pair
    rcases List.mem_iff_getElem.1 h1 with ⟨i, hi', e1⟩
    rcases List.mem_iff_getElem.1 hk with ⟨j, hj', e2⟩
    rw [List.pairwise_iff_getElem] at hpw
    have hij : i = j := by
      rcases Nat.lt_trichotomy i j with hij | hij | hij
      · have := hpw i j (by simpa using hi') (by simpa using hj') hij
        simp only [List.getElem_map, e1, e2] at this
        have h5 : net.sem.eqv k2 k = true := h4
        rw [h5] at this; simp at this
      · exact hij
      · have := hpw j i (by simpa using hj') (by simpa using hi') hij
        simp only [List.getElem_map, e1, e2] at this
        have h5 : net.sem.eqv k k2 = true := C02_eq_equivalence.symm h4
        rw [h5] at this; simp at this
    subst hij
    rw [e1] at e2
    simp only [Prod.mk.injEq] at e2
    rw [← e2.2]; exact h3

/-- C03: if the net has finitely many reachable markings (all equal to one of `L`), the loop ends after at most
`|L|` iterations. -/
theorem C03_terminates (net : Net P T) (hs : net.Simple) (im : Marking P) (hi : Pos im) (L : List (Marking P))
    (hL : ∀ m, net.Reach im m → ∃ l ∈ L, Marking.eq m l = true) :
    ∀ n, L.length ≤ n → (run net.sem im n).active = [] := by
  intro n hn
  have hl := net.lawful hs im hi
  rcases run_outgoing_length net.sem im n with h | h
  · exact h
  · have hinv := run_inv net.sem im hl n
    have h1 := pigeonhole net.sem hl.symm hl.trans _ L hinv.pair (fun k hk =>
      hL k ((Net.reachable_iff net hs im hi k).1 (hinv.reach k hk)))
    have h2 := hinv.perm.length_eq
    simp only [List.length_append, List.length_map] at h1 h2
    exact List.eq_nil_of_length_eq_zero (by omega)

example : (run exNet.sem [(0, 1)] 4).active = [] := by decide
example : (graph exNet.sem (run exNet.sem [(0, 1)] 4)) =
    ([[(0, 1)], [(1, 2)], [(2, 1)]], [([(0, 1)], 0, [(1, 2)]), ([(1, 2)], 1, [(2, 1)])]) := by decide
end
end Verif
