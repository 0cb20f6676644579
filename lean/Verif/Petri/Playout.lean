import Verif.Petri.Reach
/-
C29: extensive playout of a Petri net, /repo/pm4py/algo/simulation/playout/petri_net/variants/extensive.py.
-/
namespace Verif
open Dict Reach
namespace Playout
variable {S T A : Type} [DecidableEq T] [DecidableEq A]

/-! ### Model -/

/-- an entry of `to_visit` (87): marking, trace, and the elements, alternately markings and transitions, kept here as pairs -/
structure Entry (S T A : Type) where
  m : S
  trace : List A
  elements : List (S × T)

/-- local variables of `apply` (85-88) -/
structure State (S T A : Type) where
  feasible : List (List (S × T))
  toVisit : List (Entry S T A)
  visited : List (S × List A)

/-- the parameters: the semantics object, the labels, `max_trace_length`, `max_marking_occ` (`none`: the default
`sys.maxsize`, which no tuple exceeds), `final_marking` -/
structure Params (S T A : Type) where
  sem : Sem S T
  label : T → Option A
  maxLen : Nat
  maxOcc : Option Nat
  final : Option S

/-- `(m, trace) in visited` (97) -/
def seen (sem : Sem S T) (v : List (S × List A)) (m : S) (tr : List A) : Bool :=
  v.any fun e => sem.eqv e.1 m && decide (e.2 = tr)

/-- the condition of 103 -/
def isFinal (p : Params S T A) (m : S) : Bool :=
  match p.final with
  | some f => p.sem.eqv m f
  | none => (p.sem.enabled m).isEmpty

/-- `counter_elements[m] > max_marking_occ` (110-113) -/
def tooOften (p : Params S T A) (m : S) (els : List (S × T)) : Bool :=
  match p.maxOcc with
  | none => false
  | some k => decide ((els.filter fun e => p.sem.eqv e.1 m).length > k)

/-- `for t in en_t` (107-125): the new states.  `new_state in visited` compares a triple with pairs and is never true. -/
def children (p : Params S T A) (e : Entry S T A) : List (Entry S T A) :=
  (p.sem.enabled e.m).filterMap fun t =>
    let els := e.elements ++ [(e.m, t)]
    if tooOften p e.m els then none
    else
      let tr := match p.label t with
        | some a => e.trace ++ [a]
        | none => e.trace
      if tr.length > p.maxLen then none else some ⟨p.sem.exec t e.m, tr, els⟩

/-- one iteration of `while len(to_visit) > 0` (90-125) -/
def step (p : Params S T A) (s : State S T A) : State S T A :=
  match s.toVisit with
  | [] => s
  | e :: rest =>
    if seen p.sem s.visited e.m e.trace then { s with toVisit := rest }
    else
      { visited := s.visited ++ [(e.m, e.trace)]
        feasible := if isFinal p e.m then
            if e.trace.length ≤ p.maxLen then s.feasible ++ [e.elements] else s.feasible
          else s.feasible
        toVisit := rest ++ children p e }

/-- the loop after `n` iterations -/
def run (p : Params S T A) (im : S) : Nat → State S T A
  | 0 => { feasible := [], toVisit := [⟨im, [], []⟩], visited := [] }
  | n + 1 => step p (run p im n)

/-- 127-143: the activities of the returned log -/
def log (p : Params S T A) (s : State S T A) : List (List A) :=
  s.feasible.map fun els => els.filterMap fun x => p.label x.2

/-! ### Specification -/

/-- a run: the markings and transitions from `im` to the marking `m` -/
inductive Path (sem : Sem S T) (im : S) : List (S × T) → S → Prop
  | nil : Path sem im [] im
  | snoc {els m t} : Path sem im els m → t ∈ sem.enabled m → Path sem im (els ++ [(m, t)]) (sem.exec t m)

/-- the visible labels of a run -/
def word (label : T → Option A) (els : List (S × T)) : List A := els.filterMap fun x => label x.2

/-! ### Proofs -/

theorem Path.reach {sem : Sem S T} {im : S} {els : List (S × T)} {m : S} (h : Path sem im els m) : Reachable sem im m := by
  induction h with
  | nil => exact .refl
  | snoc _ ht ih => exact .step ih ⟨ht, rfl⟩

omit [DecidableEq T] [DecidableEq A] in
theorem word_snoc (label : T → Option A) (els : List (S × T)) (m : S) (t : T) :
    word label (els ++ [(m, t)]) = match label t with | some a => word label els ++ [a] | none => word label els := by
  unfold word
  rw [List.filterMap_append]
  cases h : label t <;> simp [h]

/-- what holds of every entry of the queue -/
structure Good (p : Params S T A) (im : S) (e : Entry S T A) : Prop where
  path : Path p.sem im e.elements e.m
  word : e.trace = word p.label e.elements
  len : e.trace.length ≤ p.maxLen
  occ : ∀ k, p.maxOcc = some k → ∀ x, (e.elements.filter fun y => p.sem.eqv y.1 x).length ≤ k

theorem children_good (p : Params S T A) (im : S) (hl : Lawful p.sem im) (e : Entry S T A) (he : Good p im e) (c : Entry S T A)
    (hc : c ∈ children p e) : Good p im c := by
  simp only [children, List.mem_filterMap] at hc
  obtain ⟨t, ht, h⟩ := hc
  split at h
  · cases h
  · rename_i hocc
    have hw := word_snoc p.label e.elements e.m t
    rw [← he.word] at hw
    have hocc' : ∀ k, p.maxOcc = some k → ∀ x, ((e.elements ++ [(e.m, t)]).filter fun y => p.sem.eqv y.1 x).length ≤ k := by
      intro k hk x
      simp only [tooOften, hk, decide_eq_true_eq, Nat.not_lt] at hocc
      by_cases hx : p.sem.eqv e.m x = true
      · have : (e.elements ++ [(e.m, t)]).filter (fun y => p.sem.eqv y.1 x) = (e.elements ++ [(e.m, t)]).filter fun y => p.sem.eqv y.1 e.m := by
          apply List.filter_congr
          intro y _
          rw [Bool.eq_iff_iff]
          exact ⟨fun h => hl.trans _ _ _ h (hl.symm _ _ hx), fun h => hl.trans _ _ _ h hx⟩
        rw [this]; omega
      · rw [List.filter_append]
        have : ([(e.m, t)] : List (S × T)).filter (fun y => p.sem.eqv y.1 x) = [] := by simp [hx]
        rw [this, List.append_nil]
        exact he.occ k hk x
    cases hlab : p.label t with
    | none =>
      simp only [hlab] at h hw
      split at h
      · cases h
      · rename_i hlen
        simp only [Option.some.injEq] at h
        subst h
        exact ⟨he.path.snoc ht, hw.symm, by simpa using hlen, hocc'⟩
    | some a =>
      simp only [hlab] at h hw
      split at h
      · cases h
      · rename_i hlen
        simp only [Option.some.injEq] at h
        subst h
        exact ⟨he.path.snoc ht, hw.symm, by simpa using hlen, hocc'⟩

/-- the successor of a state is among the children, unless it is too long -/
theorem mem_children (p : Params S T A) (hp : p.maxOcc = none) (e : Entry S T A) (t : T) (ht : t ∈ p.sem.enabled e.m) (tr : List A)
    (htr : tr = match p.label t with | some a => e.trace ++ [a] | none => e.trace) (hlen : tr.length ≤ p.maxLen) :
    ∃ c ∈ children p e, c.m = p.sem.exec t e.m ∧ c.trace = tr := by
  refine ⟨⟨p.sem.exec t e.m, tr, e.elements ++ [(e.m, t)]⟩, ?_, rfl, rfl⟩
  simp only [children, List.mem_filterMap]
  refine ⟨t, ht, ?_⟩
  simp only [tooOften, hp, Bool.false_eq_true, if_false]
  rw [← htr, if_neg (by omega)]

structure Inv (p : Params S T A) (im : S) (s : State S T A) : Prop where
  good : ∀ e ∈ s.toVisit, Good p im e
  /-- the words of the feasible runs are those of the visited final states -/
  words : s.feasible.map (word p.label) = (s.visited.filter fun v => isFinal p v.1).map Prod.snd
  sound : ∀ els ∈ s.feasible, ∃ m tr, Good p im ⟨m, tr, els⟩ ∧ isFinal p m = true
  reach : ∀ v ∈ s.visited, ∃ els, Good p im ⟨v.1, v.2, els⟩
  pair : s.visited.Pairwise fun a b => ¬ (p.sem.eqv a.1 b.1 = true ∧ a.2 = b.2)
  init : (∃ v ∈ s.visited, p.sem.eqv v.1 im = true ∧ v.2 = []) ∨ ∃ e ∈ s.toVisit, p.sem.eqv e.m im = true ∧ e.trace = []
  closed : p.maxOcc = none → ∀ v ∈ s.visited, ∀ t ∈ p.sem.enabled v.1, ∀ tr,
    tr = (match p.label t with | some a => v.2 ++ [a] | none => v.2) → tr.length ≤ p.maxLen →
    (∃ w ∈ s.visited, p.sem.eqv w.1 (p.sem.exec t v.1) = true ∧ w.2 = tr) ∨ ∃ e ∈ s.toVisit, p.sem.eqv e.m (p.sem.exec t v.1) = true ∧ e.trace = tr

theorem seen_iff (sem : Sem S T) (v : List (S × List A)) (m : S) (tr : List A) :
    seen sem v m tr = true ↔ ∃ e ∈ v, sem.eqv e.1 m = true ∧ e.2 = tr := by
  simp [seen, List.any_eq_true]

theorem step_inv (p : Params S T A) (im : S) (hl : Lawful p.sem im) (s : State S T A) (h : Inv p im s) : Inv p im (step p s) := by
  unfold step
  cases hq : s.toVisit with
  | nil => simpa only using h
  | cons e rest =>
    have hge := h.good e (by simp [hq])
    -- whatever `e` stands for is visited afterwards
    by_cases hs : seen p.sem s.visited e.m e.trace = true
    · simp only [hs, if_true]
      obtain ⟨v, hv, hvm, hvt⟩ := (seen_iff _ _ _ _).1 hs
      have hmove : ∀ m tr, ((∃ w ∈ s.visited, p.sem.eqv w.1 m = true ∧ w.2 = tr) ∨ ∃ e ∈ s.toVisit, p.sem.eqv e.m m = true ∧ e.trace = tr) →
          (∃ w ∈ s.visited, p.sem.eqv w.1 m = true ∧ w.2 = tr) ∨ ∃ e ∈ rest, p.sem.eqv e.m m = true ∧ e.trace = tr := by
        rintro m tr (h | ⟨x, hx, h1, h2⟩)
        · exact Or.inl h
        · rw [hq] at hx
          rcases List.mem_cons.1 hx with rfl | hx
          · exact Or.inl ⟨v, hv, hl.trans _ _ _ hvm h1, hvt.trans h2⟩
          · exact Or.inr ⟨x, hx, h1, h2⟩
      exact {
        good := fun x hx => h.good x (by simp [hq, hx])
        words := h.words
        sound := h.sound
        reach := h.reach
        pair := h.pair
        init := hmove _ _ h.init
        closed := fun hp v hv t ht tr htr hlen => hmove _ _ (h.closed hp v hv t ht tr htr hlen) }
    · simp only [hs, Bool.false_eq_true, if_false]
      have hmove : ∀ m tr, ((∃ w ∈ s.visited, p.sem.eqv w.1 m = true ∧ w.2 = tr) ∨ ∃ e ∈ s.toVisit, p.sem.eqv e.m m = true ∧ e.trace = tr) →
          (∃ w ∈ s.visited ++ [(e.m, e.trace)], p.sem.eqv w.1 m = true ∧ w.2 = tr) ∨
            ∃ x ∈ rest ++ children p e, p.sem.eqv x.m m = true ∧ x.trace = tr := by
        rintro m tr (⟨w, hw, h⟩ | ⟨x, hx, h1, h2⟩)
        · exact Or.inl ⟨w, List.mem_append_left _ hw, h⟩
        · rw [hq] at hx
          rcases List.mem_cons.1 hx with rfl | hx
          · exact Or.inl ⟨_, List.mem_append_right _ (List.mem_singleton.2 rfl), h1, h2⟩
          · exact Or.inr ⟨x, List.mem_append_left _ hx, h1, h2⟩
      refine {
        good := ?_, words := ?_, sound := ?_, reach := ?_, pair := ?_, init := hmove _ _ h.init, closed := ?_ }
      · intro x hx
        rcases List.mem_append.1 hx with hx | hx
        · exact h.good x (by simp [hq, hx])
        · exact children_good p im hl e hge x hx
      · rw [List.filter_append, List.map_append, ← h.words]
        have hlen := hge.len
        cases hf : isFinal p e.m
        · simp [hf]
        · simp only [if_true, hlen, List.map_append, List.map_cons, List.map_nil]
          rw [List.filter_cons_of_pos (by simp [hf])]
          simp [hge.word]
      · intro els hels
        cases hf : isFinal p e.m
        · simp only [hf, Bool.false_eq_true, if_false] at hels; exact h.sound els hels
        · simp only [hf, if_true, hge.len] at hels
          rcases List.mem_append.1 hels with hels | hels
          · exact h.sound els hels
          · obtain rfl := List.mem_singleton.1 hels
            exact ⟨e.m, e.trace, hge, hf⟩
      · intro v hv
        rcases List.mem_append.1 hv with hv | hv
        · exact h.reach v hv
        · obtain rfl := List.mem_singleton.1 hv
          exact ⟨e.elements, hge⟩
      · rw [List.pairwise_append]
        refine ⟨h.pair, List.pairwise_singleton _ _, ?_⟩
        intro a ha b hb hab
        obtain rfl := List.mem_singleton.1 hb
        exact hs ((seen_iff _ _ _ _).2 ⟨a, ha, hab.1, hab.2⟩)
      · intro hp v hv t ht tr htr hlen
        rcases List.mem_append.1 hv with hv | hv
        · exact hmove _ _ (h.closed hp v hv t ht tr htr hlen)
        · obtain rfl := List.mem_singleton.1 hv
          obtain ⟨c, hc, h1, h2⟩ := mem_children p hp e t ht tr htr hlen
          exact Or.inr ⟨c, List.mem_append_right _ hc, by rw [h1]; exact hl.refl _, h2⟩

theorem run_inv (p : Params S T A) (im : S) (hl : Lawful p.sem im) (n : Nat) : Inv p im (run p im n) := by
  induction n with
  | zero =>
    refine ⟨?_, rfl, ?_, ?_, List.Pairwise.nil, Or.inr ⟨_, List.mem_singleton.2 rfl, hl.refl _, rfl⟩, ?_⟩
    · intro e he
      obtain rfl := List.mem_singleton.1 he
      exact ⟨.nil, rfl, Nat.zero_le _, fun k _ x => Nat.zero_le _⟩
    · intro _ h; cases h
    · intro _ h; cases h
    · intro _ _ h; cases h
  | succ n ih => exact step_inv p im hl _ ih

theorem isFinal_congr (p : Params S T A) (im : S) (hl : Lawful p.sem im) (a b : S) (ha : Reachable p.sem im a) (hb : Reachable p.sem im b)
    (h : p.sem.eqv a b = true) (hf : isFinal p a = true) : isFinal p b = true := by
  unfold isFinal at hf ⊢
  cases hpf : p.final with
  | some f => rw [hpf] at hf; exact hl.trans _ _ _ (hl.symm _ _ h) hf
  | none =>
    rw [hpf] at hf
    simp only [List.isEmpty_iff] at hf ⊢
    rw [List.eq_nil_iff_forall_not_mem]
    intro t ht
    have := hl.enabled_congr b a hb ha (hl.symm _ _ h) t ht
    rw [hf] at this; cases this

theorem path_visited (p : Params S T A) (im : S) (hl : Lawful p.sem im) (hp : p.maxOcc = none) (s : State S T A) (h : Inv p im s)
    (hd : s.toVisit = []) (els : List (S × T)) (m : S) (hpath : Path p.sem im els m) (hlen : (word p.label els).length ≤ p.maxLen) :
    ∃ v ∈ s.visited, p.sem.eqv v.1 m = true ∧ v.2 = word p.label els := by
  induction hpath with
  | nil =>
    rcases h.init with h | ⟨e, he, _⟩
    · exact h
    · rw [hd] at he; cases he
  | @snoc els m t hpath ht ih =>
    have hw := word_snoc p.label els m t
    obtain ⟨v, hv, hvm, hvt⟩ := ih (by
      rw [hw] at hlen
      cases hlab : p.label t with
      | none => simpa [hlab] using hlen
      | some a => simp only [hlab, List.length_append, List.length_singleton] at hlen; omega)
    obtain ⟨vels, hvg⟩ := h.reach v hv
    have hr := hvg.path.reach
    have ht' := hl.enabled_congr m v.1 hpath.reach hr (hl.symm _ _ hvm) t ht
    have hex := hl.exec_congr v.1 m hr hpath.reach hvm t ht'
    rcases h.closed hp v hv t ht' (word p.label (els ++ [(m, t)])) (by rw [hw, hvt]) hlen with ⟨w, hw1, hw2, hw3⟩ | ⟨e, he, _⟩
    · exact ⟨w, hw1, hl.trans _ _ _ hw2 hex, hw3⟩
    · rw [hd] at he; cases he

/-- every iteration removes an entry, and only new states add entries, at most one per enabled transition -/
theorem run_count (p : Params S T A) (im : S) (K : Nat) (hK : ∀ m, (p.sem.enabled m).length ≤ K) (n : Nat) :
    (run p im n).toVisit = [] ∨ n + (run p im n).toVisit.length ≤ 1 + K * (run p im n).visited.length := by
  induction n with
  | zero => right; simp [run]
  | succ n ih =>
    simp only [run]
    generalize run p im n = s at *
    unfold step
    cases hq : s.toVisit with
    | nil => left; exact hq
    | cons e rest =>
      rcases ih with h | h
      · rw [hq] at h; cases h
      · right
        rw [hq] at h
        simp only [List.length_cons] at h
        by_cases hs : seen p.sem s.visited e.m e.trace = true
        · simp only [hs, if_true]; omega
        · simp only [hs, Bool.false_eq_true, if_false, List.length_append, List.length_singleton]
          have hc : (children p e).length ≤ K := Nat.le_trans (by unfold children; exact List.length_filterMap_le _ _) (hK e.m)
          rw [Nat.mul_add, Nat.mul_one]; omega

end Playout
end Verif
