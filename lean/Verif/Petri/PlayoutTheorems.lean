import Verif.Petri.Playout
import Verif.Common.ListX
set_option linter.unusedSectionVars false
/-
C29: extensive playout returns exactly the traces of the net up to the length bound.
-/
namespace Verif
open Dict Reach
variable {P T A : Type} [DecidableEq P] [DecidableEq T] [DecidableEq A]

/-- `extensive.apply` for a net with the classic semantics -/
def Net.playout (net : Net P T) (lab : T → Option A) (maxLen : Nat) (maxOcc : Option Nat) (final : Option (Marking P)) :
    Playout.Params (Marking P) T A := ⟨net.sem, lab, maxLen, maxOcc, final⟩

/-- Specification: firing the sequence `ts` leads from `im` to `m`. -/
def Net.FiringSequence (net : Net P T) (im : Marking P) (ts : List T) (m : Marking P) : Prop :=
  ts.foldlM (fun m t => net.execute t m) im = some m

/-- Specification: a run may end in `m`: it is the final marking or, if there is none, nothing is enabled. -/
def Net.Ends (net : Net P T) (final : Option (Marking P)) (m : Marking P) : Prop :=
  match final with
  | some f => Marking.eq m f = true
  | none => ∀ t, ¬ net.Enabled t m

theorem Playout.path_iff (net : Net P T) (hs : net.Simple) (im : Marking P) (hi : Pos im) (ts : List T) (m : Marking P) :
    net.FiringSequence im ts m ↔ ∃ els, Path net.sem im els m ∧ els.map Prod.snd = ts := by
  constructor
  · intro h
    induction ts using snocInduct generalizing m with
    | nil =>
      simp only [Net.FiringSequence, List.foldlM_nil, Option.pure_def, Option.some.injEq] at h
      subst h; exact ⟨[], .nil, rfl⟩
    | snoc ts t ih =>
      simp only [Net.FiringSequence, List.foldlM_append, List.foldlM_cons, List.foldlM_nil, Option.bind_eq_bind,
        Option.pure_def, Option.bind_eq_some_iff, Option.some.injEq] at h
      obtain ⟨m1, h1, m2, h2, rfl⟩ := h
      obtain ⟨els, hp, rfl⟩ := ih m1 h1
      have hpos := Net.reach_pos hs hi ((Net.reachable_iff net hs im hi m1).1 hp.reach)
      have h3 := ((Net.execute_some_iff _ _ _ _).1 h2).1
      have h4 := Net.weakExecute_eq hs hpos h3
      rw [h2] at h4
      simp only [Option.some.injEq] at h4
      refine ⟨els ++ [(m1, t)], ?_, by simp⟩
      rw [h4]
      exact hp.snoc (List.mem_filter.2 ⟨((Net.isEnabled_iff _ _ _).1 h3).1, h3⟩)
  · rintro ⟨els, hp, rfl⟩
    induction hp with
    | nil => rfl
    | @snoc els m t hp ht ih =>
      have hpos := Net.reach_pos hs hi ((Net.reachable_iff net hs im hi m).1 hp.reach)
      have h4 := Net.weakExecute_eq hs hpos (List.mem_filter.1 ht).2
      unfold Net.FiringSequence at ih ⊢
      rw [List.map_append, List.foldlM_append, ih]
      simp only [List.map_cons, List.map_nil, List.foldlM_cons, List.foldlM_nil, Option.bind_eq_bind, Option.bind_some]
      rw [h4]; rfl

theorem Playout.ends_iff (net : Net P T) (hs : net.Simple) (lab : T → Option A) (L : Nat) (k : Option Nat) (final : Option (Marking P)) (m : Marking P)
    (hm : Pos m) : isFinal (net.playout lab L k final) m = true ↔ net.Ends final m := by
  unfold isFinal Net.Ends Net.playout
  cases final with
  | some f => exact Iff.rfl
  | none =>
    simp only [List.isEmpty_iff, List.eq_nil_iff_forall_not_mem]
    exact forall_congr' fun t => not_congr (C01_enabled_transitions net hs m hm t)

theorem Playout.word_eq (lab : T → Option A) {S : Type} (els : List (S × T)) : word lab els = (els.map Prod.snd).filterMap lab := by
  rw [List.filterMap_map]; rfl

/-- Every returned trace, whatever the limits, is the trace of a run of the net that ends properly, and it is not longer
than the bound; the recorded elements are such a run. -/
theorem C29_sound (net : Net P T) (hs : net.Simple) (im : Marking P) (hi : Pos im) (lab : T → Option A) (L : Nat) (k : Option Nat)
    (final : Option (Marking P)) (n : Nat) (els : List (Marking P × T)) (h : els ∈ (Playout.run (net.playout lab L k final) im n).feasible) :
    ((els.map Prod.snd).filterMap lab).length ≤ L ∧ ∃ m, net.FiringSequence im (els.map Prod.snd) m ∧ net.Ends final m := by
  have hinv := Playout.run_inv (net.playout lab L k final) im (net.lawful hs im hi) n
  obtain ⟨m, tr, hg, hf⟩ := hinv.sound els h
  have hw : tr = (els.map Prod.snd).filterMap lab := by rw [← Playout.word_eq]; exact hg.word
  refine ⟨hw ▸ hg.len, m, (Playout.path_iff net hs im hi _ m).2 ⟨els, hg.path, rfl⟩, ?_⟩
  exact (Playout.ends_iff net hs lab L k final m (Net.reach_pos hs hi ((Net.reachable_iff net hs im hi m).1 hg.path.reach))).1 hf

/-- When the search has ended and no limit on markings was set, the log holds exactly the traces of the net that are not
longer than the bound. -/
theorem C29_exact (net : Net P T) (hs : net.Simple) (im : Marking P) (hi : Pos im) (lab : T → Option A) (L : Nat)
    (final : Option (Marking P)) (n : Nat) (hn : (Playout.run (net.playout lab L none final) im n).toVisit = []) (w : List A) :
    w ∈ Playout.log (net.playout lab L none final) (Playout.run (net.playout lab L none final) im n) ↔
      w.length ≤ L ∧ ∃ ts m, net.FiringSequence im ts m ∧ net.Ends final m ∧ ts.filterMap lab = w := by
  have hl := net.lawful hs im hi
  have hinv := Playout.run_inv (net.playout lab L none final) im hl n
  constructor
  · intro h
    obtain ⟨els, he, rfl⟩ := List.mem_map.1 h
    obtain ⟨h1, m, h2, h3⟩ := C29_sound net hs im hi lab L none final n els he
    have hw := Playout.word_eq lab els
    unfold Playout.word at hw
    change (els.filterMap fun x => lab x.2).length ≤ L ∧ _
    rw [hw]
    exact ⟨h1, _, m, h2, h3, hw.symm⟩
  · rintro ⟨hlen, ts, m, hts, hend, rfl⟩
    obtain ⟨els, hp, rfl⟩ := (Playout.path_iff net hs im hi ts m).1 hts
    rw [← Playout.word_eq] at hlen ⊢
    obtain ⟨v, hv, hvm, hvt⟩ := Playout.path_visited (net.playout lab L none final) im hl rfl _ hinv hn els m hp hlen
    obtain ⟨vels, hvg⟩ := hinv.reach v hv
    have hfm := (Playout.ends_iff net hs lab L none final m (Net.reach_pos hs hi ((Net.reachable_iff net hs im hi m).1 hp.reach))).2 hend
    have hfv := Playout.isFinal_congr (net.playout lab L none final) im hl m v.1 hp.reach hvg.path.reach (hl.symm _ _ hvm) hfm
    have : Playout.word lab els ∈ (Playout.run (net.playout lab L none final) im n).feasible.map (Playout.word lab) := by
      have hw := hinv.words
      change (Playout.run (net.playout lab L none final) im n).feasible.map (Playout.word lab) = _ at hw
      rw [hw]
      exact List.mem_map.2 ⟨v, List.mem_filter.2 ⟨hv, hfv⟩, hvt⟩
    exact this

/-- With a final marking no trace is returned twice. -/
theorem C29_distinct (net : Net P T) (hs : net.Simple) (im : Marking P) (hi : Pos im) (lab : T → Option A) (L : Nat) (k : Option Nat)
    (f : Marking P) (n : Nat) :
    (Playout.log (net.playout lab L k (some f)) (Playout.run (net.playout lab L k (some f)) im n)).Nodup := by
  have hl := net.lawful hs im hi
  have hinv := Playout.run_inv (net.playout lab L k (some f)) im hl n
  have hw := hinv.words
  change ((Playout.run (net.playout lab L k (some f)) im n).feasible.map (Playout.word lab)).Nodup
  change (Playout.run (net.playout lab L k (some f)) im n).feasible.map (Playout.word lab) = _ at hw
  rw [hw, List.Nodup, List.pairwise_map]
  refine List.Pairwise.imp_of_mem ?_ (hinv.pair.filter _)
  intro a b ha hb hab he
  have h1 : Marking.eq a.1 f = true := (List.mem_filter.1 ha).2
  have h2 : Marking.eq b.1 f = true := (List.mem_filter.1 hb).2
  exact hab ⟨hl.trans _ _ _ h1 (hl.symm _ _ h2), he⟩

/-- With the limit `k` no marking is left more than `k` times in a returned run. -/
theorem C29_occurrences (net : Net P T) (hs : net.Simple) (im : Marking P) (hi : Pos im) (lab : T → Option A) (L : Nat) (k : Nat)
    (final : Option (Marking P)) (n : Nat) (els : List (Marking P × T)) (h : els ∈ (Playout.run (net.playout lab L (some k) final) im n).feasible)
    (m : Marking P) : (els.filter fun x => Marking.eq x.1 m).length ≤ k := by
  have hinv := Playout.run_inv (net.playout lab L (some k) final) im (net.lawful hs im hi) n
  obtain ⟨_, tr, hg, _⟩ := hinv.sound els h
  exact hg.occ k rfl m

/-- The search ends if the pairs of a marking and a trace within the bound that are reachable are finitely many (all equal
to one of `F`): after at most `1 + |T| * |F|` iterations. -/
theorem C29_terminates (net : Net P T) (hs : net.Simple) (im : Marking P) (hi : Pos im) (lab : T → Option A) (L : Nat) (k : Option Nat)
    (final : Option (Marking P)) (F : List (Marking P × List A))
    (hF : ∀ ts m, net.FiringSequence im ts m → (ts.filterMap lab).length ≤ L → ∃ x ∈ F, Marking.eq m x.1 = true ∧ ts.filterMap lab = x.2) (n : Nat)
    (hn : 1 + net.transitions.length * F.length < n) : (Playout.run (net.playout lab L k final) im n).toVisit = [] := by
  have hl := net.lawful hs im hi
  have hinv := Playout.run_inv (net.playout lab L k final) im hl n
  rcases Playout.run_count (net.playout lab L k final) im net.transitions.length (fun m => List.length_filter_le _ _) n with h | h
  · exact h
  · exfalso
    have hle : (Playout.run (net.playout lab L k final) im n).visited.length ≤ F.length := by
      refine pigeonhole (S := Marking P × List A) (T := T)
        ⟨fun _ => [], fun _ s => s, fun a b => Marking.eq a.1 b.1 && decide (a.2 = b.2)⟩ ?_ ?_ _ F ?_ ?_
      · intro a b h
        simp only [Bool.and_eq_true, decide_eq_true_eq] at h ⊢
        exact ⟨hl.symm _ _ h.1, h.2.symm⟩
      · intro a b c h1 h2
        simp only [Bool.and_eq_true, decide_eq_true_eq] at h1 h2 ⊢
        exact ⟨hl.trans _ _ _ h1.1 h2.1, h1.2.trans h2.2⟩
      · refine hinv.pair.imp ?_
        intro a b hab
        rw [← Bool.not_eq_true, Bool.and_eq_true, decide_eq_true_eq]
        exact hab
      · intro v hv
        obtain ⟨els, hg⟩ := hinv.reach v hv
        have hw : v.2 = (els.map Prod.snd).filterMap lab := by rw [← Playout.word_eq]; exact hg.word
        obtain ⟨x, hx, h1, h2⟩ := hF (els.map Prod.snd) v.1 ((Playout.path_iff net hs im hi _ _).2 ⟨els, hg.path, rfl⟩) (hw ▸ hg.len)
        refine ⟨x, hx, ?_⟩
        simp only [Bool.and_eq_true, decide_eq_true_eq]
        exact ⟨h1, hw.trans h2⟩
    have := Nat.mul_le_mul_left net.transitions.length hle
    omega


/-- the words over an alphabet up to a length -/
def Playout.words (al : List A) : Nat → List (List A)
  | 0 => [[]]
  | n + 1 => [] :: al.flatMap fun a => (words al n).map fun w => a :: w

theorem Playout.mem_words (al : List A) (n : Nat) (w : List A) (h : ∀ a ∈ w, a ∈ al) (hn : w.length ≤ n) : w ∈ words al n := by
  induction n generalizing w with
  | zero => obtain rfl := List.eq_nil_of_length_eq_zero (by omega : w.length = 0); simp [words]
  | succ n ih =>
    cases w with
    | nil => simp [words]
    | cons a w =>
      rw [words, List.mem_cons, List.mem_flatMap]
      right
      refine ⟨a, h a (List.mem_cons_self ..), List.mem_map.2 ⟨w, ih w (fun b hb => h b (List.mem_cons_of_mem _ hb)) ?_, rfl⟩⟩
      simp only [List.length_cons] at hn; omega

/-- On a net with finitely many reachable markings (all equal to one of `M`) the search always ends. -/
theorem C29_terminates_bounded (net : Net P T) (hs : net.Simple) (im : Marking P) (hi : Pos im) (lab : T → Option A) (L : Nat) (k : Option Nat)
    (final : Option (Marking P)) (M : List (Marking P)) (hM : ∀ m, net.Reach im m → ∃ l ∈ M, Marking.eq m l = true) :
    ∃ n, ∀ n', n ≤ n' → (Playout.run (net.playout lab L k final) im n').toVisit = [] := by
  let W := Playout.words (net.transitions.filterMap lab) L
  refine ⟨1 + net.transitions.length * (M.flatMap fun m => W.map fun w => (m, w)).length + 1, fun n' hn' => ?_⟩
  refine C29_terminates net hs im hi lab L k final (M.flatMap fun m => W.map fun w => (m, w)) ?_ n' (by omega)
  intro ts m hts hlen
  obtain ⟨els, hp, rfl⟩ := (Playout.path_iff net hs im hi ts m).1 hts
  obtain ⟨l, hl, hml⟩ := hM m ((Net.reachable_iff net hs im hi m).1 hp.reach)
  refine ⟨(l, (els.map Prod.snd).filterMap lab), ?_, hml, rfl⟩
  refine List.mem_flatMap.2 ⟨l, hl, List.mem_map.2 ⟨_, Playout.mem_words _ _ _ ?_ hlen, rfl⟩⟩
  have hall : ∀ t ∈ els.map Prod.snd, t ∈ net.transitions := by
    clear hlen hts hml
    induction hp with
    | nil => intro t ht; cases ht
    | snoc _ ht ih =>
      intro t' ht'
      rw [List.map_append, List.mem_append] at ht'
      rcases ht' with h | h
      · exact ih _ h
      · simp only [List.map_cons, List.map_nil, List.mem_singleton] at h
        subst h; exact (List.mem_filter.1 ht).1
  intro a ha
  obtain ⟨t, ht, hta⟩ := List.mem_filterMap.1 ha
  exact List.mem_filterMap.2 ⟨t, hall t ht, hta⟩

/-! witnesses -/
namespace PlayoutExamples
/-- `p0` to `p1` by "a" (10) or silently, back by "b" (11) -/
def net : Net Nat Nat where
  places := [0, 1]
  transitions := [0, 1, 2]
  inArcs t := if t = 2 then [(1, 1)] else [(0, 1)]
  outArcs t := if t = 2 then [(0, 1)] else [(1, 1)]
def lab (t : Nat) : Option Nat := if t = 0 then some 10 else if t = 1 then none else some 11

theorem net_simple : net.Simple where
  noParallel := by intro t _; by_cases h : t = 2 <;> simp [net, h]
  inPos := by intro t _ a ha; by_cases h : t = 2 <;> simp [net, h] at ha <;> subst ha <;> decide
  outPos := by intro t _ a ha; by_cases h : t = 2 <;> simp [net, h] at ha <;> subst ha <;> decide
theorem im_pos : Pos ([(0, 1)] : Marking Nat) := by intro k v h; simp [get?] at h; omega

/-- the search ends and finds the eleven traces of length at most 3 -/
example : (Playout.run (net.playout lab 3 none (some [(1, 1)])) [(0, 1)] 40).toVisit.isEmpty = true ∧
    Playout.log (net.playout lab 3 none (some [(1, 1)])) (Playout.run (net.playout lab 3 none (some [(1, 1)])) [(0, 1)] 40) =
      [[10], [], [10, 11, 10], [10, 11], [11, 10], [11], [10, 11, 11], [11, 10, 11], [11, 11, 10], [11, 11], [11, 11, 11]] := by decide
end PlayoutExamples

/-- Without a final marking a trace can be returned once per deadlock. -/
theorem C29_distinct_refuted :
    ¬ ∀ (net : Net Nat Nat) (im : Marking Nat) (lab : Nat → Option Nat) (L n : Nat), net.Simple → Pos im →
      (Playout.log (net.playout lab L none none) (Playout.run (net.playout lab L none none) im n)).Nodup := by
  intro h
  have := h ⟨[0, 1, 2], [1, 2], fun _ => [(0, 1)], fun t => [(t, 1)]⟩ [(0, 1)] (fun _ => some 7) 10 5
    ⟨by simp, by simp, by simp⟩ PlayoutExamples.im_pos
  revert this; decide

/-- The bound on the length of the traces does not make the search end: a silent transition without input places. -/
theorem C29_terminates_refuted :
    ¬ ∀ (net : Net Nat Nat) (im : Marking Nat) (lab : Nat → Option Nat) (L : Nat), net.Simple → Pos im →
      ∃ n, (Playout.run (net.playout lab L none (some [(1, 1)])) im n).toVisit = [] := by
  intro h
  let net : Net Nat Nat := ⟨[0, 1], [0], fun _ => [], fun _ => [(0, 1)]⟩
  let p := net.playout (fun _ => (none : Option Nat)) 10 none (some [(1, 1)])
  let mk : Nat → Marking Nat := fun n => if n = 0 then [] else [(0, (n : Int))]
  have hex : ∀ n, net.weakExecute 0 (mk n) = mk (n + 1) := by
    intro n
    by_cases hn : n = 0
    · subst hn; decide
    · simp [net, Net.weakExecute, Net.produce, mk, hn, Dict.set, Dict.count, Dict.get?]
  have hne : ∀ i j, i < j → Marking.eq (mk i) (mk j) = false := by
    intro i j hij
    rw [← Bool.not_eq_true, Marking.eq_iff]
    intro hc
    have := hc 0
    by_cases hi : i = 0 <;> simp [mk, hi, show j ≠ 0 by omega, get?] at this
    omega
  have key : ∀ n, ∃ els, (Playout.run p [] n).toVisit = [⟨mk n, [], els⟩] ∧
      (Playout.run p [] n).visited = (List.range n).map fun i => (mk i, []) := by
    intro n
    induction n with
    | zero => exact ⟨[], rfl, rfl⟩
    | succ n ih =>
      obtain ⟨els, h1, h2⟩ := ih
      have hs : Playout.seen p.sem (Playout.run p [] n).visited (mk n) ([] : List Nat) = false := by
        rw [← Bool.not_eq_true, Playout.seen_iff]
        rintro ⟨e, he, h3, -⟩
        rw [h2] at he
        obtain ⟨i, hi, rfl⟩ := List.mem_map.1 he
        rw [show p.sem.eqv = Marking.eq from rfl] at h3
        simp only at h3
        rw [hne i n (List.mem_range.1 hi)] at h3; cases h3
      refine ⟨els ++ [(mk n, 0)], ?_, ?_⟩
      · simp only [Playout.run, Playout.step, h1, hs, Bool.false_eq_true, if_false, List.nil_append]
        have hen : p.sem.enabled (mk n) = [0] := by simp [p, Net.playout, Net.sem, Net.enabledTransitions, Net.isEnabled, net]
        simp only [Playout.children, hen]
        have := hex n
        simp [Playout.tooOften, p, Net.playout, Net.sem, this]
      · simp only [Playout.run, Playout.step, h1, hs, Bool.false_eq_true, if_false]
        rw [h2, List.range_succ, List.map_append]; rfl
  obtain ⟨n, hn⟩ := h net [] (fun _ => none) 10 ⟨by simp [net], by simp [net], by simp [net]⟩ (by intro k v hk; cases hk)
  obtain ⟨els, h1, -⟩ := key n
  change (Playout.run p [] n).toVisit = [] at hn
  rw [h1] at hn; cases hn

end Verif
