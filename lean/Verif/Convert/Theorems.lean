import Verif.Convert.Apply
import Verif.Inductive.Theorems
/-
Property theorems C14 (process tree → Petri net), C15 (silent-transition reductions), C31 (soundness of converted nets).
-/
namespace Verif
open Conv Sys Lang Dict

/-! ### specification vocabulary -/

namespace Conv
variable {α : Type}

/-- The accepting net `(g, m0, mf)` has the trace `w`: some firing sequence, executed with `semantics.execute`, leads from `m0`
to a marking equal (`Marking.__eq__`) to `mf`, and its visible labels are `w`. -/
def Accepts (g : Gr α) (m0 mf : Marking Nat) (w : List α) : Prop :=
  ∃ ts m, Exec g m0 ts m ∧ Marking.eq m mf = true ∧ ts.filterMap g.label = w

/-- `m` can be reached from `m0` by firing transitions with `semantics.execute` -/
def CanReach (g : Gr α) (m0 m : Marking Nat) : Prop := ∃ ts, Exec g m0 ts m

/-- an iteration order of the set `net.transitions`, possibly different in every round -/
def IterOrder (ord : Gr α → List (Nat × Option α)) : Prop := ∀ g, (ord g).Perm g.trans

/-- A net as built by the API: different transitions, every arc connects a place of the net and a transition of the net. -/
structure IsNet (g : Gr α) : Prop where
  nodup : (g.trans.map Prod.fst).Nodup
  pt : ∀ a ∈ g.pt, a.1 ∈ g.places ∧ a.2 ∈ g.trans.map Prod.fst
  tp : ∀ a ∈ g.tp, a.1 ∈ g.trans.map Prod.fst ∧ a.2 ∈ g.places

/-- the marking has no token on a place that has exactly one incoming and exactly one outgoing arc -/
def NotOnPassThrough (g : Gr α) (m : Marking Nat) : Prop :=
  ∀ p, (g.ppre p).length = 1 → (g.ppost p).length = 1 → count m p = 0

theorem IsNet.inv {g : Gr α} (h : IsNet g) : g.Inv :=
  ⟨h.nodup, fun _ _ p hp => (h.pt _ (Gr.mem_pre.1 hp)).1, fun _ _ p hp => (h.tp _ (Gr.mem_post.1 hp)).2⟩

theorem IterOrder.mem {ord : Gr α → List (Nat × Option α)} (h : IterOrder ord) : ∀ g, ∀ e ∈ ord g, e ∈ g.trans :=
  fun g _ he => (h g).mem_iff.1 he

theorem accepts_iff {g : Gr α} (hs : g.toNet.Simple) (hi : g.Inv) {m0 mf : Marking Nat} (h0 : Pos m0) (hf : Pos mf) (w : List α) :
    Accepts g m0 mf w ↔ Run g.trs (cnt m0) w (cnt mf) := by
  constructor
  · rintro ⟨ts, m, h1, h2, rfl⟩
    obtain ⟨r, hp⟩ := Exec.run hs hi h0 h1
    rw [← (cnt_pos_eq hp hf).2 h2]; exact r
  · intro h
    obtain ⟨ts, m, h1, h2, h3, h4⟩ := run_exec hs hi h h0 rfl
    exact ⟨ts, m, h1, (cnt_pos_eq h3 hf).1 h2, h4⟩

/-- a set of markings closed under firing contains everything reachable -/
theorem closed_reach {g : Gr α} {S : List (Marking Nat)}
    (hS : ∀ m ∈ S, ∀ t ∈ g.trans.map Prod.fst, ∀ m' ∈ g.toNet.execute t m, m' ∈ S) (ts : List Nat) :
    ∀ m ∈ S, ∀ m', Exec g m ts m' → m' ∈ S := by
  induction ts with
  | nil =>
    intro m hm m' h
    simp only [Exec, List.foldlM_nil] at h
    cases h; exact hm
  | cons t ts ih =>
    intro m hm m' h
    simp only [Exec, List.foldlM_cons, Option.bind_eq_bind, Option.bind_eq_some_iff] at h
    obtain ⟨m1, h1, h2⟩ := h
    have ht := ((Net.isEnabled_iff _ _ _).1 ((Net.execute_some_iff _ _ _ _).1 h1).1).1
    exact ih m1 (hS m hm t ht m1 h1) m' h2

theorem NotOnPassThrough.free {g : Gr α} {m : Marking Nat} (h : NotOnPassThrough g m) : Reds.Free g (cnt m) := by
  intro x h1 h2
  unfold cnt; rw [h x h1 h2]; rfl

/-- soundness of the net, in terms of `semantics.execute` -/
theorem sound_execute {g : Gr α} (hI : g.Inv) (hS : Sound g.trs 0 1) :
    (∀ m, CanReach g initialMarking m → ∃ m', CanReach g m m' ∧ Marking.eq m' finalMarking = true) ∧
    (∀ m, CanReach g initialMarking m → 1 ≤ count m 1 → Marking.eq m finalMarking = true) ∧
    (∀ m, CanReach g initialMarking m → ∀ p, 0 ≤ count m p ∧ count m p ≤ 1) ∧
    (∀ tr ∈ g.toNet.transitions, ∃ m, CanReach g initialMarking m ∧ g.toNet.isEnabled tr m = true) := by
  have hs : g.toNet.Simple := simple_of (Sound.nodup hS)
  have reach : ∀ m, CanReach g initialMarking m → Pos m ∧ ∃ w, Run g.trs (toks [0]) w (cnt m) := by
    rintro m ⟨ts, hts⟩
    obtain ⟨r, hp⟩ := Exec.run hs hI (pos_single 0) hts
    rw [cnt_single] at r
    exact ⟨hp, _, r⟩
  have fin : ∀ m, Pos m → cnt m = toks [1] → Marking.eq m finalMarking = true := by
    intro m hp e
    refine (cnt_pos_eq hp (pos_single 1)).1 ?_
    rw [e, cnt_single]
  refine ⟨fun m hm => ?_, fun m hm h1 => ?_, fun m hm p => ?_, fun tr htr => ?_⟩
  · obtain ⟨hp, w, r⟩ := reach m hm
    obtain ⟨v, hv⟩ := hS.complete _ _ r
    obtain ⟨ts, m', h1, h2, h3, _⟩ := run_exec hs hI hv hp rfl
    exact ⟨m', ⟨ts, h1⟩, fin m' h3 h2⟩
  · obtain ⟨hp, w, r⟩ := reach m hm
    exact fin m hp (hS.proper _ _ r (by unfold cnt; omega))
  · obtain ⟨hp, w, r⟩ := reach m hm
    have h1 := hS.safe _ _ r p
    have h2 := hp.count_nonneg p
    unfold cnt at h1
    omega
  · obtain ⟨a, ha, e⟩ := List.mem_map.1 htr
    obtain ⟨w, M, M', r, hf⟩ := hS.live _ (mem_trs.2 ⟨a, ha, rfl⟩)
    obtain ⟨ts, m, h1, h2, h3, _⟩ := run_exec hs hI r (m := initialMarking) (pos_single 0) (cnt_single 0)
    refine ⟨m, ⟨ts, h1⟩, ?_⟩
    rw [← h2] at hf
    obtain ⟨m', hm', _⟩ := fires_execute hs (List.mem_map.2 ⟨a, ha, rfl⟩) h3 hf
    rw [← e]
    exact ((Net.execute_some_iff _ _ _ _).1 hm').1

/-- the traces of the net, in terms of `semantics.execute` -/
theorem accepts_run {g : Gr α} (hI : g.Inv) (hS : Sound g.trs 0 1) (w : List α) :
    Accepts g initialMarking finalMarking w ↔ Run g.trs (toks [0]) w (toks [1]) := by
  unfold initialMarking finalMarking
  rw [accepts_iff (simple_of (Sound.nodup hS)) hI (pos_single 0) (pos_single 1), cnt_single, cnt_single]

end Conv

variable {α : Type}

/-! ### C14 -/

/-- C14: the accepting net returned by the conversion of a process tree accepts exactly the traces of the tree: every trace of
the tree is the label sequence of a firing sequence from the initial to the final marking, and vice versa — whatever order the
sets of transitions and places are iterated in. -/
theorem C14_language {ord : Gr α → List (Nat × Option α)} (hord : IterOrder ord) (ordP : List Nat → List Nat) (t : PT α)
    (ht : WellFormed t) (w : List α) : Accepts (apply ord ordP t) initialMarking finalMarking w ↔ t.lang w := by
  have h := (apply_reds hord.mem ordP ht).ready (build_ready ht)
  unfold initialMarking finalMarking
  rw [accepts_iff (simple_of (Sound.nodup h.2.1)) h.1 (pos_single 0) (pos_single 1), h.2.2.1, cnt_single, cnt_single]

/-- C14: the visible labels of the net are those of the leaves of the tree: the reductions take only silent transitions out. -/
theorem C14_visible {ord : Gr α → List (Nat × Option α)} (hord : IterOrder ord) (ordP : List Nat → List Nat) (t : PT α)
    (ht : WellFormed t) (e : Nat × Option α) (he : e.2 ≠ none) : e ∈ (apply ord ordP t).trans ↔ e ∈ (build t).trans :=
  have h := (apply_reds hord.mem ordP ht).sub
  ⟨fun h1 => h.1 e h1, fun h1 => h.2.2 e h1 he⟩

/-- a well-formed tree with all six operators: the hypotheses of the theorems are satisfiable -/
def exConv : PT String :=
  .node .seq [.node .loop [.leaf (some "a"), .leaf (some "b"), .leaf none],
    .node .par [.leaf (some "c"), .node .or [.leaf (some "d"), .leaf (some "e")]],
    .node .inter [.leaf (some "f"), .node .xor [.leaf none, .leaf (some "g")]]]

theorem exConv_wellFormed : WellFormed exConv := by
  unfold exConv
  repeat first
    | exact WellFormed.leaf _
    | (refine WellFormed.node _ _ (by simp) (by simp) ?_; intro c hc; simp only [List.mem_cons, List.not_mem_nil, or_false] at hc)
    | (rcases hc with rfl | hc)
    | (subst hc)

example : Accepts (apply (fun g => g.trans) id exConv) initialMarking finalMarking ["a", "b", "a", "e", "c", "d", "g", "f"] := by
  refine (C14_language (fun _ => List.Perm.refl _) id exConv exConv_wellFormed _).2 ?_
  have hl : ∀ a : String, (PT.leaf (some a)).lang [a] := fun a => by simp
  show PT.lang (.node .seq _) _
  rw [PT.lang_node]
  refine ⟨["a", "b", "a"], ["e", "c", "d", "g", "f"], ?_, ⟨["e", "c", "d"], ["g", "f"], ?_, ⟨["g", "f"], [], ?_, rfl, rfl⟩, rfl⟩, rfl⟩
  · rw [PT.lang_node]
    exact loopL.again (d := ["a"]) (r := ["b"]) (w := ["a"]) _ (hl _) (by simp) (hl "b") (loopL.exit (hl _))
  · rw [PT.lang_node]
    refine ⟨["c"], ["e", "d"], hl _, ⟨["e", "d"], [], ?_, rfl, ?_⟩, ?_⟩
    · rw [PT.lang_node]
      exact ⟨_, by simp, List.Sublist.refl _, ⟨["d"], ["e"], hl _, ⟨["e"], [], hl _, rfl, .left .nil⟩, .right (.left .nil)⟩⟩
    · exact .left (.left .nil)
    · exact .right (.left (.right .nil))
  · rw [PT.lang_node]
    refine ⟨_, (List.Perm.swap _ _ []), ⟨["g"], ["f"], ?_, ⟨["f"], [], hl _, rfl, rfl⟩, rfl⟩⟩
    rw [PT.lang_node]
    exact ⟨_, by simp, hl "g"⟩

/-- C14 needs loops with a redo part: the tree `X( *( 'a' ), 'b' )` with a loop that has only a do part is converted to a net that
accepts `⟨b, a⟩`, which mixes the two alternatives. -/
theorem C14_single_child_loop_refuted :
    ∃ t : PT String, t = .node .xor [.node .loop [.leaf (some "a")], .leaf (some "b")] ∧
      Accepts (apply (fun g => g.trans) id t) initialMarking finalMarking ["b", "a"] ∧ ¬ t.lang ["b", "a"] := by
  refine ⟨_, rfl, ?_, ?_⟩
  · refine ⟨[0, 5, 3, 4, 1], [(1, 1)], ?_, ?_, ?_⟩
    · unfold Exec; decide
    · decide
    · decide
  · rw [PT.lang_node]
    simp only [PT.opLang, List.map_cons, List.map_nil, xorL, List.mem_cons, List.not_mem_nil, or_false, exists_eq_or_imp, exists_eq_left]
    rintro (h | h)
    · rw [PT.lang_node] at h
      generalize hw : ["b", "a"] = w at h
      cases h with
      | exit h => simp at h; simp [h] at hw
      | again R _ hm _ _ => simp at hm
    · simp at h

/-! ### C31 -/

/-- C31: the converted net is sound.  From every reachable marking the final marking can be reached; a reachable marking with a
token in the sink is the final marking; no place ever holds more than one token; every transition can be fired. -/
theorem C31_sound {ord : Gr α → List (Nat × Option α)} (hord : IterOrder ord) (ordP : List Nat → List Nat) (t : PT α)
    (ht : WellFormed t) :
    let g := apply ord ordP t
    (∀ m, CanReach g initialMarking m → ∃ m', CanReach g m m' ∧ Marking.eq m' finalMarking = true) ∧
    (∀ m, CanReach g initialMarking m → 1 ≤ count m 1 → Marking.eq m finalMarking = true) ∧
    (∀ m, CanReach g initialMarking m → ∀ p, 0 ≤ count m p ∧ count m p ≤ 1) ∧
    (∀ tr ∈ g.toNet.transitions, ∃ m, CanReach g initialMarking m ∧ g.toNet.isEnabled tr m = true) := by
  have h := (apply_reds hord.mem ordP ht).ready (build_ready ht)
  exact sound_execute h.1 h.2.1

/-- C31: the converted net is a workflow net: the source has no incoming arc, the sink no outgoing arc, every other place has
both. -/
theorem C31_workflow_net {ord : Gr α → List (Nat × Option α)} (hord : IterOrder ord) (ordP : List Nat → List Nat) (t : PT α)
    (ht : WellFormed t) :
    let g := apply ord ordP t
    g.ppre 0 = [] ∧ g.ppost 1 = [] ∧ ∀ p ∈ g.places, (p ≠ 0 → g.ppre p ≠ []) ∧ (p ≠ 1 → g.ppost p ≠ []) := by
  have h := (apply_reds hord.mem ordP ht).ready (build_ready ht)
  exact h.2.2.2

example : ∃ m, CanReach (apply (fun g => g.trans) id exConv) initialMarking m ∧ Marking.eq m finalMarking = true :=
  (C31_sound (fun _ => List.Perm.refl _) id exConv exConv_wellFormed).1 initialMarking ⟨[], rfl⟩ |>.imp
    fun _ h => h

/-- C31 needs ORs with two branches: the net of `O( 'a' )` has a transition that is never enabled. -/
theorem C31_single_child_or_refuted :
    ∃ tr ∈ (apply (fun g => g.trans) id (.node .or [.leaf (some "a")] : PT String)).toNet.transitions,
      ∀ m, CanReach (apply (fun g => g.trans) id (.node .or [.leaf (some "a")] : PT String)) initialMarking m →
        (apply (fun g => g.trans) id (.node .or [.leaf (some "a")] : PT String)).toNet.isEnabled tr m = false := by
  refine ⟨3, by decide, ?_⟩
  rintro m ⟨ts, h⟩
  have hm := closed_reach (S := [[(0, 1)], [(3, 1), (4, 1)], [(5, 1), (2, 1)], [(2, 1), (6, 1)], [(1, 1)]]) (by decide) ts _
    (by decide) m h
  have key : ∀ m ∈ ([[(0, 1)], [(3, 1), (4, 1)], [(5, 1), (2, 1)], [(2, 1), (6, 1)], [(1, 1)]] : List (Marking Nat)),
      (apply (fun g => g.trans) id (.node .or [.leaf (some "a")] : PT String)).toNet.isEnabled 3 m = false := by decide
  exact key m hm

/-! ### C15 -/

/-- C15, the token game of the textbook: on every net, `apply_simple_reduction` keeps the traces between two markings that do
not mark a place with exactly one incoming and one outgoing arc. -/
theorem C15_token_game {ord : Gr α → List (Nat × Option α)} (hord : IterOrder ord) (g : Gr α) (hg : IsNet g) (m0 mf : Marking Nat)
    (h0 : NotOnPassThrough g m0) (hf : NotOnPassThrough g mf) (w : List α) :
    (Run (g.reduceEntry ord).trs (cnt m0) w (cnt mf) ↔ Run g.trs (cnt m0) w (cnt mf)) ∧
    (Run (g.reduceExit ord).trs (cnt m0) w (cnt mf) ↔ Run g.trs (cnt m0) w (cnt mf)) ∧
    (Run (g.simpleReduction ord).trs (cnt m0) w (cnt mf) ↔ Run g.trs (cnt m0) w (cnt mf)) :=
  ⟨((reduceEntry_reds hord.mem hg.inv).lang h0.free hf.free w).symm,
   ((reduceExit_reds hord.mem hg.inv).lang h0.free hf.free w).symm,
   ((simpleReduction_reds hord.mem hg.inv).lang h0.free hf.free w).symm⟩

/-- C15, `semantics.execute`, entry rule: the traces stay the same if no two arcs connect the same place and transition. -/
theorem C15_entry {ord : Gr α → List (Nat × Option α)} (hord : IterOrder ord) (g : Gr α) (hg : IsNet g) (hs : g.toNet.Simple)
    (m0 mf : Marking Nat) (p0 : Pos m0) (pf : Pos mf) (h0 : NotOnPassThrough g m0) (hf : NotOnPassThrough g mf) (w : List α) :
    Accepts (g.reduceEntry ord) m0 mf w ↔ Accepts g m0 mf w := by
  have hr := reduceEntry_reds hord.mem hg.inv
  have hp : ∀ n g, g.Inv → (∀ t ∈ g.trans.map Prod.fst, (g.pre t).Nodup) →
      ∀ t ∈ (Gr.rounds (Gr.entryRound ord) n g).trans.map Prod.fst, ((Gr.rounds (Gr.entryRound ord) n g).pre t).Nodup := by
    intro n
    induction n with
    | zero => intro g _ h; exact h
    | succ n ih =>
      intro g hi h
      unfold Gr.rounds
      split
      · exact h
      · rename_i g' hg'
        obtain ⟨_, _, hred⟩ := entryRound_red hord.mem hi hg'
        refine ih g' hred.inv ?_
        unfold Gr.entryRound at hg'
        obtain ⟨e, he, h1⟩ := List.exists_of_findSome?_eq_some hg'
        have hm := hord.mem g e (List.mem_filter.1 he).1
        obtain ⟨p, u, hstep⟩ := Gr.entry_step hi (List.mem_map.2 ⟨_, hm, rfl⟩) h1
        intro t ht
        obtain ⟨h2, h3⟩ := hstep.mem_trans.1 ht
        rw [hstep.pre' h3]
        exact h t h2
  have hs' : (g.reduceEntry ord).toNet.Simple := simple_of (hp _ g hg.inv fun t ht => by
    simpa [Gr.toNet, Function.comp_def] using hs.noParallel t ht)
  rw [accepts_iff hs' hr.inv p0 pf, accepts_iff hs hg.inv p0 pf]
  exact (C15_token_game hord g hg m0 mf h0 hf w).1

/-- C15, `semantics.execute`, exit rule and `apply_simple_reduction`: the traces stay the same if neither the net nor the result
has two arcs between the same place and transition. -/
theorem C15_reduction {ord : Gr α → List (Nat × Option α)} (hord : IterOrder ord) (g : Gr α) (hg : IsNet g) (hs : g.toNet.Simple)
    (m0 mf : Marking Nat) (p0 : Pos m0) (pf : Pos mf) (h0 : NotOnPassThrough g m0) (hf : NotOnPassThrough g mf) (w : List α) :
    ((g.reduceExit ord).toNet.Simple → (Accepts (g.reduceExit ord) m0 mf w ↔ Accepts g m0 mf w)) ∧
    ((g.simpleReduction ord).toNet.Simple → (Accepts (g.simpleReduction ord) m0 mf w ↔ Accepts g m0 mf w)) := by
  obtain ⟨_, h2, h3⟩ := C15_token_game hord g hg m0 mf h0 hf w
  refine ⟨fun hs' => ?_, fun hs' => ?_⟩
  · rw [accepts_iff hs' (reduceExit_reds hord.mem hg.inv).inv p0 pf, accepts_iff hs hg.inv p0 pf]; exact h2
  · rw [accepts_iff hs' (simpleReduction_reds hord.mem hg.inv).inv p0 pf, accepts_iff hs hg.inv p0 pf]; exact h3

/-- C15: the `while` loops of the two functions end, with a net on which the rule cannot be applied any more; visible
transitions are never removed. -/
theorem C15_terminates {ord : Gr α → List (Nat × Option α)} (hord : IterOrder ord) (g : Gr α) (hg : IsNet g) :
    (∀ t, (t, none) ∈ (g.reduceEntry ord).trans → (g.reduceEntry ord).entryAt t = none) ∧
    (∀ t, (t, none) ∈ (g.reduceExit ord).trans → (g.reduceExit ord).exitAt t = none) ∧
    ∀ e ∈ g.trans, e.2 ≠ none → e ∈ (g.simpleReduction ord).trans := by
  refine ⟨fun t ht => ?_, fun t ht => ?_, (simpleReduction_reds hord.mem hg.inv).sub.2.2⟩
  · cases h : (g.reduceEntry ord).entryAt t with
    | none => rfl
    | some g' =>
      obtain ⟨p, _, _, hp, _⟩ := Gr.entryAt_eq_some.1 h
      have h1 := List.findSome?_eq_none_iff.1 (entry_done hord.mem hg.inv) (t, none)
        (List.mem_filter.2 ⟨(hord _).mem_iff.2 ht, by simp [hp]⟩)
      rw [h] at h1; cases h1
  · cases h : (g.reduceExit ord).exitAt t with
    | none => rfl
    | some g' =>
      obtain ⟨p, _, _, hp, _⟩ := Gr.exitAt_eq_some.1 h
      have h1 := List.findSome?_eq_none_iff.1 (exit_done hord.mem hg.inv) (t, none)
        (List.mem_filter.2 ⟨(hord _).mem_iff.2 ht, by simp [hp]⟩)
      rw [h] at h1; cases h1

/-- `a : 0 → 2`, silent `2 → 3`, `b : 3 → 4`, silent `4 → 1`: both rules apply -/
def exRed : Gr String :=
  ⟨[0, 1, 2, 3, 4], [(0, some "a"), (1, none), (2, some "b"), (3, none)], [(0, 0), (2, 1), (3, 2), (4, 3)], [(0, 2), (1, 3), (2, 4), (3, 1)]⟩

example : IsNet exRed ∧ exRed.toNet.Simple ∧ (exRed.simpleReduction fun g => g.trans).toNet.Simple ∧
    (exRed.simpleReduction fun g => g.trans).trans.length = 2 := by
  refine ⟨⟨by decide, by decide, by decide⟩, simple_of (by decide), simple_of (by decide), by decide⟩

example : NotOnPassThrough exRed [(0, 1)] ∧ NotOnPassThrough exRed [(1, 1)] := by
  refine ⟨fun p h1 _ => ?_, fun p _ h2 => ?_⟩
  · by_cases h : p = 0
    · subst h; revert h1; decide
    · simp [count, Dict.get?, Ne.symm h]
  · by_cases h : p = 1
    · subst h; revert h2; decide
    · simp [count, Dict.get?, Ne.symm h]

example : Accepts exRed [(0, 1)] [(1, 1)] ["a", "b"] ∧ Accepts (exRed.simpleReduction fun g => g.trans) [(0, 1)] [(1, 1)] ["a", "b"] :=
  ⟨⟨[0, 1, 2, 3], [(1, 1)], by unfold Exec; decide, by decide, by decide⟩,
   ⟨[0, 2], [(1, 1)], by unfold Exec; decide, by decide, by decide⟩⟩

/-- C15 needs the condition on the markings: the reduction does not look at them and can remove a marked place.
`a : 0 → 1`, silent `1 → 2`, initial marking `{1}`, final marking `{2}`. -/
theorem C15_marked_place_refuted : ∃ (g : Gr String) (m0 mf : Marking Nat), IsNet g ∧ g.toNet.Simple ∧ Pos m0 ∧ Pos mf ∧
    Accepts g m0 mf [] ∧ ¬ Accepts (g.reduceEntry fun g => g.trans) m0 mf [] := by
  refine ⟨⟨[0, 1, 2], [(0, some "a"), (1, none)], [(0, 0), (1, 1)], [(0, 1), (1, 2)]⟩, [(1, 1)], [(2, 1)],
    ⟨by decide, by decide, by decide⟩, simple_of (by decide), pos_single 1, pos_single 2,
    ⟨[1], [(2, 1)], by unfold Exec; decide, by decide, by decide⟩, ?_⟩
  rintro ⟨ts, m, h, he, _⟩
  have := closed_reach (S := [[(1, 1)]]) (by decide) ts _ (by decide) m h
  simp only [List.mem_singleton] at this
  subst this
  revert he; decide

/-- C15 needs the condition on parallel arcs: the exit rule can create two arcs from one place to one transition, and `execute`
then fires the transition although one of the two tokens is missing.
Silent `0 → 1`, `v : 0, 1 → 0, 2`, `y : 2 → 0`; initial and final marking `{0}`. -/
theorem C15_parallel_arcs_refuted : ∃ (g : Gr String) (m0 mf : Marking Nat), IsNet g ∧ g.toNet.Simple ∧ Pos m0 ∧ Pos mf ∧
    NotOnPassThrough g m0 ∧ NotOnPassThrough g mf ∧
    ¬ Accepts g m0 mf ["v", "y"] ∧ Accepts (g.reduceExit fun g => g.trans) m0 mf ["v", "y"] := by
  have hn : NotOnPassThrough (⟨[0, 1, 2], [(0, none), (1, some "v"), (2, some "y")], [(0, 0), (0, 1), (1, 1), (2, 2)],
      [(0, 1), (1, 0), (1, 2), (2, 0)]⟩ : Gr String) [(0, 1)] := by
    intro p h1 _
    by_cases h : p = 0
    · subst h; revert h1; decide
    · simp [count, Dict.get?, Ne.symm h]
  refine ⟨⟨[0, 1, 2], [(0, none), (1, some "v"), (2, some "y")], [(0, 0), (0, 1), (1, 1), (2, 2)],
      [(0, 1), (1, 0), (1, 2), (2, 0)]⟩, [(0, 1)], [(0, 1)],
    ⟨by decide, by decide, by decide⟩, simple_of (by decide), pos_single 0, pos_single 0, hn, hn, ?_,
    ⟨[1, 2], [(0, 1)], by unfold Exec; decide, by decide, by decide⟩⟩
  rintro ⟨ts, m, h, _, hw⟩
  cases ts with
  | nil => simp at hw
  | cons t ts =>
    have ht : t = 0 := by
      simp only [Exec, List.foldlM_cons, Option.bind_eq_bind, Option.bind_eq_some_iff] at h
      obtain ⟨m1, h1, _⟩ := h
      have h2 := ((Net.execute_some_iff _ _ _ _).1 h1).1
      have h3 := ((Net.isEnabled_iff _ _ _).1 h2).1
      have key : ∀ t ∈ [0, 1, 2], Net.isEnabled (Gr.toNet (⟨[0, 1, 2], [(0, none), (1, some "v"), (2, some "y")],
        [(0, 0), (0, 1), (1, 1), (2, 2)], [(0, 1), (1, 0), (1, 2), (2, 0)]⟩ : Gr String)) t [(0, 1)] = true → t = 0 := by decide
      exact key t h3 h2
    subst ht
    simp only [Exec, List.foldlM_cons, Option.bind_eq_bind, Option.bind_eq_some_iff] at h
    obtain ⟨m1, h1, h2⟩ := h
    have e1 : m1 = [(1, 1)] := by
      have : Net.execute (Gr.toNet (⟨[0, 1, 2], [(0, none), (1, some "v"), (2, some "y")],
        [(0, 0), (0, 1), (1, 1), (2, 2)], [(0, 1), (1, 0), (1, 2), (2, 0)]⟩ : Gr String)) 0 [(0, 1)] = some [(1, 1)] := by decide
      rw [this] at h1
      exact (Option.some.inj h1).symm
    subst e1
    cases ts with
    | nil => revert hw; decide
    | cons t ts =>
      simp only [List.foldlM_cons, Option.bind_eq_bind, Option.bind_eq_some_iff] at h2
      obtain ⟨m1, h1, _⟩ := h2
      have h2 := ((Net.execute_some_iff _ _ _ _).1 h1).1
      have h3 := ((Net.isEnabled_iff _ _ _).1 h2).1
      have key : ∀ t ∈ [0, 1, 2], Net.isEnabled (Gr.toNet (⟨[0, 1, 2], [(0, none), (1, some "v"), (2, some "y")],
        [(0, 0), (0, 1), (1, 1), (2, 2)], [(0, 1), (1, 0), (1, 2), (2, 0)]⟩ : Gr String)) t [(1, 1)] = false := by decide
      rw [key t h3] at h2
      cases h2

/-! ### C32: the net discovered by the inductive miner -/

namespace Conv

theorem wellFormed_of_reduced {t : PT α} (h : PT.Reduced t) : WellFormed t := by
  induction h with
  | leaf l => exact .leaf l
  | node op cs h2 _ _ _ _ ih =>
    exact .node op cs (by intro e; rw [e] at h2; simp at h2) (fun _ => h2) ih

theorem wellFormed_treeSort (h : α → Nat) {t : PT α} (hw : WellFormed t) : WellFormed (PT.treeSort h t) := by
  induction hw with
  | leaf l => simpa [PT.treeSort] using WellFormed.leaf l
  | node op cs hne h2 _ ih =>
    simp only [PT.treeSort]
    have hL : ∀ c ∈ PT.treeSortL h cs, WellFormed c := by
      rw [PT.treeSortL_eq]; intro c hc
      obtain ⟨d, hd, rfl⟩ := List.mem_map.1 hc
      exact ih d hd
    have hlen : (PT.treeSortL h cs).length = cs.length := by rw [PT.treeSortL_eq]; simp
    have hne' : PT.treeSortL h cs ≠ [] := by
      intro e; rw [e] at hlen; exact hne (List.eq_nil_of_length_eq_zero hlen.symm)
    split
    · refine .node _ _ ?_ ?_ ?_
      · intro e
        have := congrArg List.length e
        rw [List.length_mergeSort, hlen] at this
        exact hne (List.eq_nil_of_length_eq_zero this)
      · intro ho; rw [List.length_mergeSort, hlen]; exact h2 ho
      · intro c hc; exact hL c (List.mem_mergeSort.1 hc)
    · exact .node _ _ hne' (fun ho => by rw [hlen]; exact h2 ho) hL

end Conv

/-- the tree discovered by the inductive miner meets the condition of C14 and C31 -/
theorem C32_discovered_wellFormed [DecidableEq α] {env : IM.Env α} (henv : env.Lawful) (h sz : α → Nat) (log : List (List α))
    (hsz : IM.SmallAlphabet log) (n : Nat) (t : PT α) (ht : IM.discover env h sz n log = some t) : WellFormed t := by
  obtain ⟨m, t0, h0, hg⟩ := IM.discover_reduced henv h sz log hsz
  rw [C08_deterministic env h sz log n m t _ ht h0]
  exact wellFormed_treeSort h (wellFormed_of_reduced hg)

/-- C32: the accepting Petri net discovered by the inductive miner replays every trace of the log. -/
theorem C32_fitness [DecidableEq α] {env : IM.Env α} (henv : env.Lawful) (h sz : α → Nat) (log : List (List α))
    (hsz : IM.SmallAlphabet log) {ord : Gr α → List (Nat × Option α)} (hord : IterOrder ord) (ordP : List Nat → List Nat)
    (n : Nat) (t : PT α) (ht : IM.discover env h sz n log = some t) :
    ∀ w ∈ log, Accepts (apply ord ordP t) initialMarking finalMarking w := fun w hw =>
  (C14_language hord ordP t (C32_discovered_wellFormed henv h sz log hsz n t ht) w).2 (C07_fitness henv h sz log hsz n t ht w hw)

/-- C32: the discovered net is sound and safe. -/
theorem C32_sound [DecidableEq α] {env : IM.Env α} (henv : env.Lawful) (h sz : α → Nat) (log : List (List α))
    (hsz : IM.SmallAlphabet log) {ord : Gr α → List (Nat × Option α)} (hord : IterOrder ord) (ordP : List Nat → List Nat)
    (n : Nat) (t : PT α) (ht : IM.discover env h sz n log = some t) :
    (∀ m, CanReach (apply ord ordP t) initialMarking m →
      (∃ m', CanReach (apply ord ordP t) m m' ∧ Marking.eq m' finalMarking = true) ∧
      (1 ≤ count m 1 → Marking.eq m finalMarking = true) ∧ ∀ p, 0 ≤ count m p ∧ count m p ≤ 1) ∧
    ∀ tr ∈ (apply ord ordP t).toNet.transitions, ∃ m, CanReach (apply ord ordP t) initialMarking m ∧
      (apply ord ordP t).toNet.isEnabled tr m = true := by
  obtain ⟨h1, h2, h3, h4⟩ := C31_sound hord ordP t (C32_discovered_wellFormed henv h sz log hsz n t ht)
  exact ⟨fun m hm => ⟨h1 m hm, h2 m hm, h3 m hm⟩, h4⟩

example (h sz : Nat → Nat) : ∃ t N, IM.discover exampleEnv h sz N exampleLog = some t ∧
    Accepts (apply (fun g => g.trans) id t) initialMarking finalMarking [1, 2, 3, 5, 3, 2, 4] := by
  have hs : IM.SmallAlphabet exampleLog := by unfold IM.SmallAlphabet; decide
  obtain ⟨t, N, ht⟩ := C08_terminates exampleEnv_lawful h sz exampleLog hs
  exact ⟨t, N, ht N (Nat.le_refl _), C32_fitness exampleEnv_lawful h sz exampleLog hs (fun _ => List.Perm.refl _) id N t
    (ht N (Nat.le_refl _)) _ (by simp [exampleLog])⟩

end Verif
