import Verif.DfgFile.Proofs
import Verif.DfgNet.Model
set_option linter.unusedSectionVars false
/-
C58: a directly-follows graph written to a `.dfg` file is read back unchanged.
-/
namespace Verif
open DfgFile

namespace DfgFile

/-! ### Specification -/

/-- `a` is a node of the graph: the source or the target of one of its edges. -/
def Node (dfg : Dfg) (a : Str) : Prop := ∃ e ∈ dfg, a = e.1.1 ∨ a = e.1.2

/-- `acts` lists the set of the nodes of the graph, in some order. -/
def IsActs (acts : List Str) (dfg : Dfg) : Prop := acts.Nodup ∧ ∀ a, a ∈ acts ↔ Node dfg a

/-- A Python dictionary: no key twice. -/
def IsDict {κ ν : Type} (d : List (κ × ν)) : Prop := (d.map Prod.fst).Nodup

end DfgFile

/-- The export fails exactly if there are no start activities, no end activities, or some start or end activity is on no
    edge of the graph. -/
theorem C58_raises_iff (acts : List Str) (dfg : Dfg) (sa ea : Dict Str Int) (ha : IsActs acts dfg) :
    exportText acts dfg sa ea = none ↔
      sa = [] ∨ ea = [] ∨ (∃ e ∈ sa, ¬ Node dfg e.1) ∨ (∃ e ∈ ea, ¬ Node dfg e.1) := by
  unfold exportText
  rw [Option.map_eq_none_iff]
  unfold exportRows
  by_cases hs : sa = []
  · simp [hs]
  have hs' : sa.length ≠ 0 := by simp [hs]
  by_cases he : ea = []
  · simp [he]
  have he' : ea.length ≠ 0 := by simp [he]
  rw [if_neg hs', if_neg he']
  have key1 : sa.mapM (actRow acts) = none ↔ ∃ e ∈ sa, ¬ Node dfg e.1 := by
    rw [mapM_none_iff]; simp only [actRow_none, ha.2]
  have key2 : ea.mapM (actRow acts) = none ↔ ∃ e ∈ ea, ¬ Node dfg e.1 := by
    rw [mapM_none_iff]; simp only [actRow_none, ha.2]
  have key3 : dfg.mapM (edgeRow acts) ≠ none := by
    rw [ne_eq, mapM_none_iff]
    rintro ⟨e, hm, hn⟩
    rw [edgeRow_none, ha.2, ha.2] at hn
    rcases hn with hn | hn
    · exact hn ⟨e, hm, Or.inl rfl⟩
    · exact hn ⟨e, hm, Or.inr rfl⟩
  rw [← key1, ← key2]
  cases h1 : sa.mapM (actRow acts) <;> cases h2 : ea.mapM (actRow acts) <;> cases h3 : dfg.mapM (edgeRow acts) <;>
    simp_all

/-- Whatever the names (without line feeds), reading the exported text gives the graph whose names have lost the white
    space around them, the counts of names that have become equal being overwritten by the later one. -/
theorem C58_stripped (acts : List Str) (dfg : Dfg) (sa ea : Dict Str Int) (t : Str) (ha : IsActs acts dfg)
    (hn : ∀ a, Node dfg a → '\n' ∉ a) (h : exportText acts dfg sa ea = some t) :
    importString t = some (dictOf (dfg.map fun e => ((strip e.1.1, strip e.1.2), e.2)),
      dictOf (sa.map fun e => (strip e.1, e.2)), dictOf (ea.map fun e => (strip e.1, e.2))) := by
  unfold exportText at h
  rw [Option.map_eq_some_iff] at h
  obtain ⟨rows, hr, rfl⟩ := h
  unfold importString
  rw [readlines_flatten (rows_isRow hr fun a h => hn a ((ha.2 a).1 h)), importRows_export hr]

theorem DfgFile.start_node {acts : List Str} {dfg : Dfg} {sa ea : Dict Str Int} {t : Str} (ha : IsActs acts dfg)
    (h : exportText acts dfg sa ea = some t) : (∀ e ∈ sa, Node dfg e.1) ∧ (∀ e ∈ ea, Node dfg e.1) := by
  have := mt (C58_raises_iff acts dfg sa ea ha).2 (by rw [h]; simp)
  simp only [not_or, not_exists, not_and, Classical.not_not] at this
  exact ⟨this.2.2.1, this.2.2.2⟩

theorem DfgFile.map_strip {sa : Dict Str Int} (h : ∀ e ∈ sa, strip e.1 = e.1) : (sa.map fun e => (strip e.1, e.2)) = sa := by
  conv => rhs; rw [← List.map_id sa]
  apply List.map_congr_left
  intro e he
  simp [h e he]

/-- For every graph whose activity names contain no line feed and have no white space at either end, every order in which
    the set of activities may be enumerated and all start and end activities: if the export succeeds, reading the text
    gives back the same graph, start activities and end activities. -/
theorem C58_roundtrip (acts : List Str) (dfg : Dfg) (sa ea : Dict Str Int) (t : Str) (ha : IsActs acts dfg)
    (hd : IsDict dfg) (hs : IsDict sa) (he : IsDict ea)
    (hn : ∀ a, Node dfg a → '\n' ∉ a)
    (hw : ∀ a, Node dfg a → (∀ c, a.head? = some c → isSpace c = false) ∧ (∀ c, a.getLast? = some c → isSpace c = false))
    (h : exportText acts dfg sa ea = some t) :
    importString t = some (dfg, sa, ea) := by
  rw [C58_stripped acts dfg sa ea t ha hn h]
  have hstrip : ∀ a, Node dfg a → strip a = a := fun a hna => strip_tight (hw a hna)
  obtain ⟨h1, h2⟩ := start_node ha h
  rw [map_strip fun e he => hstrip _ (h1 e he), map_strip fun e he => hstrip _ (h2 e he)]
  have : (dfg.map fun e => ((strip e.1.1, strip e.1.2), e.2)) = dfg := by
    conv => rhs; rw [← List.map_id dfg]
    apply List.map_congr_left
    intro e he
    simp [hstrip e.1.1 ⟨e, he, Or.inl rfl⟩, hstrip e.1.2 ⟨e, he, Or.inr rfl⟩]
  rw [this, dictOf_nodup hd, dictOf_nodup hs, dictOf_nodup he]

/-- The same for a file, which is read with universal newlines: the names must not contain a carriage return either. -/
theorem C58_roundtrip_file (acts : List Str) (dfg : Dfg) (sa ea : Dict Str Int) (t : Str) (ha : IsActs acts dfg)
    (hd : IsDict dfg) (hs : IsDict sa) (he : IsDict ea)
    (hn : ∀ a, Node dfg a → '\n' ∉ a ∧ '\r' ∉ a)
    (hw : ∀ a, Node dfg a → (∀ c, a.head? = some c → isSpace c = false) ∧ (∀ c, a.getLast? = some c → isSpace c = false))
    (h : exportText acts dfg sa ea = some t) :
    importFile t = some (dfg, sa, ea) := by
  have := C58_roundtrip acts dfg sa ea t ha hd hs he (fun a h => (hn a h).1) hw h
  unfold importFile
  rw [universal_id]
  · exact this
  · unfold exportText at h
    rw [Option.map_eq_some_iff] at h
    obtain ⟨rows, hr, rfl⟩ := h
    exact rows_no_cr hr fun a h => (hn a ((ha.2 a).1 h)).2

theorem DfgFile.mem_firsts {α β : Type} [DecidableEq α] (f : β → α) (l : List β) (s : List α) (a : α) :
    a ∈ l.foldl (fun s e => if f e ∈ s then s else s ++ [f e]) s ↔ a ∈ s ∨ ∃ e ∈ l, f e = a := by
  induction l generalizing s with
  | nil => simp
  | cons e l ih =>
    rw [List.foldl_cons, ih]
    split <;> grind

/-- Without explicit start and end activities (classic.py:50-53), the export fails exactly if every source of an edge is
    also a target, or every target also a source. -/
theorem C58_default_raises_iff (acts : List Str) (dfg : Dfg) (ha : IsActs acts dfg) :
    exportText acts dfg ((DfgNet.inferStart (dfg.map Prod.fst)).map (·, 1)) ((DfgNet.inferEnd (dfg.map Prod.fst)).map (·, 1)) =
      none ↔ (∀ e ∈ dfg, ∃ e' ∈ dfg, e'.1.2 = e.1.1) ∨ (∀ e ∈ dfg, ∃ e' ∈ dfg, e'.1.1 = e.1.2) := by
  have hS : ∀ a, a ∈ DfgNet.inferStart (dfg.map Prod.fst) ↔ (∃ e ∈ dfg, e.1.1 = a) ∧ ¬ ∃ e ∈ dfg, e.1.2 = a := by
    intro a
    unfold DfgNet.inferStart
    rw [List.mem_filter, mem_firsts Prod.fst]
    simp
  have hE : ∀ a, a ∈ DfgNet.inferEnd (dfg.map Prod.fst) ↔ (∃ e ∈ dfg, e.1.2 = a) ∧ ¬ ∃ e ∈ dfg, e.1.1 = a := by
    intro a
    unfold DfgNet.inferEnd
    rw [List.mem_filter, mem_firsts Prod.snd]
    simp
  rw [C58_raises_iff acts dfg _ _ ha]
  have n1 : ¬ ∃ e ∈ (DfgNet.inferStart (dfg.map Prod.fst)).map (·, (1 : Int)), ¬ Node dfg e.1 := by
    rintro ⟨e, hm, hn⟩
    rw [List.mem_map] at hm
    obtain ⟨a, hm, rfl⟩ := hm
    obtain ⟨⟨e, he, rfl⟩, _⟩ := (hS a).1 hm
    exact hn ⟨e, he, Or.inl rfl⟩
  have n2 : ¬ ∃ e ∈ (DfgNet.inferEnd (dfg.map Prod.fst)).map (·, (1 : Int)), ¬ Node dfg e.1 := by
    rintro ⟨e, hm, hn⟩
    rw [List.mem_map] at hm
    obtain ⟨a, hm, rfl⟩ := hm
    obtain ⟨⟨e, he, rfl⟩, _⟩ := (hE a).1 hm
    exact hn ⟨e, he, Or.inr rfl⟩
  simp only [n1, n2, or_false, List.map_eq_nil_iff]
  simp only [List.eq_nil_iff_forall_not_mem, hS, hE]
  constructor
  · rintro (h | h)
    · left; intro e he
      have := h e.1.1
      simp only [not_and, Classical.not_not] at this
      exact this ⟨e, he, rfl⟩
    · right; intro e he
      have := h e.1.2
      simp only [not_and, Classical.not_not] at this
      exact this ⟨e, he, rfl⟩
  · rintro (h | h)
    · left; rintro a ⟨⟨e, he, rfl⟩, hn⟩; exact hn (h e he)
    · right; rintro a ⟨⟨e, he, rfl⟩, hn⟩; exact hn (h e he)

/-! ### Concrete cases -/

namespace DfgFile
def nmA : Str := ['a']
def nmB : Str := ['b', 'x', '>']
def exDfg : Dfg := [((nmA, nmB), 12), ((nmB, nmB), 3)]
theorem show_small {n : Nat} (h : n < 10) : showNat n = [digit n] := by rw [showNat, if_pos h]
theorem show_12 : showNat 12 = ['1', '2'] := by rw [showNat, if_neg (by decide), show_small (by decide)]; rfl
theorem int_1 : showInt 1 = ['1'] := by
  show (if (1 : Int) < 0 then _ else showNat 1) = _; rw [if_neg (by decide), show_small (by decide)]; rfl
theorem int_2 : showInt 2 = ['2'] := by
  show (if (2 : Int) < 0 then _ else showNat 2) = _; rw [if_neg (by decide), show_small (by decide)]; rfl
theorem int_3 : showInt 3 = ['3'] := by
  show (if (3 : Int) < 0 then _ else showNat 3) = _; rw [if_neg (by decide), show_small (by decide)]; rfl
theorem int_12 : showInt 12 = ['1', '2'] := by
  show (if (12 : Int) < 0 then _ else showNat 12) = _; rw [if_neg (by decide), show_12]
def exText : Str := "2\nbx>\na\n1\n1x2\n1\n0x2\n1>0x12\n0>0x3\n".toList
end DfgFile

/-- The hypotheses of the round trip are met by a graph with two activities, one of them called `bx>`. -/
example : IsActs [nmB, nmA] exDfg ∧ exportText [nmB, nmA] exDfg [(nmA, 2)] [(nmB, 2)] = some exText ∧
    importFile exText = some (exDfg, [(nmA, 2)], [(nmB, 2)]) := by
  refine ⟨⟨by decide, ?_⟩, ?_, rfl⟩
  rotate_left
  · simp only [exportText, exportRows, actRow, edgeRow, int_1, int_2, int_3, int_12, exDfg, List.mapM_cons, List.mapM_nil,
      show [nmB, nmA].idxOf? nmA = some 1 from rfl, show [nmB, nmA].idxOf? nmB = some 0 from rfl, Option.map_some,
      show_small (show 0 < 10 by decide), show_small (show 1 < 10 by decide),
      show_small (show 2 < 10 by decide), show_small (show 3 < 10 by decide), List.length_cons, List.length_nil, Nat.zero_add, Nat.reduceAdd]
    rfl
  intro a
  simp [Node, exDfg, nmA, nmB]
  grind

/-- The activities of cases with a single event are on no edge: the graph of a log with such an activity cannot be
    written (`ValueError` of `list.index`), whatever else it contains. -/
theorem C58_single_event_refuted (acts : List Str) (dfg : Dfg) (sa ea : Dict Str Int) (a : Str) (n : Int)
    (ha : IsActs acts dfg) (hs : (a, n) ∈ sa) (h : ¬ Node dfg a) : exportText acts dfg sa ea = none :=
  (C58_raises_iff acts dfg sa ea ha).2 (Or.inr (Or.inr (Or.inl ⟨_, hs, h⟩)))

/-- The case is met by the log `⟨a, b⟩, ⟨c⟩`. -/
example : IsActs [['a'], ['b']] [((['a'], ['b']), 1)] ∧ ((['c'], 1) : Str × Int) ∈ [(['a'], 1), (['c'], 1)] ∧
    ¬ Node [((['a'], ['b']), 1)] ['c'] := by
  refine ⟨⟨by decide, ?_⟩, by simp, by simp [Node]⟩
  intro a; simp [Node]

/-- White space around names is lost, and two activities may be merged: the edge `a → b` written with count 1 is read
    with the count of the edge ` a → b`. -/
theorem C58_whitespace_refuted :
    ∃ acts dfg sa ea t, IsActs acts dfg ∧ IsDict dfg ∧ IsDict sa ∧ IsDict ea ∧ exportText acts dfg sa ea = some t ∧
      importString t = some ([((['a'], ['b']), 2)], [(['a'], 2)], [(['b'], 3)]) ∧
      dfg = [((['a'], ['b']), 1), (([' ', 'a'], ['b']), 2)] := by
  refine ⟨[['a'], [' ', 'a'], ['b']], _, [(['a'], 1), ([' ', 'a'], 2)], [(['b'], 3)],
    "3\na\n a\nb\n2\n0x1\n1x2\n1\n2x3\n0>2x1\n1>2x2\n".toList, ⟨by decide, ?_⟩, ?_, ?_, ?_, ?_, ?_, rfl⟩
  · intro a; simp [Node]; grind
  · unfold IsDict; decide
  · unfold IsDict; decide
  · unfold IsDict; decide
  · simp only [exportText, exportRows, actRow, edgeRow, int_1, int_2, int_3, int_12, List.mapM_cons, List.mapM_nil,
      show [['a'], [' ', 'a'], ['b']].idxOf? ['a'] = some 0 from rfl,
      show [['a'], [' ', 'a'], ['b']].idxOf? [' ', 'a'] = some 1 from rfl,
      show [['a'], [' ', 'a'], ['b']].idxOf? ['b'] = some 2 from rfl, Option.map_some,
      show_small (show 0 < 10 by decide), show_small (show 1 < 10 by decide),
      show_small (show 2 < 10 by decide), show_small (show 3 < 10 by decide), List.length_cons, List.length_nil, Nat.zero_add, Nat.reduceAdd]
    rfl
  · rfl

end Verif
