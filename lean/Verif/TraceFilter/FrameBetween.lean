import Verif.TraceFilter.FrameTheorems3
/-
C42, continued: the between filter and the splitting of cases on dataframes.
-/
set_option linter.unusedSectionVars false
namespace Verif.TraceFilter
variable {ε α σ κ : Type} [DecidableEq α] [DecidableEq σ] [DecidableEq κ]

/-- State of the inner loop of the between filter over the rows of a case: `res[c_ind[i] .. c_ind[i]+j-1]`, `occ_A`
(`none` for -1) and `rel_count` (pandas/between/between_filter.py:75-77). -/
structure LabelState where
  lab : List (Option Nat)
  occ : Option Nat
  rel : Nat

/-- One iteration (pandas/between/between_filter.py:79-95); the label is the number of the subcase, from which the code
builds the new case identifier. -/
def labelStep (p q : ε → Bool) (same : Bool) (s : LabelState) (e : ε) : LabelState :=
  match s.occ with
  | some z =>
    if q e then
      { lab := s.lab.take z ++ List.replicate (s.lab.length + 1 - z) (some s.rel),
        occ := if !same then none else some s.lab.length, rel := s.rel + 1 }
    else { s with lab := s.lab ++ [none] }
  | none => if p e then { s with lab := s.lab ++ [none], occ := some s.lab.length } else { s with lab := s.lab ++ [none] }

/-- The labels of the rows of one case. -/
def blockLabels (p q : ε → Bool) (same : Bool) (block : List ε) : List (Option Nat) :=
  (block.foldl (labelStep p q same) { lab := [], occ := none, rel := 0 }).lab

/-- `c_ind` and `c_counts` of `np.unique` for a case: the index of its first row and the number of its rows; the code reads
and writes the rows from the first on (pandas/between/between_filter.py:70, 79, 83). -/
def firstIdx (caseOf : ε → κ) (rows : List ε) (c : κ) : Nat := rows.findIdx fun r => decide (caseOf r = c)

/-- The rows that the code takes for those of the case. -/
def blockOf (caseOf : ε → κ) (rows : List ε) (c : κ) : List ε :=
  (rows.drop (firstIdx caseOf rows c)).take (caseRows caseOf rows c).length

/-- The between filter on dataframes (pandas/between/between_filter.py:67-99): the kept rows with their new case, that is
the old one and the number of the subcase.  The cases are processed in the order of `ids` (`np.unique` sorts them).
Simplified: the writes of a case replace the labels of its whole block. -/
def betweenDf (caseOf : ε → κ) (p q : ε → Bool) (same : Bool) (ids : List κ) (rows : List ε) : List (ε × κ × Nat) :=
  let res := ids.foldl (fun (res : List (Option (κ × Nat))) c =>
    res.take (firstIdx caseOf rows c) ++
      (blockLabels p q same (blockOf caseOf rows c)).map (fun k => k.map fun k => (c, k)) ++
      res.drop (firstIdx caseOf rows c + (caseRows caseOf rows c).length)) (List.replicate rows.length none)
  (rows.zip res).filterMap fun (r, l) => l.map fun l => (r, l)

/-- The labels of `activity_split_filter` for the rows of a case (pandas/activity_split/activity_split_filter.py:105-121):
`rel_count` after the row when `cut_mode` is "this", before it otherwise. -/
def splitLabels (q : ε → Bool) (this : Bool) : Nat → List ε → List Nat
  | _, [] => []
  | rel, e :: t =>
    if q e then (if this then rel + 1 else rel) :: splitLabels q this (rel + 1) t
    else rel :: splitLabels q this rel t

/-- `activity_split_filter.apply` (pandas/activity_split/activity_split_filter.py:97-125): `res` is filled in the order of
`np.unique`, and then taken as the new case column. -/
def splitDf (caseOf : ε → κ) (q : ε → Bool) (this : Bool) (ids : List κ) (rows : List ε) : List (ε × κ × Nat) :=
  rows.zip (ids.flatMap fun c => (splitLabels q this 0 (blockOf caseOf rows c)).map fun k => (c, k))

/-- The rows with a label. -/
def withLabel {β : Type} [DecidableEq β] (l : β) (t : List (ε × Option β)) : List ε :=
  (t.filter fun x => decide (x.2 = some l)).map Prod.fst

theorem withLabel_append {β : Type} [DecidableEq β] (l : β) (t u : List (ε × Option β)) :
    withLabel l (t ++ u) = withLabel l t ++ withLabel l u := by simp [withLabel]

theorem withLabel_none {β : Type} [DecidableEq β] (l : β) (u : List ε) :
    withLabel l (u.zip (List.replicate u.length (none : Option β))) = [] := by
  unfold withLabel
  rw [List.map_eq_nil_iff, List.filter_eq_nil_iff]
  rintro ⟨e, k⟩ h
  have := (List.of_mem_zip h).2
  rw [List.mem_replicate] at this
  simp [this.2]

theorem withLabel_some (k l : Nat) (u : List ε) :
    withLabel l (u.zip (List.replicate u.length (some k))) = if k = l then u else [] := by
  unfold withLabel
  split
  · rename_i h; subst h
    rw [List.filter_eq_self.2, List.map_fst_zip (by simp)]
    rintro ⟨e, i⟩ h
    have := (List.of_mem_zip h).2
    rw [List.mem_replicate] at this
    simp [this.2]
  · rename_i h
    rw [List.map_eq_nil_iff, List.filter_eq_nil_iff]
    rintro ⟨e, i⟩ hm
    have := (List.of_mem_zip hm).2
    rw [List.mem_replicate] at this
    simp [this.2, h]

theorem label_skip (p q : ε → Bool) (same : Bool) (u : List ε) (h : ∀ e ∈ u, p e = false) (L : List (Option Nat)) (k : Nat) :
    u.foldl (labelStep p q same) ⟨L, none, k⟩ = ⟨L ++ List.replicate u.length none, none, k⟩ := by
  induction u generalizing L with
  | nil => simp
  | cons e u ih =>
    rw [List.foldl_cons]
    have : labelStep p q same ⟨L, none, k⟩ e = ⟨L ++ [none], none, k⟩ := by simp [labelStep, h e (by simp)]
    rw [this, ih fun x hx => h x (by simp [hx])]
    simp [List.replicate_succ]

theorem label_collect (p q : ε → Bool) (same : Bool) (u : List ε) (h : ∀ e ∈ u, q e = false) (L : List (Option Nat))
    (z k : Nat) :
    u.foldl (labelStep p q same) ⟨L, some z, k⟩ = ⟨L ++ List.replicate u.length none, some z, k⟩ := by
  induction u generalizing L with
  | nil => simp
  | cons e u ih =>
    rw [List.foldl_cons]
    have : labelStep p q same ⟨L, some z, k⟩ e = ⟨L ++ [none], some z, k⟩ := by simp [labelStep, h e (by simp)]
    rw [this, ih fun x hx => h x (by simp [hx])]
    simp [List.replicate_succ]

theorem label_run (p q : ε → Bool) {t : List ε} {segs : List (List ε)} (h : Segments p q t segs) :
    ∀ (L : List (Option Nat)) (k : Nat), ∃ lab : List (Option Nat),
      (t.foldl (labelStep p q false) ⟨L, none, k⟩).lab = L ++ lab ∧ lab.length = t.length ∧
      ∀ i, withLabel i (t.zip lab) = if i < k then [] else segs[i - k]?.getD [] := by
  induction h with
  | none u h =>
    intro L k
    refine ⟨List.replicate u.length none, by rw [label_skip p q false u h], by simp, fun i => ?_⟩
    rw [withLabel_none]; simp
  | unfinished u s m h hs hm =>
    intro L k
    refine ⟨List.replicate u.length none ++ none :: List.replicate m.length none, ?_, by simp, fun i => ?_⟩
    · rw [List.foldl_append, label_skip p q false u h, List.foldl_cons]
      have : labelStep p q false ⟨L ++ List.replicate u.length none, none, k⟩ s =
          ⟨L ++ List.replicate u.length none ++ [none], some (L.length + u.length), k⟩ := by
        simp [labelStep, hs]
      rw [this, label_collect p q false m hm]
      simp
    · have : List.replicate u.length (none : Option Nat) ++ none :: List.replicate m.length none =
          List.replicate (u ++ s :: m).length none := by
        rw [← List.replicate_succ, List.replicate_append_replicate]; simp
      rw [this, withLabel_none]; simp
  | found u s m f rest segs h hs hm hf hr ih =>
    intro L k
    obtain ⟨lab, h1, h2, h3⟩ := ih (L ++ List.replicate u.length none ++ List.replicate (m.length + 2) (some k)) (k + 1)
    refine ⟨List.replicate u.length none ++ List.replicate (m.length + 2) (some k) ++ lab, ?_, ?_, fun i => ?_⟩
    · rw [List.foldl_append, label_skip p q false u h, List.foldl_cons]
      have e1 : labelStep p q false ⟨L ++ List.replicate u.length none, none, k⟩ s =
          ⟨L ++ List.replicate u.length none ++ [none], some (L.length + u.length), k⟩ := by
        simp [labelStep, hs]
      rw [e1, List.foldl_append, label_collect p q false m hm, List.foldl_cons]
      have e2 : labelStep p q false ⟨L ++ List.replicate u.length none ++ [none] ++ List.replicate m.length none,
          some (L.length + u.length), k⟩ f =
          ⟨L ++ List.replicate u.length none ++ List.replicate (m.length + 2) (some k), none, k + 1⟩ := by
        simp only [labelStep, hf, if_true, Bool.not_false]
        congr 1
        have l1 : (L ++ List.replicate u.length (none : Option Nat)).length = L.length + u.length := by simp
        rw [List.append_assoc (L ++ List.replicate u.length none), List.take_left' l1]
        congr 2
        simp; omega
      rw [e2, h1]
      simp [List.append_assoc]
    · simp [h2]; omega
    · have e : u ++ s :: (m ++ f :: rest) = u ++ (s :: (m ++ [f])) ++ rest := by simp
      have l2 : (s :: (m ++ [f])).length = m.length + 2 := by simp
      rw [e, List.zip_append (by simp), List.zip_append (by simp), withLabel_append, withLabel_append, withLabel_none,
        ← l2, withLabel_some, h3]
      by_cases hik : i < k
      · have : ¬ k = i := by omega
        have : i < k + 1 := by omega
        simp [*]
      · by_cases hke : k = i
        · subst hke; simp
        · have h5 : ¬ i < k + 1 := by omega
          have h6 : i - k = (i - (k + 1)) + 1 := by omega
          rw [if_neg h5, if_neg hik, h6, List.getElem?_cons_succ]
          simp [hke]

theorem caseRows_idem (caseOf : ε → κ) (rows : List ε) (c : κ) :
    caseRows caseOf (caseRows caseOf rows c) c = caseRows caseOf rows c := by
  unfold caseRows; rw [List.filter_filter]; simp

theorem caseRows_append (caseOf : ε → κ) (l m : List ε) (c : κ) :
    caseRows caseOf (l ++ m) c = caseRows caseOf l c ++ caseRows caseOf m c := List.filter_append ..

theorem findIdx_pre (p : ε → Bool) (pre post : List ε) (x : ε) (h : ∀ y ∈ pre, p y = false) (hx : p x = true) :
    (pre ++ x :: post).findIdx p = pre.length := by
  induction pre with
  | nil => simp [List.findIdx_cons, hx]
  | cons a pre ih =>
    rw [List.cons_append, List.findIdx_cons, h a (by simp)]
    simp [ih fun y hy => h y (by simp [hy])]

/-- With contiguous cases, the block that the code reads is the case. -/
theorem block_split (caseOf : ε → κ) (rows : List ε) (hc : Contiguous caseOf rows) (c : κ) (hne : ∃ r ∈ rows, caseOf r = c) :
    ∃ pre post, rows = pre ++ caseRows caseOf rows c ++ post ∧ firstIdx caseOf rows c = pre.length ∧
      caseRows caseOf pre c = [] ∧ caseRows caseOf post c = [] := by
  obtain ⟨pre, post, h⟩ := infix_block caseOf rows hc c
  have hlen : (caseRows caseOf (pre ++ caseRows caseOf rows c ++ post) c).length = (caseRows caseOf rows c).length := by
    rw [h]
  rw [caseRows_append, caseRows_append, caseRows_idem, List.length_append, List.length_append] at hlen
  have h1 : caseRows caseOf pre c = [] := List.length_eq_zero_iff.1 (by omega)
  have h2 : caseRows caseOf post c = [] := List.length_eq_zero_iff.1 (by omega)
  refine ⟨pre, post, h.symm, ?_, h1, h2⟩
  obtain ⟨r, hr, hrc⟩ := hne
  cases hb : caseRows caseOf rows c with
  | nil => rw [← hrc] at hb; exact absurd hb (caseRows_ne_nil hr)
  | cons x b =>
    unfold firstIdx
    have hx : caseOf x = c := (mem_caseRows.1 (by rw [hb]; simp : x ∈ caseRows caseOf rows c)).2
    rw [← h, hb, List.append_assoc, List.cons_append]
    refine findIdx_pre _ _ _ _ (fun y hy => ?_) (by simpa using hx)
    have := h1
    unfold caseRows at this
    rw [List.filter_eq_nil_iff] at this
    simpa using this y hy

theorem blockOf_eq (caseOf : ε → κ) (rows : List ε) (hc : Contiguous caseOf rows) (c : κ) (hne : ∃ r ∈ rows, caseOf r = c) :
    blockOf caseOf rows c = caseRows caseOf rows c := by
  obtain ⟨pre, post, h, hi, _, _⟩ := block_split caseOf rows hc c hne
  unfold blockOf
  rw [hi]
  generalize caseRows caseOf rows c = b at h
  rw [h, List.append_assoc, List.drop_left, List.take_left]

/-- The rows of a case with their labels. -/
def labelled (caseOf : ε → κ) (rows : List ε) (res : List (Option (κ × Nat))) (c : κ) : List (ε × Option (κ × Nat)) :=
  (rows.zip res).filter fun x => decide (caseOf x.1 = c)

theorem labelled_none (caseOf : ε → κ) (l : List ε) (res : List (Option (κ × Nat))) (c : κ)
    (h : ∀ y ∈ l, caseOf y ≠ c) : labelled caseOf l res c = [] := by
  unfold labelled
  rw [List.filter_eq_nil_iff]
  rintro ⟨e, i⟩ hm
  have := h e (List.of_mem_zip hm).1
  simpa using this

theorem labelled_all (caseOf : ε → κ) (l : List ε) (res : List (Option (κ × Nat))) (c : κ)
    (h : ∀ y ∈ l, caseOf y = c) : labelled caseOf l res c = l.zip res := by
  unfold labelled
  rw [List.filter_eq_self]
  rintro ⟨e, i⟩ hm
  have := h e (List.of_mem_zip hm).1
  simpa using this

/-- Writing the labels of a case. -/
theorem write_case (caseOf : ε → κ) (rows : List ε) (hc : Contiguous caseOf rows) (c : κ)
    (hne : ∃ r ∈ rows, caseOf r = c) (res : List (Option (κ × Nat))) (hres : res.length = rows.length)
    (lab : List (Option (κ × Nat))) (hlab : lab.length = (caseRows caseOf rows c).length) :
    (res.take (firstIdx caseOf rows c) ++ lab ++
      res.drop (firstIdx caseOf rows c + (caseRows caseOf rows c).length)).length = rows.length ∧
    labelled caseOf rows (res.take (firstIdx caseOf rows c) ++ lab ++
      res.drop (firstIdx caseOf rows c + (caseRows caseOf rows c).length)) c = (caseRows caseOf rows c).zip lab ∧
    ∀ d, d ≠ c → labelled caseOf rows (res.take (firstIdx caseOf rows c) ++ lab ++
      res.drop (firstIdx caseOf rows c + (caseRows caseOf rows c).length)) d = labelled caseOf rows res d := by
  obtain ⟨pre, post, h, hi, h1, h2⟩ := block_split caseOf rows hc c hne
  have hall : ∀ y ∈ caseRows caseOf rows c, caseOf y = c := fun y hy => (mem_caseRows.1 hy).2
  generalize caseRows caseOf rows c = b at h hlab hall ⊢
  rw [hi]
  clear hi
  have hn : ∀ (l : List ε), caseRows caseOf l c = [] → ∀ y ∈ l, caseOf y ≠ c := by
    intro l hl y hy hyc
    have : y ∈ caseRows caseOf l c := mem_caseRows.2 ⟨hy, hyc⟩
    rw [hl] at this; simp at this
  have hsplit : ∃ r1 r2 r3 : List (Option (κ × Nat)), res = r1 ++ r2 ++ r3 ∧ r1.length = pre.length ∧
      r2.length = b.length ∧ r3.length = post.length := by
    rw [h] at hres
    simp only [List.length_append] at hres
    refine ⟨res.take pre.length, (res.drop pre.length).take b.length, res.drop (pre.length + b.length), ?_, ?_, ?_, ?_⟩
    · rw [List.append_assoc, ← List.drop_drop, List.take_append_drop, List.take_append_drop]
    · simp; omega
    · simp; omega
    · simp; omega
  obtain ⟨r1, r2, r3, hr, l1, l2, l3⟩ := hsplit
  have e1 : res.take pre.length = r1 := by rw [hr, List.append_assoc, List.take_left' l1]
  have e2 : res.drop (pre.length + b.length) = r3 := by
    rw [hr, List.drop_left']; simp [l1, l2]
  rw [e1, e2]
  have hlbl : ∀ (x : List (Option (κ × Nat))) d, x.length = b.length →
      labelled caseOf rows (r1 ++ x ++ r3) d =
        labelled caseOf pre r1 d ++ labelled caseOf b x d ++ labelled caseOf post r3 d := by
    intro x d hx
    rw [h]
    unfold labelled
    rw [List.zip_append (by simp [l1, hx]), List.zip_append l1.symm, List.filter_append, List.filter_append]
  refine ⟨?_, ?_, ?_⟩
  · rw [h]; simp [l1, hlab, l3]
  · rw [hlbl lab c hlab, labelled_none caseOf pre r1 c (hn pre h1), labelled_none caseOf post r3 c (hn post h2),
      labelled_all caseOf b lab c hall]
    simp
  · intro d hd
    rw [hlbl lab d hlab, hr, hlbl r2 d l2, labelled_none caseOf b lab d (fun y hy => by rw [hall y hy]; exact Ne.symm hd),
      labelled_none caseOf b r2 d (fun y hy => by rw [hall y hy]; exact Ne.symm hd)]

theorem blockLabels_length (p q : ε → Bool) (t : List ε) : (blockLabels p q false t).length = t.length := by
  obtain ⟨segs, hs⟩ := segments_total p q t.length t (by omega)
  obtain ⟨lab, h1, h2, _⟩ := label_run p q hs [] 0
  unfold blockLabels
  rw [h1]; simpa using h2

/-- The rows of `out` in a new case. -/
def newCase (out : List (ε × κ × Nat)) (c : κ) (k : Nat) : List ε :=
  (out.filter fun x => decide (x.2 = (c, k))).map Prod.fst

/-- **C42.** The between filter on dataframes, for different activities: with the rows of each case contiguous, the new
case number `k` of a case consists of the rows of its `k`-th subtrace from a start row to the next end row — as the event
log filter returns them (C41) —, and there are no other new cases. -/
theorem _root_.Verif.C42_between (caseOf : ε → κ) (p q : ε → Bool) (ids : List κ) (rows : List ε)
    (hc : Contiguous caseOf rows) (hids : ids.Nodup) (hmem : ∀ c, c ∈ ids ↔ ∃ r ∈ rows, caseOf r = c) (c : κ)
    (segs : List (List ε)) (hs : Segments p q (caseRows caseOf rows c) segs) (k : Nat) :
    newCase (betweenDf caseOf p q false ids rows) c k = segs[k]?.getD [] := by
  let lbl : κ → List (Option (κ × Nat)) := fun c =>
    (blockLabels p q false (caseRows caseOf rows c)).map fun k => k.map fun k => (c, k)
  let write : List (Option (κ × Nat)) → κ → List (Option (κ × Nat)) := fun res c =>
    res.take (firstIdx caseOf rows c) ++
      (blockLabels p q false (blockOf caseOf rows c)).map (fun k => k.map fun k => (c, k)) ++
      res.drop (firstIdx caseOf rows c + (caseRows caseOf rows c).length)
  have key : ∀ (ds : List κ) (res : List (Option (κ × Nat))), ds.Nodup → (∀ d ∈ ds, ∃ r ∈ rows, caseOf r = d) →
      res.length = rows.length →
      (ds.foldl write res).length = rows.length ∧
      (∀ d ∈ ds, labelled caseOf rows (ds.foldl write res) d = (caseRows caseOf rows d).zip (lbl d)) ∧
      ∀ d, d ∉ ds → labelled caseOf rows (ds.foldl write res) d = labelled caseOf rows res d := by
    intro ds
    induction ds with
    | nil => intro res _ _ h; exact ⟨h, by simp, fun _ _ => rfl⟩
    | cons d ds ih =>
      intro res hnd hm hres
      rw [List.nodup_cons] at hnd
      have hw := write_case caseOf rows hc d (hm d (by simp)) res hres (lbl d) (by
        simp only [lbl, List.length_map]; exact blockLabels_length p q _)
      have hwr : write res d = res.take (firstIdx caseOf rows d) ++ lbl d ++
          res.drop (firstIdx caseOf rows d + (caseRows caseOf rows d).length) := by
        simp only [write, lbl]; rw [blockOf_eq caseOf rows hc d (hm d (by simp))]
      rw [← hwr] at hw
      obtain ⟨i1, i2, i3⟩ := ih (write res d) hnd.2 (fun x hx => hm x (by simp [hx])) hw.1
      rw [List.foldl_cons]
      refine ⟨i1, fun x hx => ?_, fun x hx => ?_⟩
      · rcases List.mem_cons.1 hx with rfl | hx
        · rw [i3 x hnd.1]; exact hw.2.1
        · exact i2 x hx
      · simp only [List.mem_cons, not_or] at hx
        rw [i3 x hx.2]; exact hw.2.2 x hx.1
  obtain ⟨k1, k2, k3⟩ := key ids (List.replicate rows.length none) hids (fun d hd => (hmem d).1 hd) (by simp)
  -- labels of a row belong to its own case
  have hown : ∀ x ∈ rows.zip (ids.foldl write (List.replicate rows.length none)), ∀ d k, x.2 = some (d, k) →
      caseOf x.1 = d := by
    intro x hx d k hl
    have hx1 : x.1 ∈ rows := (List.of_mem_zip (a := x.1) (b := x.2) hx).1
    have hxl : x ∈ labelled caseOf rows (ids.foldl write (List.replicate rows.length none)) (caseOf x.1) :=
      List.mem_filter.2 ⟨hx, by simp⟩
    rw [k2 _ ((hmem _).2 ⟨x.1, hx1, rfl⟩)] at hxl
    have := (List.of_mem_zip (a := x.1) (b := x.2) hxl).2
    rw [hl] at this
    simp only [lbl, List.mem_map] at this
    obtain ⟨o, _, ho⟩ := this
    cases o with
    | none => simp at ho
    | some o => simp at ho; exact ho.1
  have e1 : newCase (betweenDf caseOf p q false ids rows) c k =
      withLabel (c, k) (labelled caseOf rows (ids.foldl write (List.replicate rows.length none)) c) := by
    show newCase ((rows.zip (ids.foldl write (List.replicate rows.length none))).filterMap
      fun (r, l) => l.map fun l => (r, l)) c k = _
    generalize ids.foldl write (List.replicate rows.length none) = res at hown
    unfold newCase withLabel labelled
    generalize rows.zip res = z at hown
    induction z with
    | nil => rfl
    | cons x z ih =>
      obtain ⟨e, l⟩ := x
      have ih := ih fun x hx => hown x (by simp [hx])
      cases l with
      | none =>
        rw [List.filterMap_cons_none (by rfl), ih]
        by_cases h : caseOf e = c <;> simp [h]
      | some l =>
        have ho := hown (e, some l) (by simp) l.1 l.2 rfl
        rw [List.filterMap_cons_some (b := (e, l)) (by rfl)]
        by_cases h : l = (c, k)
        · subst h
          simp only at ho
          simp only [List.filter_cons, ho, decide_true, if_true, List.map_cons, ih]
        · by_cases h' : caseOf e = c
          · simp [h, h', ih, List.filter_cons]
          · simp [h, h', ih, List.filter_cons]
  rw [e1]
  by_cases hcm : c ∈ ids
  · rw [k2 c hcm]
    obtain ⟨lab, h1, h2, h3⟩ := label_run p q hs [] 0
    have hb : blockLabels p q false (caseRows caseOf rows c) = lab := by
      unfold blockLabels; rw [h1]; simp
    simp only [lbl, hb]
    have h3 := h3 k
    simp only [Nat.not_lt_zero, if_false, Nat.sub_zero] at h3
    rw [← h3]
    unfold withLabel
    rw [List.zip_map_right, List.filter_map, List.map_map]
    congr 1
    apply List.filter_congr
    rintro ⟨e, l⟩ _
    cases l <;> simp
  · have hemp : caseRows caseOf rows c = [] := by
      unfold caseRows
      rw [List.filter_eq_nil_iff]
      intro r hr
      simp only [decide_eq_true_eq]
      exact fun h => hcm ((hmem c).2 ⟨r, hr, h⟩)
    rw [labelled_none caseOf rows _ c (fun y hy h => hcm ((hmem c).2 ⟨y, hy, h⟩))]
    rw [hemp] at hs
    have : segs = [] := by
      have := segments_det p q hs (Segments.none [] (by simp))
      exact this
    subst this
    simp [withLabel]

/-- **C42, refuted.** For one and the same activity the dataframe filter does not return the laps that the event log filter
returns (`C41_between_same`): the row that ends a lap is given to the next lap only.  The laps of ⟨A, B, A, C, A⟩ are
⟨A, B, A⟩ and ⟨A, C, A⟩; the new case 0 is ⟨A, B⟩. -/
theorem _root_.Verif.C42_between_same_refuted :
    ¬ ∀ (rows : List (Nat × String)) (a : String) (c : Nat) (segs : List (List (Nat × String))) (k : Nat),
      Contiguous Prod.fst rows → Laps (fun e => decide (e.2 = a)) (caseRows Prod.fst rows c) segs →
      newCase (betweenDf Prod.fst (fun e => decide (e.2 = a)) (fun e => decide (e.2 = a)) true (caseIds Prod.fst rows) rows)
        c k = segs[k]?.getD [] := by
  intro h
  have := h [(1, "A"), (1, "B"), (1, "A"), (1, "C"), (1, "A")] "A" 1 [[(1, "A"), (1, "B"), (1, "A")], [(1, "A"), (1, "C"), (1, "A")]] 0
    (by
      intro x m y hi _ z hz
      have h1 := hi.subset (show x ∈ x :: m ++ [y] by simp)
      have h2 := hi.subset (show z ∈ x :: m ++ [y] by simp [hz])
      simp at h1 h2
      rcases h1 with rfl | rfl | rfl | rfl | rfl <;> rcases h2 with rfl | rfl | rfl | rfl | rfl <;> rfl)
    (Laps.lap [] (1, "A") [(1, "B")] (1, "A") [(1, "C"), (1, "A")] [[(1, "A"), (1, "C"), (1, "A")]] (by simp) rfl
      (by decide) rfl
      (Laps.lap [] (1, "A") [(1, "C")] (1, "A") [] [] (by simp) rfl (by decide) rfl
        (Laps.last [] (1, "A") [] (by simp) rfl (by simp))))
  revert this
  decide

theorem splitLabels_length (q : ε → Bool) (this : Bool) (t : List ε) : ∀ k, (splitLabels q this k t).length = t.length := by
  induction t with
  | nil => intro k; rfl
  | cons e t ih => intro k; unfold splitLabels; split <;> simp [ih]

theorem splitLabels_get (q : ε → Bool) (this : Bool) (t : List ε) : ∀ k i, i < t.length →
    (splitLabels q this k t)[i]? = some (k + ((t.take (if this then i + 1 else i)).filter q).length) := by
  induction t with
  | nil => intro k i h; simp at h
  | cons e t ih =>
    intro k i h
    unfold splitLabels
    cases i with
    | zero =>
      cases hq : q e <;> cases this <;> simp [hq]
    | succ i =>
      have hi : i < t.length := by simpa using h
      cases hq : q e
      · simp only [Bool.false_eq_true, if_false, List.getElem?_cons_succ]
        rw [ih k i hi]
        cases this <;> simp [hq]
      · simp only [if_true, List.getElem?_cons_succ]
        rw [ih (k + 1) i hi]
        cases this <;> simp [hq] <;> omega

/-- **C42.** `activity_split_filter`, on a dataframe whose cases are contiguous and in the order in which `np.unique` lists
them: every row is kept, in order, and the i-th row of a case is moved to the new case made of its own case and the number
of the rows with the activity among the first `i` rows of the case — including the row itself when the cut mode is "this". -/
theorem _root_.Verif.C42_activity_split (caseOf : ε → κ) (q : ε → Bool) (this : Bool) (ids : List κ) (rows : List ε)
    (hc : Contiguous caseOf rows) (hids : ids.flatMap (caseRows caseOf rows) = rows) (hnd : ids.Nodup)
    (hmem : ∀ c ∈ ids, ∃ r ∈ rows, caseOf r = c) :
    (splitDf caseOf q this ids rows).map Prod.fst = rows ∧
    ∀ (c : κ) (i : Nat) (r : ε), (caseRows caseOf rows c)[i]? = some r →
      ((splitDf caseOf q this ids rows).filter fun x => decide (caseOf x.1 = c))[i]? =
        some (r, c, (((caseRows caseOf rows c).take (if this then i + 1 else i)).filter q).length) := by
  have e1 : (ids.flatMap fun c => (splitLabels q this 0 (blockOf caseOf rows c)).map fun k => (c, k)) =
      ids.flatMap fun c => (splitLabels q this 0 (caseRows caseOf rows c)).map fun k => (c, k) := by
    apply flatMap_congr'
    intro c hcm
    rw [blockOf_eq caseOf rows hc c (hmem c hcm)]
  have hzip : ∀ ds : List κ, (ds.flatMap (caseRows caseOf rows)).zip
      (ds.flatMap fun c => (splitLabels q this 0 (caseRows caseOf rows c)).map fun k => (c, k)) =
      ds.flatMap fun c => (caseRows caseOf rows c).zip ((splitLabels q this 0 (caseRows caseOf rows c)).map fun k => (c, k)) := by
    intro ds
    induction ds with
    | nil => rfl
    | cons d ds ih =>
      rw [List.flatMap_cons, List.flatMap_cons, List.flatMap_cons, List.zip_append (by simp [splitLabels_length]), ih]
  have e2 : splitDf caseOf q this ids rows = ids.flatMap fun c => (caseRows caseOf rows c).zip
      ((splitLabels q this 0 (caseRows caseOf rows c)).map fun k => (c, k)) := by
    unfold splitDf
    rw [e1, ← hzip, hids]
  have hpart : ∀ (ds : List κ) (c : κ), ds.Nodup → (ds.flatMap fun c => (caseRows caseOf rows c).zip
      ((splitLabels q this 0 (caseRows caseOf rows c)).map fun k => (c, k))).filter (fun x => decide (caseOf x.1 = c)) =
      if c ∈ ds then (caseRows caseOf rows c).zip ((splitLabels q this 0 (caseRows caseOf rows c)).map fun k => (c, k))
      else [] := by
    intro ds c
    induction ds with
    | nil => intro _; rfl
    | cons d ds ih =>
      intro hnd
      rw [List.nodup_cons] at hnd
      rw [List.flatMap_cons, List.filter_append, ih hnd.2]
      by_cases hdc : d = c
      · subst hdc
        rw [if_neg hnd.1, if_pos (by simp), List.append_nil, List.filter_eq_self]
        rintro ⟨e, l⟩ hm
        simpa using (mem_caseRows.1 (List.of_mem_zip hm).1).2
      · have : ((caseRows caseOf rows d).zip ((splitLabels q this 0 (caseRows caseOf rows d)).map fun k => (d, k))).filter
            (fun x => decide (caseOf x.1 = c)) = [] := by
          rw [List.filter_eq_nil_iff]
          rintro ⟨e, l⟩ hm
          have := (mem_caseRows.1 (List.of_mem_zip hm).1).2
          simp [this, hdc]
        rw [this]
        have : (c ∈ d :: ds) ↔ c ∈ ds := by
          simp only [List.mem_cons, or_iff_right_iff_imp]
          exact fun h => absurd h.symm hdc
        simp [this]
  constructor
  · have hl : ∀ ds : List κ, (ds.flatMap fun c => (splitLabels q this 0 (caseRows caseOf rows c)).map fun k => (c, k)).length =
        (ds.flatMap (caseRows caseOf rows)).length := by
      intro ds
      induction ds with
      | nil => rfl
      | cons d ds ih => simp only [List.flatMap_cons, List.length_append, ih, List.length_map, splitLabels_length]
    unfold splitDf
    rw [e1, List.map_fst_zip]
    rw [hl, hids]
    exact Nat.le_refl _
  · intro c i r hr
    have hrm := List.mem_of_getElem? hr
    have hcm : c ∈ ids := by
      have h1 : r ∈ ids.flatMap (caseRows caseOf rows) := by rw [hids]; exact (mem_caseRows.1 hrm).1
      obtain ⟨d, hd, hrd⟩ := List.mem_flatMap.1 h1
      rw [← (mem_caseRows.1 hrm).2, (mem_caseRows.1 hrd).2]; exact hd
    rw [e2, hpart ids c hnd, if_pos hcm]
    have hi := (List.getElem?_eq_some_iff.1 hr).1
    have hl := splitLabels_get q this (caseRows caseOf rows c) 0 i hi
    rw [List.getElem?_zip_eq_some]
    refine ⟨hr, ?_⟩
    rw [List.getElem?_map, hl]
    simp

/-- **C42, refuted.** When the cases of the dataframe are not in that order, rows are moved to the new cases of *other*
cases: the split of a dataframe with a row of case 2 followed by a row of case 1 exchanges the two cases. -/
theorem _root_.Verif.C42_activity_split_order_refuted :
    ¬ ∀ (rows : List (Nat × String)) (ids : List Nat) (a : String), Contiguous Prod.fst rows →
      ids.Pairwise (· < ·) → (∀ c, c ∈ ids ↔ ∃ r ∈ rows, r.1 = c) →
      ∀ x ∈ splitDf Prod.fst (fun r => decide (r.2 = a)) true ids rows, x.2.1 = x.1.1 := by
  intro h
  have := h [(2, "B"), (1, "C")] [1, 2] "A" (by
    intro x m y hi _ z hz
    have := hi.length_le
    simp at this
    cases m with
    | nil => simp at hz
    | cons _ _ => simp at this) (by simp) (by
    intro c
    constructor
    · intro hc
      simp at hc
      rcases hc with rfl | rfl
      · exact ⟨(1, "C"), by simp, rfl⟩
      · exact ⟨(2, "B"), by simp, rfl⟩
    · rintro ⟨r, hr, rfl⟩
      simp at hr
      rcases hr with rfl | rfl <;> simp) ((2, "B"), (1, 0)) (by decide)
  simp at this

end Verif.TraceFilter
