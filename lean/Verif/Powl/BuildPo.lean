import Verif.Powl.Build
import Verif.Powl.Order
/-
The net built for a partial order node (C48).
-/
set_option linter.unusedSectionVars false
set_option linter.unusedSimpArgs false
namespace Verif
namespace PowlNet
open Conv Sys Lang
variable {α : Type}

/-! ### the control places -/

/-- the places between two children -/
def edgeC (red : BinRel.Edges) : List (Nat × Nat) → Nat → List Ctl
  | [], _ => []
  | (i, j) :: l, np => if red i j then ⟨np, some i, some j⟩ :: edgeC red l (np + 1) else edgeC red l np

theorem edges_eq (red : BinRel.Edges) (ifs : List (Nat × Nat)) : ∀ (l : List (Nat × Nat)) (np : Nat),
    (edges red ifs l np : Gr α × Nat) = (⟨(edgeC red l np).map Ctl.p, [], (edgeC red l np).map fun c => (c.p, (ifs.getD (c.dst.getD 0) (0, 0)).1),
      (edgeC red l np).map fun c => ((ifs.getD (c.src.getD 0) (0, 0)).2, c.p)⟩, np + (edgeC red l np).length)
  | [], np => by simp [edges, edgeC]
  | (i, j) :: l, np => by
    rw [edges, edgeC]
    split
    · rw [edges_eq red ifs l (np + 1)]
      simp [Gr.append_def]; omega
    · exact edges_eq red ifs l np

theorem edgeC_p (red : BinRel.Edges) : ∀ (l : List (Nat × Nat)) (np : Nat), (edgeC red l np).map Ctl.p = List.range' np (edgeC red l np).length
  | [], np => by simp [edgeC]
  | (i, j) :: l, np => by
    rw [edgeC]
    split
    · simp [edgeC_p red l (np + 1), List.range'_succ]
    · exact edgeC_p red l np

theorem edgeC_src (red : BinRel.Edges) : ∀ (l : List (Nat × Nat)) (np : Nat) (a b : Option Nat),
    (∃ c ∈ edgeC red l np, c.src = a ∧ c.dst = b) ↔ ∃ i j, (i, j) ∈ l ∧ red i j = true ∧ a = some i ∧ b = some j
  | [], np, a, b => by simp [edgeC]
  | (i, j) :: l, np, a, b => by
    rw [edgeC]
    split
    · rename_i h
      have := edgeC_src red l (np + 1) a b
      constructor
      · rintro ⟨c, hc, h1, h2⟩
        rcases List.mem_cons.1 hc with rfl | hc
        · exact ⟨i, j, by simp, h, h1.symm, h2.symm⟩
        · obtain ⟨i', j', m, r⟩ := this.1 ⟨c, hc, h1, h2⟩
          exact ⟨i', j', by simp [m], r⟩
      · rintro ⟨i', j', m, r1, r2, r3⟩
        rcases List.mem_cons.1 m with m | m
        · cases m; exact ⟨_, List.mem_cons_self, r2.symm, r3.symm⟩
        · obtain ⟨c, hc, h⟩ := this.2 ⟨i', j', m, r1, r2, r3⟩
          exact ⟨c, List.mem_cons_of_mem _ hc, h⟩
    · rename_i h
      rw [edgeC_src red l np a b]
      constructor
      · rintro ⟨i', j', m, r⟩; exact ⟨i', j', by simp [m], r⟩
      · rintro ⟨i', j', m, r1, r2⟩
        rcases List.mem_cons.1 m with m | m
        · cases m; exact absurd r1 h
        · exact ⟨i', j', m, r1, r2⟩

/-- the places after the split -/
def startC : List (Desc α) → Nat → List Ctl
  | [], _ => []
  | d :: ds, k => (d.sI.toList.map fun p => ⟨p, none, some k⟩) ++ startC ds (k + 1)

/-- the places before the join -/
def endC : List (Desc α) → Nat → List Ctl
  | [], _ => []
  | d :: ds, k => (d.eF.toList.map fun p => ⟨p, some k, none⟩) ++ endC ds (k + 1)

theorem startC_p : ∀ (ds : List (Desc α)) (k : Nat), (startC ds k).map Ctl.p = ds.filterMap Desc.sI
  | [], _ => rfl
  | d :: ds, k => by
    rw [startC, List.map_append, startC_p ds (k + 1)]
    cases h : d.sI <;> simp [List.filterMap_cons, h]

theorem endC_p : ∀ (ds : List (Desc α)) (k : Nat), (endC ds k).map Ctl.p = ds.filterMap Desc.eF
  | [], _ => rfl
  | d :: ds, k => by
    rw [endC, List.map_append, endC_p ds (k + 1)]
    cases h : d.eF <;> simp [List.filterMap_cons, h]

theorem mem_startC {c : Ctl} : ∀ (ds : List (Desc α)) (k : Nat), c ∈ startC ds k ↔
    ∃ j d, ds[j]? = some d ∧ d.sI = some c.p ∧ c.src = none ∧ c.dst = some (k + j)
  | [], k => by simp [startC]
  | d :: ds, k => by
    rw [startC, List.mem_append, mem_startC ds (k + 1)]
    constructor
    · rintro (h | ⟨j, d', h1, h2, h3, h4⟩)
      · cases hd : d.sI with
        | none => simp [hd] at h
        | some p => simp [hd] at h; subst h; exact ⟨0, d, by simp, by simp [hd], rfl, rfl⟩
      · exact ⟨j + 1, d', by simpa using h1, h2, h3, by rw [h4]; congr 1; omega⟩
    · rintro ⟨j, d', h1, h2, h3, h4⟩
      cases j with
      | zero =>
        simp at h1; subst h1
        left; rw [h2]
        obtain ⟨p, s, t⟩ := c
        simp at h3 h4 ⊢
        exact ⟨h3, h4⟩
      | succ j => exact .inr ⟨j, d', by simpa using h1, h2, h3, by rw [h4]; congr 1; omega⟩

theorem mem_endC {c : Ctl} : ∀ (ds : List (Desc α)) (k : Nat), c ∈ endC ds k ↔
    ∃ j d, ds[j]? = some d ∧ d.eF = some c.p ∧ c.dst = none ∧ c.src = some (k + j)
  | [], k => by simp [endC]
  | d :: ds, k => by
    rw [endC, List.mem_append, mem_endC ds (k + 1)]
    constructor
    · rintro (h | ⟨j, d', h1, h2, h3, h4⟩)
      · cases hd : d.eF with
        | none => simp [hd] at h
        | some p => simp [hd] at h; subst h; exact ⟨0, d, by simp, by simp [hd], rfl, rfl⟩
      · exact ⟨j + 1, d', by simpa using h1, h2, h3, by rw [h4]; congr 1; omega⟩
    · rintro ⟨j, d', h1, h2, h3, h4⟩
      cases j with
      | zero =>
        simp at h1; subst h1
        left; rw [h2]
        obtain ⟨p, s, t⟩ := c
        simp at h3 h4 ⊢
        exact ⟨h4, h3⟩
      | succ j => exact .inr ⟨j, d', by simpa using h1, h2, h3, by rw [h4]; congr 1; omega⟩

theorem startC_in : ∀ (ds : List (Desc α)) (k j : Nat) (d : Desc α), ds[j]? = some d → ctlIn (startC ds k) (some (k + j)) = d.sI.toList
  | [], k, j, d, h => by simp at h
  | d' :: ds, k, j, d, h => by
    rw [startC, ctlIn, List.filter_append, List.map_append]
    cases j with
    | zero =>
      simp at h; subst h
      have : (startC ds (k + 1)).filter (fun c => decide (c.dst = some (k + 0))) = [] := by
        rw [List.filter_eq_nil_iff]
        intro c hc
        obtain ⟨j, d, _, _, _, e⟩ := (mem_startC ds (k + 1)).1 hc
        rw [e]; simp; omega
      rw [this]
      cases h : d'.sI <;> simp
    | succ j =>
      have ih := startC_in ds (k + 1) j d (by simpa using h)
      rw [show k + (j + 1) = k + 1 + j by omega]
      rw [ctlIn] at ih
      rw [ih]
      have : k ≠ k + 1 + j := by omega
      cases h : d'.sI <;> simp [this]

theorem endC_out : ∀ (ds : List (Desc α)) (k j : Nat) (d : Desc α), ds[j]? = some d → ctlOut (endC ds k) (some (k + j)) = d.eF.toList
  | [], k, j, d, h => by simp at h
  | d' :: ds, k, j, d, h => by
    rw [endC, ctlOut, List.filter_append, List.map_append]
    cases j with
    | zero =>
      simp at h; subst h
      have : (endC ds (k + 1)).filter (fun c => decide (c.src = some (k + 0))) = [] := by
        rw [List.filter_eq_nil_iff]
        intro c hc
        obtain ⟨j, d, _, _, _, e⟩ := (mem_endC ds (k + 1)).1 hc
        rw [e]; simp; omega
      rw [this]
      cases h : d'.eF <;> simp
    | succ j =>
      have ih := endC_out ds (k + 1) j d (by simpa using h)
      rw [show k + (j + 1) = k + 1 + j by omega]
      rw [ctlOut] at ih
      rw [ih]
      have : k ≠ k + 1 + j := by omega
      cases h : d'.eF <;> simp [this]

/-! ### the intervals -/

/-- `d` is before `d'` in the numbering -/
def Sep (d d' : Desc α) : Prop := ∃ c1 c2 c3 c4, d.OK c1 c2 ∧ d'.OK c3 c4 ∧ c2.nt ≤ c3.nt ∧ c2.np ≤ c3.np

theorem Chain.pairwise {ds : List (Desc α)} {c c' : Cnt} (h : Chain ds c c') : ds.Pairwise Sep := by
  induction h with
  | nil => exact .nil
  | @cons d0 ds0 c0 c1 c2 hok hch ih =>
    refine .cons ?_ ih
    intro d hd
    obtain ⟨a, b, h1, h2, _, h4, _⟩ := hch.mem hd
    exact ⟨_, _, _, _, hok, h1, h2, h4⟩

theorem Chain.cover {ds : List (Desc α)} {c c' : Cnt} (h : Chain ds c c') {p : Nat} (h1 : c.np ≤ p) (h2 : p < c'.np) :
    ∃ (j : Nat) (d : Desc α), ds[j]? = some d ∧ (d.sI = some p ∨ d.eF = some p ∨ d.kid.Rng p) := by
  induction h with
  | nil => omega
  | @cons d0 ds0 c0 c1 c2 hok hch ih =>
    by_cases hp : p < c1.np
    · refine ⟨0, d0, by simp, ?_⟩
      by_cases hq : p < d0.kid.ip
      · rcases hok.cov p h1 hq with h | h
        · exact .inl h
        · exact .inr (.inl h)
      · right; right
        have := hok.fp; have := hok.lo; have := hok.hi
        unfold PKid.Rng Inner; omega
    · obtain ⟨j, d, hj, h⟩ := ih (by omega) h2
      exact ⟨j + 1, d, by simpa using hj, h⟩

theorem Desc.OK.rng {d : Desc α} {c c' : Cnt} (h : d.OK c c') {p : Nat} (hp : d.kid.Rng p) : d.kid.ip ≤ p ∧ p < c'.np := by
  have := h.fp; have := h.lo; have := h.hi; have := h.block.le
  unfold PKid.Rng Inner at hp; omega

theorem Desc.OK.place {d : Desc α} {c c' : Cnt} (h : d.OK c c') {p : Nat} (hp : d.sI = some p ∨ d.eF = some p) : c.np ≤ p ∧ p < d.kid.ip := by
  rcases hp with hp | hp
  · have := h.sI p hp; omega
  · have := h.eF p hp; omega

theorem Desc.OK.np {d : Desc α} {c c' : Cnt} (h : d.OK c c') : c.np ≤ d.kid.ip ∧ d.kid.ip < c'.np := by
  have := h.fp; have := h.lo; have := h.hi; have := h.block.le; have := h.ip
  omega

theorem sep_of_lt {ds : List (Desc α)} (hp : ds.Pairwise Sep) {i j : Nat} {d d' : Desc α} (h1 : ds[i]? = some d) (h2 : ds[j]? = some d')
    (h : i < j) : Sep d d' := by
  obtain ⟨hi, e1⟩ := List.getElem?_eq_some_iff.1 h1
  obtain ⟨hj, e2⟩ := List.getElem?_eq_some_iff.1 h2
  have := List.pairwise_iff_getElem.1 hp i j hi hj h
  rwa [e1, e2] at this

/-- two children have no place in common -/
theorem disj_places {ds : List (Desc α)} (hp : ds.Pairwise Sep) {i j : Nat} {d d' : Desc α} (h1 : ds[i]? = some d) (h2 : ds[j]? = some d')
    {p : Nat} (hd : d.sI = some p ∨ d.eF = some p ∨ d.kid.Rng p) (hd' : d'.sI = some p ∨ d'.eF = some p ∨ d'.kid.Rng p) : i = j := by
  have key : ∀ {i j : Nat} {d d' : Desc α}, ds[i]? = some d → ds[j]? = some d' → i < j →
      (d.sI = some p ∨ d.eF = some p ∨ d.kid.Rng p) → (d'.sI = some p ∨ d'.eF = some p ∨ d'.kid.Rng p) → False := by
    intro i j d d' h1 h2 h hd hd'
    obtain ⟨c1, c2, c3, c4, o1, o2, _, o4⟩ := sep_of_lt hp h1 h2 h
    have a1 : p < c2.np := by
      have := o1.np
      rcases hd with hd | hd | hd
      · have := o1.place (.inl hd); omega
      · have := o1.place (.inr hd); omega
      · exact (o1.rng hd).2
    have a2 : c3.np ≤ p := by
      have := o2.np
      rcases hd' with hd | hd | hd
      · have := o2.place (.inl hd); omega
      · have := o2.place (.inr hd); omega
      · have := o2.rng hd; omega
    omega
  rcases Nat.lt_trichotomy i j with h | h | h
  · exact (key h1 h2 h hd hd').elim
  · exact h
  · exact (key h2 h1 h hd' hd).elim

/-- two children have no transition in common -/
theorem disj_trans {ds : List (Desc α)} (hp : ds.Pairwise Sep) {i j : Nat} {d d' : Desc α} (h1 : ds[i]? = some d) (h2 : ds[j]? = some d')
    {t : Nat} (hd : t = d.iT ∨ t = d.fT ∨ t ∈ d.inner.map Prod.fst) (hd' : t = d'.iT ∨ t = d'.fT ∨ t ∈ d'.inner.map Prod.fst) : i = j := by
  rcases Nat.lt_trichotomy i j with h | h | h
  · obtain ⟨c1, c2, c3, c4, o1, o2, o3, _⟩ := sep_of_lt hp h1 h2 h
    have := o1.num hd; have := o2.num hd'; omega
  · exact h
  · obtain ⟨c1, c2, c3, c4, o1, o2, o3, _⟩ := sep_of_lt hp h2 h1 h
    have := o1.num hd'; have := o2.num hd; omega

/-! ### the node -/

/-- the block of child `k` -/
def kidOf (ds : List (Desc α)) (k : Nat) : PKid α := ((ds[k]?).map Desc.kid).getD ⟨0, 0, 0, 0, [], fun _ => False⟩

theorem kidOf_eq {ds : List (Desc α)} {k : Nat} {d : Desc α} (h : ds[k]? = some d) : kidOf ds k = d.kid := by
  simp [kidOf, h]

theorem mem_pairs (n i j : Nat) : (i, j) ∈ pairs n ↔ i < n ∧ j < n := BinRel.mem_pairs n i j

/-- all control places of a partial order node -/
def allC (ds : List (Desc α)) (red : BinRel.Edges) (np : Nat) : List Ctl := startC ds 0 ++ (endC ds 0 ++ edgeC red (pairs ds.length) np)

theorem ctlIn_append (C D : List Ctl) (d : Option Nat) : ctlIn (C ++ D) d = ctlIn C d ++ ctlIn D d := by simp [ctlIn]
theorem ctlOut_append (C D : List Ctl) (d : Option Nat) : ctlOut (C ++ D) d = ctlOut C d ++ ctlOut D d := by simp [ctlOut]

theorem ctlIn_nil {C : List Ctl} {d : Option Nat} (h : ∀ c ∈ C, c.dst ≠ d) : ctlIn C d = [] := by
  simp only [ctlIn, List.map_eq_nil_iff, List.filter_eq_nil_iff]
  intro c hc; simpa using h c hc
theorem ctlOut_nil {C : List Ctl} {d : Option Nat} (h : ∀ c ∈ C, c.src ≠ d) : ctlOut C d = [] := by
  simp only [ctlOut, List.map_eq_nil_iff, List.filter_eq_nil_iff]
  intro c hc; simpa using h c hc
theorem ctlIn_all {C : List Ctl} {d : Option Nat} (h : ∀ c ∈ C, c.dst = d) : ctlIn C d = C.map Ctl.p := by
  rw [ctlIn, List.filter_eq_self.2 (by simpa using h)]
theorem ctlOut_all {C : List Ctl} {d : Option Nat} (h : ∀ c ∈ C, c.src = d) : ctlOut C d = C.map Ctl.p := by
  rw [ctlOut, List.filter_eq_self.2 (by simpa using h)]

theorem startC_src {ds : List (Desc α)} {k : Nat} {c : Ctl} (h : c ∈ startC ds k) : c.src = none ∧ c.dst ≠ none := by
  obtain ⟨j, d, _, _, h1, h2⟩ := (mem_startC ds k).1 h
  exact ⟨h1, by simp [h2]⟩
theorem endC_dst {ds : List (Desc α)} {k : Nat} {c : Ctl} (h : c ∈ endC ds k) : c.dst = none ∧ c.src ≠ none := by
  obtain ⟨j, d, _, _, h1, h2⟩ := (mem_endC ds k).1 h
  exact ⟨h1, by simp [h2]⟩
theorem edgeC_mem {red : BinRel.Edges} {l : List (Nat × Nat)} {np : Nat} {c : Ctl} (h : c ∈ edgeC red l np) :
    ∃ i j, (i, j) ∈ l ∧ red i j = true ∧ c.src = some i ∧ c.dst = some j :=
  (edgeC_src red l np c.src c.dst).1 ⟨c, h, rfl, rfl⟩

/-- arcs of the places between the children -/
theorem edges_arcs {ds : List (Desc α)} {c0 c0' : Cnt} (hch : Chain ds c0 c0') (red : BinRel.Edges) (np : Nat) {k : Nat} {d : Desc α} (hk : ds[k]? = some d)
    (e : Gr α) (he : e = (edges red (ds.map fun d => (d.iT, d.fT)) (pairs ds.length) np).1) :
    e.pre d.iT = ctlIn (edgeC red (pairs ds.length) np) (some k) ∧ e.post d.iT = [] ∧
    e.pre d.fT = [] ∧ e.post d.fT = ctlOut (edgeC red (pairs ds.length) np) (some k) ∧
    ∀ x ∈ d.inner, e.pre x.1 = [] ∧ e.post x.1 = [] := by
  have hp := hch.pairwise
  rw [edges_eq] at he
  simp only at he
  have get : ∀ {j : Nat} {d' : Desc α}, ds[j]? = some d' → (ds.map fun d => (d.iT, d.fT)).getD j (0, 0) = (d'.iT, d'.fT) := by
    intro j d' h
    simp [List.getD, h]
  have ex : ∀ c : Ctl, c ∈ edgeC red (pairs ds.length) np → ∃ i j di dj, c.src = some i ∧ c.dst = some j ∧ ds[i]? = some di ∧ ds[j]? = some dj := by
    intro c hc
    obtain ⟨i, j, h1, _, h3, h4⟩ := edgeC_mem hc
    obtain ⟨hi, hj⟩ := (mem_pairs _ _ _).1 h1
    exact ⟨i, j, _, _, h3, h4, List.getElem?_eq_getElem hi, List.getElem?_eq_getElem hj⟩
  obtain ⟨c1, c2, ok, _⟩ := hch.mem (List.mem_of_getElem? hk)
  have o1 := ok.iT; have o2 := ok.fT
  have same : ∀ {j : Nat} {dj : Desc α}, ds[j]? = some dj → j = k → dj = d := by
    intro j dj h e; subst e; rw [hk] at h; cases h; rfl
  -- entries of the arc lists
  have pt : ∀ t, e.pre t = ((edgeC red (pairs ds.length) np).filter fun c => ((ds.map fun d => (d.iT, d.fT)).getD (c.dst.getD 0) (0, 0)).1 == t).map Ctl.p := by
    intro t
    rw [he, Gr.pre_mk, List.filter_map, List.map_map]; rfl
  have tp : ∀ t, e.post t = ((edgeC red (pairs ds.length) np).filter fun c => ((ds.map fun d => (d.iT, d.fT)).getD (c.src.getD 0) (0, 0)).2 == t).map Ctl.p := by
    intro t
    rw [he, Gr.post_mk, List.filter_map, List.map_map]; rfl
  have pt0 : ∀ t, (t = d.fT ∨ t ∈ d.inner.map Prod.fst) → e.pre t = [] := by
    intro t ht
    rw [pt, List.map_eq_nil_iff, List.filter_eq_nil_iff]
    intro c hc h
    obtain ⟨i, j, di, dj, h1, h2, h3, h4⟩ := ex c hc
    rw [h2, Option.getD_some, get h4, beq_iff_eq] at h
    have := disj_trans hp h4 hk (t := t) (.inl h.symm) (.inr ht)
    have := same h4 this; subst this
    rcases ht with ht | ht
    · simp only at h; omega
    · obtain ⟨y, hy, rfl⟩ := List.mem_map.1 ht
      have := ok.inner y hy; simp only at h; omega
  have tp0 : ∀ t, (t = d.iT ∨ t ∈ d.inner.map Prod.fst) → e.post t = [] := by
    intro t ht
    rw [tp, List.map_eq_nil_iff, List.filter_eq_nil_iff]
    intro c hc h
    obtain ⟨i, j, di, dj, h1, h2, h3, h4⟩ := ex c hc
    rw [h1, Option.getD_some, get h3, beq_iff_eq] at h
    have := disj_trans hp h3 hk (t := t) (.inr (.inl h.symm)) (ht.imp id .inr)
    have := same h3 this; subst this
    rcases ht with ht | ht
    · simp only at h; omega
    · obtain ⟨y, hy, rfl⟩ := List.mem_map.1 ht
      have := ok.inner y hy; simp only at h; omega
  refine ⟨?_, tp0 _ (.inl rfl), pt0 _ (.inl rfl), ?_, fun x hx => ⟨pt0 _ (.inr (List.mem_map_of_mem hx)), tp0 _ (.inr (List.mem_map_of_mem hx))⟩⟩
  · rw [pt, ctlIn]
    congr 1
    refine List.filter_congr fun c hc => ?_
    obtain ⟨i, j, di, dj, h1, h2, h3, h4⟩ := ex c hc
    rw [h2, Option.getD_some, get h4, Bool.eq_iff_iff, beq_iff_eq, decide_eq_true_eq]
    constructor
    · intro h; rw [disj_trans hp h4 hk (t := d.iT) (.inl h.symm) (.inl rfl)]
    · intro h; cases h; rw [hk] at h4; cases h4; rfl
  · rw [tp, ctlOut]
    congr 1
    refine List.filter_congr fun c hc => ?_
    obtain ⟨i, j, di, dj, h1, h2, h3, h4⟩ := ex c hc
    rw [h1, Option.getD_some, get h3, Bool.eq_iff_iff, beq_iff_eq, decide_eq_true_eq]
    constructor
    · intro h; rw [disj_trans hp h3 hk (t := d.fT) (.inr (.inl h.symm)) (.inr (.inl rfl))]
    · intro h; cases h; rw [hk] at h3; cases h3; rfl

theorem mem_allC {ds : List (Desc α)} {red : BinRel.Edges} {np : Nat} {c : Ctl} (h : c ∈ allC ds red np) :
    (∃ j d, ds[j]? = some d ∧ d.sI = some c.p ∧ c.src = none ∧ c.dst = some j) ∨
    (∃ j d, ds[j]? = some d ∧ d.eF = some c.p ∧ c.src = some j ∧ c.dst = none) ∨
    (c ∈ edgeC red (pairs ds.length) np ∧ ∃ i j, BinRel.Rel ds.length red i j ∧ c.src = some i ∧ c.dst = some j) := by
  rcases List.mem_append.1 h with h | h
  · obtain ⟨j, d, h1, h2, h3, h4⟩ := (mem_startC ds 0).1 h
    exact .inl ⟨j, d, h1, h2, h3, by simpa using h4⟩
  · rcases List.mem_append.1 h with h | h
    · obtain ⟨j, d, h1, h2, h3, h4⟩ := (mem_endC ds 0).1 h
      exact .inr (.inl ⟨j, d, h1, h2, by simpa using h4, h3⟩)
    · obtain ⟨i, j, h1, h2, h3, h4⟩ := edgeC_mem h
      have := (mem_pairs _ _ _).1 h1
      exact .inr (.inr ⟨h, i, j, ⟨this.1, this.2, h2⟩, h3, h4⟩)

theorem edge_allC {ds : List (Desc α)} {red : BinRel.Edges} {np i j : Nat} :
    Edge (allC ds red np) i j ↔ BinRel.Rel ds.length red i j := by
  constructor
  · rintro ⟨c, hc, h1, h2⟩
    rcases mem_allC hc with ⟨_, _, _, _, h, _⟩ | ⟨_, _, _, _, _, h⟩ | ⟨_, a, b, h, h3, h4⟩
    · rw [h] at h1; cases h1
    · rw [h] at h2; cases h2
    · rw [h3] at h1; rw [h4] at h2; cases h1; cases h2; exact h
  · rintro ⟨h1, h2, h3⟩
    obtain ⟨c, hc, h⟩ := (edgeC_src red (pairs ds.length) np (some i) (some j)).2 ⟨i, j, (mem_pairs _ _ _).2 ⟨h1, h2⟩, h3, rfl, rfl⟩
    exact ⟨c, List.mem_append_right _ (List.mem_append_right _ hc), h⟩

theorem nodup_allC {ds : List (Desc α)} {c c' : Cnt} (hch : Chain ds c c') (red : BinRel.Edges) : ((allC ds red c'.np).map Ctl.p).Nodup := by
  have hp := hch.pairwise
  rw [allC, List.map_append, List.map_append, startC_p, endC_p, edgeC_p]
  have lt : ∀ d ∈ ds, ∀ p, (d.sI = some p ∨ d.eF = some p) → p < c'.np := by
    intro d hd p h
    obtain ⟨c1, c2, ok, _, _, _, h5⟩ := hch.mem hd
    have := ok.place h; have := ok.np; omega
  have sepne : ∀ d d' : Desc α, Sep d d' → ∀ p q, (d.sI = some p ∨ d.eF = some p) → (d'.sI = some q ∨ d'.eF = some q) → p < q := by
    rintro d d' ⟨c1, c2, c3, c4, o1, o2, _, o4⟩ p q h1 h2
    have := o1.place h1; have := o1.np; have := o2.place h2; omega
  refine List.nodup_append.2 ⟨?_, List.nodup_append.2 ⟨?_, List.nodup_range', ?_⟩, ?_⟩
  · refine List.Pairwise.filterMap _ (fun d d' hs p hp q hq => ?_) hp
    exact Nat.ne_of_lt (sepne d d' hs p q (.inl hp) (.inl hq))
  · refine List.Pairwise.filterMap _ (fun d d' hs p hp q hq => ?_) hp
    exact Nat.ne_of_lt (sepne d d' hs p q (.inr hp) (.inr hq))
  · intro p hp q hq
    obtain ⟨d, hd, he⟩ := List.mem_filterMap.1 hp
    have := lt d hd p (.inr he)
    rw [List.mem_range'_1] at hq; omega
  · intro p hp q hq
    obtain ⟨d, hd, he⟩ := List.mem_filterMap.1 hp
    rcases List.mem_append.1 hq with hq | hq
    · obtain ⟨d', hd', he'⟩ := List.mem_filterMap.1 hq
      rintro rfl
      obtain ⟨i, hi⟩ := List.mem_iff_getElem?.1 hd
      obtain ⟨j, hj⟩ := List.mem_iff_getElem?.1 hd'
      have := disj_places ‹ds.Pairwise Sep› hi hj (.inl he) (.inr (.inl he'))
      subst this
      rw [hi] at hj; cases hj
      obtain ⟨c1, c2, ok, _⟩ := hch.mem hd
      have := (ok.eF p he').2.2 p he; omega
    · have := lt d hd p (.inl he)
      rw [List.mem_range'_1] at hq; omega

theorem po_sys {ds : List (Desc α)} {c c' : Cnt} (hch : Chain ds c c') (hne : ds ≠ []) {red : BinRel.Edges}
    (hA : ∀ i, ¬ Powl.Before ds.length red i i)
    (hS : ∀ (j : Nat) (d : Desc α), ds[j]? = some d → (d.sI.isSome = true ↔ ∀ y, ¬ BinRel.Rel ds.length red y j))
    (hE : ∀ (j : Nat) (d : Desc α), ds[j]? = some d → (d.eF.isSome = true ↔ ∀ y, ¬ BinRel.Rel ds.length red j y))
    {i o : Nat} (hi : i < c.np) (ho : o < c.np) (hio : i ≠ o) :
    PoSys (kidOf ds) ds.length (allC ds red c'.np) i o c.np (c'.np + (edgeC red (pairs ds.length) c'.np).length) (Powl.rank ds.length red) := by
  have hp := hch.pairwise
  have hle := hch.le
  have get : ∀ k, k < ds.length → ∃ d, ds[k]? = some d ∧ kidOf ds k = d.kid := fun k hk =>
    ⟨_, List.getElem?_eq_getElem hk, kidOf_eq (List.getElem?_eq_getElem hk)⟩
  have idx : ∀ {j : Nat} {d : Desc α}, ds[j]? = some d → j < ds.length := fun h => (List.getElem?_eq_some_iff.1 h).1
  have okm : ∀ {j : Nat} {d : Desc α}, ds[j]? = some d → ∃ c1 c2, d.OK c1 c2 ∧ c.np ≤ c1.np ∧ c2.np ≤ c'.np := by
    intro j d h
    obtain ⟨c1, c2, ok, _, _, h4, h5⟩ := hch.mem (List.mem_of_getElem? h)
    exact ⟨c1, c2, ok, h4, h5⟩
  have edgep : ∀ cc ∈ edgeC red (pairs ds.length) c'.np, c'.np ≤ cc.p ∧ cc.p < c'.np + (edgeC red (pairs ds.length) c'.np).length := by
    intro cc hc
    have : cc.p ∈ (edgeC red (pairs ds.length) c'.np).map Ctl.p := List.mem_map_of_mem hc
    rw [edgeC_p, List.mem_range'_1] at this
    exact this
  refine ⟨hi, ho, hio, by omega, ?_, ?_, ?_, ?_, nodup_allC hch red, ?_, ?_, ?_, ?_, ?_, ?_, fun k _ => Powl.rank_le _ _ _, ?_⟩
  · intro k hk
    obtain ⟨d, hd, e⟩ := get k hk
    obtain ⟨c1, c2, ok, _⟩ := okm hd
    rw [e]; exact ok.block
  · intro k hk p hr
    obtain ⟨d, hd, e⟩ := get k hk
    obtain ⟨c1, c2, ok, h4, h5⟩ := okm hd
    rw [e] at hr
    have := ok.rng hr; have := ok.np
    unfold Inner; omega
  · intro k hk l hl p h1 h2
    obtain ⟨d, hd, e⟩ := get k hk
    obtain ⟨d', hd', e'⟩ := get l hl
    rw [e] at h1; rw [e'] at h2
    exact disj_places hp hd hd' (.inr (.inr h1)) (.inr (.inr h2))
  · intro cc hcc
    have kidne : ∀ (j : Nat) (d : Desc α), ds[j]? = some d → (d.sI = some cc.p ∨ d.eF = some cc.p) → ∀ k < ds.length, ¬ (kidOf ds k).Rng cc.p := by
      intro j d hd h k hk hr
      obtain ⟨d', hd', e'⟩ := get k hk
      rw [e'] at hr
      have := disj_places hp hd hd' (h.imp id .inl) (.inr (.inr hr))
      subst this; rw [hd] at hd'; cases hd'
      obtain ⟨c1, c2, ok, _⟩ := okm hd
      have := ok.place h; have := ok.rng hr; omega
    rcases mem_allC hcc with ⟨j, d, hd, h, _⟩ | ⟨j, d, hd, h, _⟩ | ⟨he, _⟩
    · obtain ⟨c1, c2, ok, h4, h5⟩ := okm hd
      have := ok.place (.inl h); have := ok.np
      exact ⟨by unfold Inner; omega, kidne j d hd (.inl h)⟩
    · obtain ⟨c1, c2, ok, h4, h5⟩ := okm hd
      have := ok.place (.inr h); have := ok.np
      exact ⟨by unfold Inner; omega, kidne j d hd (.inr h)⟩
    · have := edgep cc he
      refine ⟨by unfold Inner; omega, ?_⟩
      intro k hk hr
      obtain ⟨d', hd', e'⟩ := get k hk
      rw [e'] at hr
      obtain ⟨c1, c2, ok, h4, h5⟩ := okm hd'
      have := ok.rng hr; omega
  · intro cc hcc k hk
    rcases mem_allC hcc with ⟨_, _, _, _, h, _⟩ | ⟨j, d, hd, _, h, _⟩ | ⟨_, a, b, h, h3, h4⟩
    · rw [h] at hk; cases hk
    · rw [h] at hk; cases hk; exact idx hd
    · rw [h3] at hk; cases hk; exact h.1
  · intro cc hcc k hk
    rcases mem_allC hcc with ⟨j, d, hd, _, _, h⟩ | ⟨_, _, _, _, _, h⟩ | ⟨_, a, b, h, h3, h4⟩
    · rw [h] at hk; cases hk; exact idx hd
    · rw [h] at hk; cases hk
    · rw [h4] at hk; cases hk; exact h.2.1
  · intro k hk
    obtain ⟨d, hd, _⟩ := get k hk
    by_cases h : ∀ y, ¬ BinRel.Rel ds.length red y k
    · have := (hS k d hd).2 h
      obtain ⟨p, e⟩ := Option.isSome_iff_exists.1 this
      exact ⟨⟨p, none, some k⟩, List.mem_append_left _ ((mem_startC ds 0).2 ⟨k, d, hd, e, rfl, by simp⟩), rfl⟩
    · obtain ⟨y, hy⟩ := Classical.not_forall.1 h
      obtain ⟨cc, hc, _, h2⟩ := edge_allC.2 (Classical.not_not.1 hy)
      exact ⟨cc, hc, h2⟩
  · intro k hk
    obtain ⟨d, hd, _⟩ := get k hk
    by_cases h : ∀ y, ¬ BinRel.Rel ds.length red k y
    · have := (hE k d hd).2 h
      obtain ⟨p, e⟩ := Option.isSome_iff_exists.1 this
      exact ⟨⟨p, some k, none⟩, List.mem_append_right _ (List.mem_append_left _ ((mem_endC ds 0).2 ⟨k, d, hd, e, rfl, by simp⟩)), rfl⟩
    · obtain ⟨y, hy⟩ := Classical.not_forall.1 h
      obtain ⟨cc, hc, h2, _⟩ := edge_allC.2 (Classical.not_not.1 hy)
      exact ⟨cc, hc, h2⟩
  · obtain ⟨k, hk, h⟩ := Powl.exists_end hA (List.length_pos_iff.2 hne)
    obtain ⟨d, hd, _⟩ := get k hk
    obtain ⟨p, e⟩ := Option.isSome_iff_exists.1 ((hE k d hd).2 h)
    exact ⟨⟨p, some k, none⟩, List.mem_append_right _ (List.mem_append_left _ ((mem_endC ds 0).2 ⟨k, d, hd, e, rfl, by simp⟩)), rfl⟩
  · intro cc hcc k l h1 h2
    exact Powl.rank_lt hA (.single (edge_allC.1 ⟨cc, hcc, h1, h2⟩))
  · rintro p ⟨h1, h2⟩
    by_cases hp' : p < c'.np
    · obtain ⟨j, d, hd, h⟩ := hch.cover h1 hp'
      rcases h with h | h | h
      · exact .inl ⟨⟨p, none, some j⟩, List.mem_append_left _ ((mem_startC ds 0).2 ⟨j, d, hd, h, rfl, by simp⟩), rfl⟩
      · exact .inl ⟨⟨p, some j, none⟩, List.mem_append_right _ (List.mem_append_left _ ((mem_endC ds 0).2 ⟨j, d, hd, h, rfl, by simp⟩)), rfl⟩
      · exact .inr ⟨j, idx hd, by rw [kidOf_eq hd]; exact h⟩
    · have : p ∈ (edgeC red (pairs ds.length) c'.np).map Ctl.p := by
        rw [edgeC_p, List.mem_range'_1]; omega
      obtain ⟨cc, hcc, e⟩ := List.mem_map.1 this
      exact .inl ⟨cc, List.mem_append_right _ (List.mem_append_right _ hcc), e⟩

theorem spec_po {ts : List (Powl α)} {E : BinRel.Edges} (hs : ∀ t ∈ ts, Spec t) (hne : ts ≠ []) (hA : ∀ i, ¬ Powl.Before ts.length E i i) :
    Spec (.po ts E) := by
  intro ip fp c h0 h1 h2
  simp only [body]
  have hI : BinRel.Irrefl (BinRel.Rel ts.length E) := fun i h => hA i (.single h)
  obtain ⟨red, hred⟩ : ∃ red, BinRel.transitiveReduction ts.length E = some red := by
    cases h : BinRel.transitiveReduction ts.length E with
    | some r => exact ⟨r, rfl⟩
    | none => exact absurd hI ((C23_reduction_raises _ _).1 h)
  have hB := Powl.reduction_before hA hred
  rw [hred, Option.getD_some]
  obtain ⟨ds, p1, p2, p3, p4, p5, p6, p7, p8, p9, p10, p11⟩ := kids_good (starts := BinRel.startNodes ts.length red)
    (ends := BinRel.endNodes ts.length red) hs (sp := c.nt) (jn := c.nt + 1) (by omega) 0 ⟨c.np, c.nt + 2⟩ (by simp only; omega) (by simp only; omega)
  generalize bodyKids (BinRel.startNodes ts.length red) (BinRel.endNodes ts.length red) c.nt (c.nt + 1) ts 0 ⟨c.np, c.nt + 2⟩ = r at *
  have hlen : ds.length = ts.length := by simpa using congrArg List.length p10
  rw [← hlen] at hB hA p11
  rw [← hlen, p1]
  have P : PoSys (kidOf ds) ds.length (allC ds red r.2.1.np) ip fp c.np (r.2.1.np + (edgeC red (pairs ds.length) r.2.1.np).length) (Powl.rank ds.length red) := by
    refine po_sys p3 (by rintro rfl; simp at hlen; exact hne (List.length_eq_zero_iff.1 hlen.symm)) (fun i h => hA i ((hB i i).1 h)) ?_ ?_ h1 h2 h0
    · intro j d hd
      have hj := (List.getElem?_eq_some_iff.1 hd).1
      rw [(p11 j d hd).1, List.contains_iff_mem, (C23_start_end_nodes _ _ _).1]
      simp [hj]
    · intro j d hd
      have hj := (List.getElem?_eq_some_iff.1 hd).1
      rw [(p11 j d hd).2, List.contains_iff_mem, (C23_start_end_nodes _ _ _).2]
      simp [hj]
  have B := block_po_spec P
  have arcs := fun k d hk => edges_arcs p3 red r.2.1.np (k := k) (d := d) hk _ rfl
  have eeq := edges_eq (α := α) red (ds.map fun d => (d.iT, d.fT)) (pairs ds.length) r.2.1.np
  have etr : (edges (α := α) red (ds.map fun d => (d.iT, d.fT)) (pairs ds.length) r.2.1.np).1.trans = [] := by rw [eeq]
  have epl : (edges (α := α) red (ds.map fun d => (d.iT, d.fT)) (pairs ds.length) r.2.1.np).1.places = List.range' r.2.1.np (edgeC red (pairs ds.length) r.2.1.np).length := by
    rw [eeq, ← edgeC_p]
  have enp : (edges (α := α) red (ds.map fun d => (d.iT, d.fT)) (pairs ds.length) r.2.1.np).2 = r.2.1.np + (edgeC red (pairs ds.length) r.2.1.np).length := by rw [eeq]
  have get : ∀ {j : Nat} {d' : Desc α}, ds[j]? = some d' → (ds.map fun d => (d.iT, d.fT)).getD j (0, 0) = (d'.iT, d'.fT) := by
    intro j d' h
    simp [List.getD, h]
  have num : ∀ {j : Nat} {d : Desc α}, ds[j]? = some d → ∀ t, (t = d.iT ∨ t = d.fT ∨ t ∈ d.inner.map Prod.fst) → c.nt + 2 ≤ t ∧ t < r.2.1.nt := by
    intro j d hd t ht
    obtain ⟨c1, c2, ok, h4, h5, _⟩ := p3.mem (List.mem_of_getElem? hd)
    have := ok.num ht
    simp only at h4; omega
  have ept : ∀ a ∈ (edges (α := α) red (ds.map fun d => (d.iT, d.fT)) (pairs ds.length) r.2.1.np).1.pt, c.nt + 2 ≤ a.2 ∧ a.2 < r.2.1.nt := by
    rw [eeq]
    intro a ha
    obtain ⟨cc, hcc, rfl⟩ := List.mem_map.1 ha
    obtain ⟨i, j, h1, _, h3, h4⟩ := edgeC_mem hcc
    have hj := List.getElem?_eq_getElem ((mem_pairs _ _ _).1 h1).2
    simp only
    rw [h4, Option.getD_some, get hj]
    exact num hj _ (.inl rfl)
  have etp : ∀ a ∈ (edges (α := α) red (ds.map fun d => (d.iT, d.fT)) (pairs ds.length) r.2.1.np).1.tp, c.nt + 2 ≤ a.1 ∧ a.1 < r.2.1.nt := by
    rw [eeq]
    intro a ha
    obtain ⟨cc, hcc, rfl⟩ := List.mem_map.1 ha
    obtain ⟨i, j, h1, _, h3, h4⟩ := edgeC_mem hcc
    have hj := List.getElem?_eq_getElem ((mem_pairs _ _ _).1 h1).1
    simp only
    rw [h3, Option.getD_some, get hj]
    exact num hj _ (.inr (.inl rfl))
  rw [enp]
  generalize he : (edges (α := α) red (ds.map fun d => (d.iT, d.fT)) (pairs ds.length) r.2.1.np).1 = e at *
  -- the part of the children and the places between them
  have ge : Good (r.1 ++ e) ⟨c.np, c.nt + 2⟩ ⟨r.2.1.np + (edgeC red (pairs ds.length) r.2.1.np).length, r.2.1.nt⟩ [c.nt, c.nt + 1] := by
    have a1 := p2.np
    simp only at a1
    refine ⟨by simp only; omega, p2.nt, ?_, ?_, ?_, ?_, ?_⟩
    · simpa [etr] using p2.trans
    · simpa [etr] using p2.nodup
    · intro a ha
      rcases List.mem_append.1 ha with ha | ha
      · exact p2.pt a ha
      · exact .inl (ept a ha)
    · intro a ha
      rcases List.mem_append.1 ha with ha | ha
      · exact p2.tp a ha
      · exact .inl (etp a ha)
    · intro p
      rw [Gr.append_places, List.mem_append, p2.places, epl, List.mem_range'_1]
      simp only [Inner]; omega
  obtain ⟨hg, ht⟩ := node_good (k := 0) (c := c) (ctl := ⟨[], [(c.nt, none), (c.nt + 1, none)], [(ip, c.nt)], [(c.nt + 1, fp)]⟩) ge
    (by simp [List.range']) rfl (by simp) (by simp)
  refine ⟨hg, ?_⟩
  have eL : ∀ w, PoSpec (kidOf ds) ds.length (allC ds red r.2.1.np) w ↔ (Powl.po ts E).lang w := by
    intro w
    rw [Powl.lang, Powl.langs_eq_map, PoSpec, poL]
    refine exists_congr fun es => and_congr_right fun _ => ?_
    have l1 : (ts.map Powl.lang).length = ds.length := by simp [hlen]
    rw [l1]
    refine and_congr_right fun _ => and_congr ?_ ?_
    · rw [← p10]
      constructor
      · intro h k L hL
        rw [List.getElem?_map] at hL
        cases hd : ds[k]? with
        | none => simp [hd] at hL
        | some d =>
          simp [hd] at hL; subst hL
          have := h k (List.getElem?_eq_some_iff.1 hd).1
          rwa [kidOf_eq hd] at this
      · intro h k hk
        have hd := List.getElem?_eq_getElem hk
        rw [kidOf_eq hd]
        exact h k _ (by rw [List.getElem?_map, hd]; rfl)
    · rw [← hlen]
      refine forall_congr' fun i => forall_congr' fun j => ?_
      rw [← hB i j]
      have : Relation.TransGen (Edge (allC ds red r.2.1.np)) i j ↔ Powl.Before ds.length red i j :=
        ⟨BinRel.transGen_mono fun i j h => .single (edge_allC.1 h), BinRel.transGen_mono fun i j h => .single (edge_allC.2 h)⟩
      rw [this]
  refine (B.congr eL).mono fun tr => ?_
  rw [ht, mem_poTr]
  have sp0 : e.pre c.nt = [] ∧ e.post c.nt = [] ∧ e.pre (c.nt + 1) = [] ∧ e.post (c.nt + 1) = [] := by
    refine ⟨?_, ?_, ?_, ?_⟩ <;> simp only [Gr.pre, Gr.post, List.map_eq_nil_iff, List.filter_eq_nil_iff, beq_iff_eq] <;> intro a ha e
    · have := ept a ha; omega
    · have := etp a ha; omega
    · have := ept a ha; omega
    · have := etp a ha; omega
  have edst : ∀ c ∈ edgeC red (pairs ds.length) r.2.1.np, c.dst ≠ none := by
    intro c hc; obtain ⟨_, _, _, _, _, h⟩ := edgeC_mem hc; simp [h]
  have esrc : ∀ c ∈ edgeC red (pairs ds.length) r.2.1.np, c.src ≠ none := by
    intro c hc; obtain ⟨_, _, _, _, h, _⟩ := edgeC_mem hc; simp [h]
  have hsplit : splitTr (allC ds red r.2.1.np) ip = (⟨[ip], ds.filterMap Desc.sI, none⟩ : Tr α) := by
    rw [splitTr, allC, ctlOut_append, ctlOut_append, ctlOut_all fun c hc => (startC_src hc).1, ctlOut_nil fun c hc => (endC_dst hc).2,
      ctlOut_nil esrc, startC_p]; simp
  have hjoin : joinTr (allC ds red r.2.1.np) fp = (⟨ds.filterMap Desc.eF, [fp], none⟩ : Tr α) := by
    rw [joinTr, allC, ctlIn_append, ctlIn_append, ctlIn_nil fun c hc => (startC_src hc).2, ctlIn_all fun c hc => (endC_dst hc).1,
      ctlIn_nil edst, endC_p]; simp
  have hiTr : ∀ (k : Nat) (d : Desc α), ds[k]? = some d → iTr (kidOf ds) (allC ds red r.2.1.np) k = ⟨(r.1 ++ e).pre d.iT, (r.1 ++ e).post d.iT, none⟩ := by
    intro k d hk
    have A := p4 d (List.mem_of_getElem? hk)
    have := startC_in ds 0 k d hk
    rw [Nat.zero_add] at this
    rw [iTr, kidOf_eq hk, allC, ctlIn_append, ctlIn_append, this, ctlIn_nil (C := endC ds 0) fun c hc => by rw [(endC_dst hc).1]; simp]
    rw [Gr.pre_append, Gr.post_append, A.preI, A.postI, (arcs k d hk).1, (arcs k d hk).2.1]; simp
  have hfTr : ∀ (k : Nat) (d : Desc α), ds[k]? = some d → fTr (kidOf ds) (allC ds red r.2.1.np) k = ⟨(r.1 ++ e).pre d.fT, (r.1 ++ e).post d.fT, none⟩ := by
    intro k d hk
    have A := p4 d (List.mem_of_getElem? hk)
    have := endC_out ds 0 k d hk
    rw [Nat.zero_add] at this
    rw [fTr, kidOf_eq hk, allC, ctlOut_append, ctlOut_append, this, ctlOut_nil (C := startC ds 0) fun c hc => by rw [(startC_src hc).1]; simp]
    rw [Gr.pre_append, Gr.post_append, A.preF, A.postF, (arcs k d hk).2.2.1, (arcs k d hk).2.2.2.1]; simp
  have hT : ∀ (k : Nat) (d : Desc α), ds[k]? = some d → (kidOf ds k).T = d.inner.map fun x => ⟨(r.1 ++ e).pre x.1, (r.1 ++ e).post x.1, x.2⟩ := by
    intro k d hk
    have A := p4 d (List.mem_of_getElem? hk)
    rw [kidOf_eq hk, A.T]
    refine List.map_congr_left fun x hx => ?_
    have := (arcs k d hk).2.2.2.2 x hx
    rw [Gr.pre_append, Gr.post_append, this.1, this.2]; simp
  have htrs : tr ∈ (r.1 ++ e).trs ↔ ∃ k, k < ds.length ∧ (tr = iTr (kidOf ds) (allC ds red r.2.1.np) k ∨ tr = fTr (kidOf ds) (allC ds red r.2.1.np) k ∨
      tr ∈ (kidOf ds k).T) := by
    rw [Gr.trs, Gr.append_trans, etr, List.append_nil, p5]
    rw [List.map_flatMap, List.mem_flatMap]
    constructor
    · rintro ⟨d, hd, h⟩
      obtain ⟨k, hk⟩ := List.mem_iff_getElem?.1 hd
      refine ⟨k, (List.getElem?_eq_some_iff.1 hk).1, ?_⟩
      rw [hiTr k d hk, hfTr k d hk, hT k d hk]
      simpa using h
    · rintro ⟨k, hk, h⟩
      have hd := List.getElem?_eq_getElem hk
      refine ⟨ds[k], List.getElem_mem hk, ?_⟩
      rw [hiTr k _ hd, hfTr k _ hd, hT k _ hd] at h
      simpa using h
  rw [List.mem_cons, List.mem_cons, htrs, hsplit, hjoin]
  have q1 : c.nt + 1 ≠ c.nt := by omega
  rw [Gr.pre_append, Gr.post_append, Gr.pre_append, Gr.post_append, p6, p7, p8, p9, sp0.1, sp0.2.1, sp0.2.2.1, sp0.2.2.2]
  simp

end PowlNet
end Verif
