import Verif.Footprints.Proofs
/-
The footprints computed for a process tree are the footprints of its language.
-/
namespace Verif
namespace Foot
open Lang
variable {α : Type}

/-- the footprints `f` are the footprints of the language `L` -/
structure Exact (f : FP α) (L : Lang α) : Prop where
  nonempty : ∃ w, L w
  start : ∀ a, a ∈ f.start ↔ Start L a
  stop : ∀ a, a ∈ f.stop ↔ End L a
  acts : ∀ a, a ∈ f.acts ↔ Act L a
  skip : f.skip = true ↔ L []
  sequence : ∀ a b, (a, b) ∈ f.sequence ↔ DF L a b ∧ ¬ DF L b a
  parallel : ∀ a b, (a, b) ∈ f.parallel ↔ DF L a b ∧ DF L b a
  always : ∀ a, a ∈ f.always ↔ Always L a

/-- children footprints and their languages -/
inductive ExactL : List (FP α) → List (Lang α) → Prop
  | nil : ExactL [] []
  | cons {f : FP α} {L : Lang α} {fs : List (FP α)} {Ls : List (Lang α)} : Exact f L → ExactL fs Ls → ExactL (f :: fs) (L :: Ls)

/-- a pair is recorded by a node -/
def rel (f : FP α) (a b : α) : Prop := (a, b) ∈ f.sequence ∨ (a, b) ∈ f.parallel

theorem Exact.rel {f : FP α} {L : Lang α} (h : Exact f L) (a b : α) : Foot.rel f a b ↔ DF L a b := by
  unfold Foot.rel
  rw [h.sequence, h.parallel]
  grind

theorem Exact.parSymm {f : FP α} {L : Lang α} (h : Exact f L) {a b : α} (hp : (a, b) ∈ f.parallel) : (b, a) ∈ f.parallel := by
  rw [h.parallel] at hp ⊢; exact hp.symm

variable [DecidableEq α]

omit [DecidableEq α] in
theorem mem_cross {l1 l2 : List α} {a b : α} : (a, b) ∈ cross l1 l2 ↔ a ∈ l1 ∧ b ∈ l2 := by
  simp [cross]

theorem fixFp_spec (S P : List (α × α)) (R : α → α → Prop) (hR : ∀ a b, (a, b) ∈ S ∨ (a, b) ∈ P ↔ R a b)
    (hP : ∀ a b, (a, b) ∈ P → (b, a) ∈ P) (a b : α) :
    ((a, b) ∈ (fixFp S P).1 ↔ R a b ∧ ¬ R b a) ∧ ((a, b) ∈ (fixFp S P).2 ↔ R a b ∧ R b a) := by
  have h1 := hR a b
  have h2 := hR b a
  have h3 := hP a b
  have h4 := hP b a
  simp only [fixFp, List.mem_filter, List.mem_append, decide_eq_true_eq]
  by_cases c1 : (a, b) ∈ S <;> by_cases c2 : (a, b) ∈ P <;> by_cases c3 : (b, a) ∈ S <;> by_cases c4 : (b, a) ∈ P <;> simp_all

theorem finish_exact {L : Lang α} {start stop acts always : List α} {skip : Bool} {S P : List (α × α)} (h0 : ∃ w, L w)
    (h1 : ∀ a, a ∈ start ↔ Start L a) (h2 : ∀ a, a ∈ stop ↔ End L a) (h3 : ∀ a, a ∈ acts ↔ Act L a)
    (h4 : skip = true ↔ L []) (h5 : ∀ a b, (a, b) ∈ S ∨ (a, b) ∈ P ↔ DF L a b) (h6 : ∀ a b, (a, b) ∈ P → (b, a) ∈ P)
    (h7 : ∀ a, a ∈ always ↔ Always L a) : Exact (finish start stop acts skip S P always) L :=
  ⟨h0, h1, h2, h3, h4, fun a b => (fixFp_spec S P _ h5 h6 a b).1, fun a b => (fixFp_spec S P _ h5 h6 a b).2, h7⟩

/-! ### Leaves -/

omit [DecidableEq α] in
theorem fpLeaf_exact (l : Option α) : Exact (fpLeaf l) (PT.lang (.leaf l)) := by
  cases l with
  | none =>
    rw [PT.lang_tau]
    refine ⟨⟨[], rfl⟩, ?_, ?_, ?_, ?_, ?_, ?_, ?_⟩
    · intro a; simp [fpLeaf, Start, eps]
    · intro a; simp [fpLeaf, End, eps]
    · intro a; simp [fpLeaf, Act, eps]
    · simp [fpLeaf, eps]
    · intro a b; simp [fpLeaf, DF, eps, Follows]
    · intro a b; simp [fpLeaf, DF, eps, Follows]
    · intro a; simp [fpLeaf, Always, eps]
  | some x =>
    rw [PT.lang_act]
    have hdf : ∀ a b, ¬ DF (fun w => w = [x]) a b := by
      rintro a b ⟨w, rfl, u, v, h⟩
      have := congrArg List.length h; simp at this; omega
    refine ⟨⟨[x], rfl⟩, ?_, ?_, ?_, ?_, ?_, ?_, ?_⟩
    · intro a; simp [fpLeaf, Start]
    · intro a; simp only [fpLeaf, List.mem_singleton, End]
      constructor
      · rintro rfl; exact ⟨[], rfl⟩
      · rintro ⟨w, h⟩
        exact (List.append_inj' (s₁ := w) (s₂ := []) h rfl).2 |> List.singleton_inj.1
    · intro a; simp [fpLeaf, Act]
    · simp [fpLeaf]
    · intro a b; simp [fpLeaf, hdf]
    · intro a b; simp [fpLeaf, hdf]
    · intro a; simp [fpLeaf, Always]

/-! ### Choice -/

omit [DecidableEq α] in
theorem ExactL.mem_left {fs : List (FP α)} {Ls : List (Lang α)} (h : ExactL fs Ls) {f : FP α} (hf : f ∈ fs) : ∃ L ∈ Ls, Exact f L := by
  induction h with
  | nil => cases hf
  | cons h1 _ ih =>
    rcases List.mem_cons.1 hf with rfl | hf
    · exact ⟨_, List.mem_cons_self, h1⟩
    · obtain ⟨L, hL, h⟩ := ih hf; exact ⟨L, List.mem_cons_of_mem _ hL, h⟩

omit [DecidableEq α] in
theorem ExactL.mem_right {fs : List (FP α)} {Ls : List (Lang α)} (h : ExactL fs Ls) {L : Lang α} (hf : L ∈ Ls) : ∃ f ∈ fs, Exact f L := by
  induction h with
  | nil => cases hf
  | cons h1 _ ih =>
    rcases List.mem_cons.1 hf with rfl | hf
    · exact ⟨_, List.mem_cons_self, h1⟩
    · obtain ⟨L, hL, h⟩ := ih hf; exact ⟨L, List.mem_cons_of_mem _ hL, h⟩

omit [DecidableEq α] in
/-- a union over the children, for a property of languages that holds for a choice when it holds for one alternative -/
theorem mem_flatMap_exact {X : Type} {fs : List (FP α)} {Ls : List (Lang α)} (h : ExactL fs Ls) (g : FP α → List X) (P : Lang α → X → Prop)
    (hg : ∀ f L, Exact f L → ∀ x, x ∈ g f ↔ P L x) (x : X) : x ∈ fs.flatMap g ↔ ∃ L ∈ Ls, P L x := by
  rw [List.mem_flatMap]
  constructor
  · rintro ⟨f, hf, hx⟩
    obtain ⟨L, hL, he⟩ := h.mem_left hf
    exact ⟨L, hL, (hg f L he x).1 hx⟩
  · rintro ⟨L, hL, hx⟩
    obtain ⟨f, hf, he⟩ := h.mem_right hL
    exact ⟨f, hf, (hg f L he x).2 hx⟩

omit [DecidableEq α] in
theorem foldl_or (fs : List (FP α)) (b : Bool) : fs.foldl (fun b n => b || n.skip) b = true ↔ b = true ∨ ∃ f ∈ fs, f.skip = true := by
  induction fs generalizing b with
  | nil => simp
  | cons f fs ih => rw [List.foldl_cons, ih]; simp [or_assoc]

omit [DecidableEq α] in
theorem foldl_and (fs : List (FP α)) (b : Bool) : fs.foldl (fun b n => b && n.skip) b = true ↔ b = true ∧ ∀ f ∈ fs, f.skip = true := by
  induction fs generalizing b with
  | nil => simp
  | cons f fs ih => rw [List.foldl_cons, ih]; simp [and_assoc]

theorem mem_xorAlways (fs : List (FP α)) (acc : List α) (a : α) :
    a ∈ fs.foldl (fun acc n => if !n.skip then inter acc n.always else []) acc ↔
      a ∈ acc ∧ ∀ f ∈ fs, f.skip = false ∧ a ∈ f.always := by
  induction fs generalizing acc with
  | nil => simp
  | cons f fs ih =>
    rw [List.foldl_cons, ih]
    cases h : f.skip <;> simp [h, inter, and_assoc]

omit [DecidableEq α] in
theorem Exact.skip_always {f : FP α} {L : Lang α} (h : Exact f L) {a : α} (ha : a ∈ f.always) : f.skip = false := by
  cases hs : f.skip
  · rfl
  · have := (h.always a).1 ha [] (h.skip.1 hs); simp at this

theorem fpXor_exact {fs : List (FP α)} {Ls : List (Lang α)} (h : ExactL fs Ls) (hne : fs ≠ []) : Exact (fpXor fs) (xorL Ls) := by
  refine finish_exact ?_ ?_ ?_ ?_ ?_ ?_ ?_ ?_
  · cases h with
    | nil => exact absurd rfl hne
    | cons h1 _ => obtain ⟨w, hw⟩ := h1.nonempty; exact ⟨w, _, List.mem_cons_self, hw⟩
  · intro a
    rw [mem_flatMap_exact h FP.start Start (fun f L he x => he.start x)]
    exact ⟨fun ⟨L, hL, w, hw⟩ => ⟨w, L, hL, hw⟩, fun ⟨w, L, hL, hw⟩ => ⟨L, hL, w, hw⟩⟩
  · intro a
    rw [mem_flatMap_exact h FP.stop End (fun f L he x => he.stop x)]
    exact ⟨fun ⟨L, hL, w, hw⟩ => ⟨w, L, hL, hw⟩, fun ⟨w, L, hL, hw⟩ => ⟨L, hL, w, hw⟩⟩
  · intro a
    rw [mem_flatMap_exact h FP.acts Act (fun f L he x => he.acts x)]
    exact ⟨fun ⟨L, hL, w, hw, ha⟩ => ⟨w, ⟨L, hL, hw⟩, ha⟩, fun ⟨w, ⟨L, hL, hw⟩, ha⟩ => ⟨L, hL, w, hw, ha⟩⟩
  · rw [foldl_or]
    simp only [Bool.false_eq_true, false_or]
    constructor
    · rintro ⟨f, hf, hs⟩
      obtain ⟨L, hL, he⟩ := h.mem_left hf
      exact ⟨L, hL, he.skip.1 hs⟩
    · rintro ⟨L, hL, h0⟩
      obtain ⟨f, hf, he⟩ := h.mem_right hL
      exact ⟨f, hf, he.skip.2 h0⟩
  · intro a b
    rw [mem_flatMap_exact h FP.sequence (fun L x => DF L x.1 x.2 ∧ ¬ DF L x.2 x.1) (fun f L he x => he.sequence x.1 x.2),
      mem_flatMap_exact h FP.parallel (fun L x => DF L x.1 x.2 ∧ DF L x.2 x.1) (fun f L he x => he.parallel x.1 x.2)]
    constructor
    · rintro (⟨L, hL, ⟨w, hw, hf⟩, _⟩ | ⟨L, hL, ⟨w, hw, hf⟩, _⟩) <;> exact ⟨w, ⟨L, hL, hw⟩, hf⟩
    · rintro ⟨w, ⟨L, hL, hw⟩, hf⟩
      by_cases hr : DF L b a
      · exact .inr ⟨L, hL, ⟨w, hw, hf⟩, hr⟩
      · exact .inl ⟨L, hL, ⟨w, hw, hf⟩, hr⟩
  · intro a b hp
    obtain ⟨f, hf, hx⟩ := List.mem_flatMap.1 hp
    obtain ⟨L, hL, he⟩ := h.mem_left hf
    exact List.mem_flatMap.2 ⟨f, hf, he.parSymm hx⟩
  · intro a
    unfold xorAlways
    rw [mem_xorAlways]
    constructor
    · rintro ⟨_, hall⟩ w ⟨L, hL, hw⟩
      obtain ⟨f, hf, he⟩ := h.mem_right hL
      exact (he.always a).1 (hall f hf).2 w hw
    · intro ha
      have hall : ∀ f ∈ fs, a ∈ f.always := by
        intro f hf
        obtain ⟨L, hL, he⟩ := h.mem_left hf
        exact (he.always a).2 fun w hw => ha w ⟨L, hL, hw⟩
      refine ⟨?_, fun f hf => ?_⟩
      · cases fs with
        | nil => exact absurd rfl hne
        | cons f fs => exact hall f List.mem_cons_self
      · obtain ⟨L, hL, he⟩ := h.mem_left hf
        exact ⟨he.skip_always (hall f hf), hall f hf⟩

/-! ### Parallel -/

omit [DecidableEq α] in
theorem parL_facts {fs : List (FP α)} {Ls : List (Lang α)} (h : ExactL fs Ls) :
    (∃ w, parL Ls w) ∧ (∀ a, a ∈ fs.flatMap FP.start ↔ Start (parL Ls) a) ∧ (∀ a, a ∈ fs.flatMap FP.stop ↔ End (parL Ls) a) ∧
    (∀ a, a ∈ fs.flatMap FP.acts ↔ Act (parL Ls) a) ∧ ((∀ f ∈ fs, f.skip = true) ↔ parL Ls []) ∧
    (∀ a b, (a, b) ∈ fs.flatMap FP.sequence ∨ (a, b) ∈ fs.flatMap FP.parallel ++ parPairs fs ↔ DF (parL Ls) a b) ∧
    (∀ a b, (a, b) ∈ fs.flatMap FP.parallel ++ parPairs fs → (b, a) ∈ fs.flatMap FP.parallel ++ parPairs fs) ∧
    (∀ a, a ∈ unionAlways fs ↔ Always (parL Ls) a) := by
  induction h with
  | nil =>
    refine ⟨⟨[], rfl⟩, ?_, ?_, ?_, ?_, ?_, ?_, ?_⟩
    · intro a; simp [Start, parL, eps]
    · intro a; simp [End, parL, eps]
    · intro a; simp [Act, parL, eps]
    · simp [parL, eps]
    · intro a b; simp [parPairs, DF, parL, eps, Follows]
    · intro a b; simp [parPairs]
    · intro a; simp [unionAlways, Always, parL, eps]
  | @cons f L fs Ls he _ ih =>
    obtain ⟨i0, i1, i2, i3, i4, i5, i6, i7⟩ := ih
    have hn := he.nonempty
    have hpp : ∀ a b, (a, b) ∈ fs.flatMap (fun g => cross f.acts g.acts ++ cross g.acts f.acts) ↔
        (a ∈ f.acts ∧ b ∈ fs.flatMap FP.acts) ∨ (a ∈ fs.flatMap FP.acts ∧ b ∈ f.acts) := by
      intro a b
      simp only [List.mem_flatMap, List.mem_append, mem_cross]
      constructor
      · rintro ⟨g, hg, h | h⟩
        · exact .inl ⟨h.1, g, hg, h.2⟩
        · exact .inr ⟨⟨g, hg, h.1⟩, h.2⟩
      · rintro (⟨h1, g, hg, h2⟩ | ⟨⟨g, hg, h1⟩, h2⟩)
        · exact ⟨g, hg, .inl ⟨h1, h2⟩⟩
        · exact ⟨g, hg, .inr ⟨h1, h2⟩⟩
    simp only [List.flatMap_cons, List.mem_append, parL, parPairs, List.mem_cons, forall_eq_or_imp]
    refine ⟨nonempty_shuf hn i0, ?_, ?_, ?_, ?_, ?_, ?_, ?_⟩
    · intro a; rw [start_shuf hn i0, he.start, i1]
    · intro a; rw [end_shuf hn i0, he.stop, i2]
    · intro a; rw [act_shuf hn i0, he.acts, i3]
    · rw [eps_shuf, he.skip, i4]
    · intro a b
      rw [df_shuf hn i0, hpp, ← i5, ← he.rel, he.acts, he.acts, i3, i3]
      simp only [rel, List.mem_append]
      grind
    · intro a b hp
      have h6 := i6 a b
      have hs := fun h => he.parSymm (a := a) (b := b) h
      simp only [List.mem_append] at h6
      rw [hpp] at hp ⊢
      grind
    · intro a
      rw [always_shuf hn i0, ← i7, ← he.always]
      unfold unionAlways
      rw [List.flatMap_cons, List.mem_append]
      have : (a ∈ if !f.skip then f.always else []) ↔ a ∈ f.always := by
        constructor
        · intro h; split at h
          · exact h
          · simp at h
        · intro h; rw [he.skip_always h]; simpa using h
      rw [this]

theorem fpPar_exact {fs : List (FP α)} {Ls : List (Lang α)} (h : ExactL fs Ls) : Exact (fpPar fs) (parL Ls) := by
  obtain ⟨i0, i1, i2, i3, i4, i5, i6, i7⟩ := parL_facts h
  exact finish_exact i0 i1 i2 i3 (by rw [foldl_and]; simpa using i4) i5 i6 i7

/-! ### Sequence -/

omit [DecidableEq α] in
theorem scan_append (get : FP α → List α) (l1 l2 : List (FP α)) (a : α) :
    a ∈ scan get (l1 ++ l2) ↔ a ∈ scan get l1 ∨ ((∀ f ∈ l1, f.skip = true) ∧ a ∈ scan get l2) := by
  induction l1 with
  | nil => simp [scan]
  | cons f l1 ih =>
    simp only [List.cons_append, scan, List.mem_append, List.mem_cons, forall_eq_or_imp]
    cases h : f.skip
    · simp
    · simp [ih, or_assoc]

omit [DecidableEq α] in
theorem mem_seqPairsFrom (n0 : FP α) (fs : List (FP α)) (a b : α) :
    (a, b) ∈ seqPairsFrom n0 fs ↔ a ∈ n0.stop ∧ b ∈ scan FP.start fs := by
  induction fs with
  | nil => simp [seqPairsFrom, scan]
  | cons f fs ih =>
    simp only [seqPairsFrom, scan, List.mem_append, mem_cross]
    cases h : f.skip
    · simp
    · simp [ih]; grind

omit [DecidableEq α] in
theorem seqL_facts {fs : List (FP α)} {Ls : List (Lang α)} (h : ExactL fs Ls) :
    (∃ w, seqL Ls w) ∧ (∀ a, a ∈ scan FP.start fs ↔ Start (seqL Ls) a) ∧ (∀ a, a ∈ scan FP.stop fs.reverse ↔ End (seqL Ls) a) ∧
    (∀ a, a ∈ fs.flatMap FP.acts ↔ Act (seqL Ls) a) ∧ ((∀ f ∈ fs, f.skip = true) ↔ seqL Ls []) ∧
    (∀ a b, (a, b) ∈ fs.flatMap FP.sequence ++ seqPairs fs ∨ (a, b) ∈ fs.flatMap FP.parallel ↔ DF (seqL Ls) a b) ∧
    (∀ a, a ∈ unionAlways fs ↔ Always (seqL Ls) a) := by
  induction h with
  | nil =>
    refine ⟨⟨[], rfl⟩, ?_, ?_, ?_, ?_, ?_, ?_⟩
    · intro a; simp [Start, seqL, eps, scan]
    · intro a; simp [End, seqL, eps, scan]
    · intro a; simp [Act, seqL, eps]
    · simp [seqL, eps]
    · intro a b; simp [seqPairs, DF, seqL, eps, Follows]
    · intro a; simp [unionAlways, Always, seqL, eps]
  | @cons f L fs Ls he _ ih =>
    obtain ⟨i0, i1, i2, i3, i4, i5, i7⟩ := ih
    have hn := he.nonempty
    simp only [List.flatMap_cons, List.mem_append, seqL, seqPairs, List.mem_cons, forall_eq_or_imp]
    refine ⟨nonempty_cat hn i0, ?_, ?_, ?_, ?_, ?_, ?_⟩
    · intro a
      rw [start_cat i0, ← he.start, ← he.skip, ← i1, scan, List.mem_append]
      cases f.skip <;> simp
    · intro a
      rw [end_cat hn, ← i2, ← i4, List.reverse_cons, scan_append, ← he.stop]
      simp only [List.mem_reverse, scan]
      cases f.skip <;> simp
    · intro a; rw [act_cat hn i0, he.acts, i3]
    · rw [eps_cat, he.skip, i4]
    · intro a b
      rw [df_cat hn i0, ← i5, ← he.rel, ← he.stop, ← i1, mem_seqPairsFrom]
      simp only [rel, List.mem_append]
      grind
    · intro a
      rw [always_cat hn i0, ← i7, ← he.always]
      unfold unionAlways
      rw [List.flatMap_cons, List.mem_append]
      have : (a ∈ if !f.skip then f.always else []) ↔ a ∈ f.always := by
        constructor
        · intro h; split at h
          · exact h
          · simp at h
        · intro h; rw [he.skip_always h]; simpa using h
      rw [this]

theorem fpSeq_exact {fs : List (FP α)} {Ls : List (Lang α)} (h : ExactL fs Ls) : Exact (fpSeq fs) (seqL Ls) := by
  obtain ⟨i0, i1, i2, i3, i4, i5, i7⟩ := seqL_facts h
  refine finish_exact i0 i1 i2 i3 (by rw [foldl_and]; simpa using i4) i5 ?_ i7
  intro a b hp
  obtain ⟨f, hf, hx⟩ := List.mem_flatMap.1 hp
  obtain ⟨L, hL, he⟩ := h.mem_left hf
  exact List.mem_flatMap.2 ⟨f, hf, he.parSymm hx⟩

/-! ### Loop -/

theorem fpLoop_exact {d r : FP α} {D R : Lang α} (hd : Exact d D) (hr : Exact r R) :
    ∃ f, fpLoop [d, r] = some f ∧ Exact f (loopL D [R]) := by
  refine ⟨_, rfl, ?_⟩
  have nd := hd.nonempty
  have nr := hr.nonempty
  have key : ∀ (b : Bool) (X : Type) (l : List X) (x : X), (x ∈ if b then l else []) ↔ b = true ∧ x ∈ l := by
    intro b X l x; cases b <;> simp
  refine finish_exact (nonempty_loop nd) ?_ ?_ ?_ ?_ ?_ ?_ ?_
  · intro a; rw [start_loop nd nr, ← hd.start, ← hd.skip, ← hr.start, List.mem_append, key]
  · intro a; rw [end_loop nd, ← hd.stop, ← hd.skip, ← hr.stop, List.mem_append, key]
  · intro a; rw [act_loop nd, ← hd.acts, ← hr.acts]; simp
  · rw [eps_loop]; exact hd.skip
  · intro a b
    rw [df_loop nd nr, ← hd.rel, ← hr.rel, ← hd.start, ← hd.stop, ← hr.start, ← hr.stop, ← hd.skip, ← hr.skip]
    simp only [rel, List.mem_append, key, mem_cross, List.flatMap_cons, List.flatMap_nil, List.append_nil]
    grind
  · intro a b hp
    simp only [List.mem_append, List.flatMap_cons, List.flatMap_nil, List.append_nil] at hp ⊢
    rcases hp with h | h
    · exact .inl (hd.parSymm h)
    · exact .inr (hr.parSymm h)
  · intro a
    rw [always_loop, ← hd.always]
    constructor
    · intro h; split at h
      · exact h
      · simp at h
    · intro h; rw [hd.skip_always h]; simpa using h

/-! ### Trees -/

theorem footprints_exact (t : PT α) (ht : Plain t) : ∃ f, footprints t = some f ∧ Exact f t.lang := by
  induction t using PT.induct with
  | leaf l => exact ⟨_, by simp [footprints], fpLeaf_exact l⟩
  | node op cs ih =>
    cases ht with
    | node _ _ hne hloop hor hint hcs =>
    have hL : ∀ ds : List (PT α), (∀ c ∈ ds, c ∈ cs) → ∃ fs, footprintsL ds = some fs ∧ ExactL fs (ds.map PT.lang) := by
      intro ds; induction ds with
      | nil => intro _; exact ⟨[], by simp [footprintsL], .nil⟩
      | cons d ds ih' =>
        intro hd
        obtain ⟨f, h1, h2⟩ := ih d (hd d List.mem_cons_self) (hcs d (hd d List.mem_cons_self))
        obtain ⟨fs, h3, h4⟩ := ih' fun c hc => hd c (List.mem_cons_of_mem _ hc)
        exact ⟨f :: fs, by simp [footprintsL, h1, h3], .cons h2 h4⟩
    obtain ⟨fs, h1, h2⟩ := hL cs fun _ h => h
    have hfs : fs ≠ [] := by
      intro e; subst e
      cases hds : cs.map PT.lang with
      | nil => simp at hds; exact hne hds
      | cons a b => rw [hds] at h2; cases h2
    have hemp : cs.isEmpty = false := by cases cs <;> simp_all
    rw [footprints, hemp, PT.lang_node]
    simp only [Bool.false_eq_true, if_false, h1, Option.bind_eq_bind, Option.bind_some]
    cases op with
    | seq => exact ⟨_, rfl, fpSeq_exact h2⟩
    | xor => exact ⟨_, rfl, fpXor_exact h2 hfs⟩
    | par => exact ⟨_, rfl, fpPar_exact h2⟩
    | or => exact absurd rfl hor
    | inter => exact absurd rfl hint
    | loop =>
      have hlen := hloop rfl
      match cs, hlen with
      | [c1, c2], _ =>
        cases h2 with
        | cons e1 h2 =>
          cases h2 with
          | cons e2 h2 => cases h2; exact fpLoop_exact e1 e2

/-! ### Shortest traces -/

/-- `n` is the length of the shortest traces of the language -/
def Shortest (L : Lang α) (n : Nat) : Prop := (∃ w, L w ∧ w.length = n) ∧ ∀ w, L w → n ≤ w.length

/-- children lengths and their languages -/
inductive ShortL : List Nat → List (Lang α) → Prop
  | nil : ShortL [] []
  | cons {n : Nat} {L : Lang α} {ns : List Nat} {Ls : List (Lang α)} : Shortest L n → ShortL ns Ls → ShortL (n :: ns) (L :: Ls)

omit [DecidableEq α] in
theorem short_seq {ns : List Nat} {Ls : List (Lang α)} (h : ShortL ns Ls) : Shortest (seqL Ls) ns.sum := by
  induction h with
  | nil => exact ⟨⟨[], rfl, rfl⟩, fun w hw => by simp⟩
  | cons h1 _ ih =>
    obtain ⟨⟨u, hu, lu⟩, h1⟩ := h1
    obtain ⟨⟨v, hv, lv⟩, h2⟩ := ih
    refine ⟨⟨_, ⟨u, v, hu, hv, rfl⟩, by simp [lu, lv]⟩, ?_⟩
    rintro w ⟨x, y, hx, hy, rfl⟩
    have := h1 x hx; have := h2 y hy
    simp; omega

omit [DecidableEq α] in
theorem short_par {ns : List Nat} {Ls : List (Lang α)} (h : ShortL ns Ls) : Shortest (parL Ls) ns.sum := by
  induction h with
  | nil => exact ⟨⟨[], rfl, rfl⟩, fun w hw => by simp⟩
  | cons h1 _ ih =>
    obtain ⟨⟨u, hu, lu⟩, h1⟩ := h1
    obtain ⟨⟨v, hv, lv⟩, h2⟩ := ih
    refine ⟨⟨_, ⟨u, v, hu, hv, Shuffle.append _ _⟩, by simp [lu, lv]⟩, ?_⟩
    rintro w ⟨x, y, hx, hy, hs⟩
    have := h1 x hx; have := h2 y hy
    rw [hs.length]; simp; omega

omit [DecidableEq α] in
theorem short_xor {ns : List Nat} {Ls : List (Lang α)} (h : ShortL ns Ls) (n : Nat) (hn : ns.min? = some n) : Shortest (xorL Ls) n := by
  rw [List.min?_eq_some_iff] at hn
  obtain ⟨hmem, hle⟩ := hn
  have h1 : ∀ m ∈ ns, ∃ L ∈ Ls, Shortest L m := by
    clear hmem hle
    induction h with
    | nil => simp
    | cons h1 _ ih =>
      intro m hm
      rcases List.mem_cons.1 hm with rfl | hm
      · exact ⟨_, List.mem_cons_self, h1⟩
      · obtain ⟨L, hL, h⟩ := ih m hm; exact ⟨L, List.mem_cons_of_mem _ hL, h⟩
  have h2 : ∀ L ∈ Ls, ∃ m ∈ ns, Shortest L m := by
    clear hmem hle h1
    induction h with
    | nil => simp
    | cons h1 _ ih =>
      intro m hm
      rcases List.mem_cons.1 hm with rfl | hm
      · exact ⟨_, List.mem_cons_self, h1⟩
      · obtain ⟨L, hL, h⟩ := ih m hm; exact ⟨L, List.mem_cons_of_mem _ hL, h⟩
  obtain ⟨L, hL, ⟨w, hw, lw⟩, _⟩ := h1 n hmem
  refine ⟨⟨w, ⟨L, hL, hw⟩, lw⟩, ?_⟩
  rintro v ⟨M, hM, hv⟩
  obtain ⟨m, hm, hs⟩ := h2 M hM
  exact Nat.le_trans (hle m hm) (hs.2 v hv)

omit [DecidableEq α] in
theorem short_loop {D R : Lang α} {n : Nat} (h : Shortest D n) : Shortest (loopL D [R]) n := by
  obtain ⟨⟨u, hu, lu⟩, h1⟩ := h
  refine ⟨⟨u, .exit hu, lu⟩, ?_⟩
  intro w hw
  cases hw with
  | exit hd => exact h1 _ hd
  | again R' hd _ _ _ => have := h1 _ hd; simp; omega

omit [DecidableEq α] in
theorem minLen_exact (t : PT α) (ht : Plain t) : ∃ n, minLen t = some n ∧ Shortest t.lang n := by
  induction t using PT.induct with
  | leaf l =>
    cases l with
    | none => exact ⟨0, by simp [minLen], ⟨[], by rw [PT.lang_tau]; exact ⟨rfl, rfl⟩⟩, fun w _ => by simp⟩
    | some a => exact ⟨1, by simp [minLen], ⟨[a], by simp⟩, fun w hw => by simp at hw; simp [hw]⟩
  | node op cs ih =>
    cases ht with
    | node _ _ hne hloop hor hint hcs =>
    have hL : ∀ ds : List (PT α), (∀ c ∈ ds, c ∈ cs) → ∃ ns, minLenL ds = some ns ∧ ShortL ns (ds.map PT.lang) := by
      intro ds; induction ds with
      | nil => intro _; exact ⟨[], by simp [minLenL], .nil⟩
      | cons d ds ih' =>
        intro hd
        obtain ⟨f, h1, h2⟩ := ih d (hd d List.mem_cons_self) (hcs d (hd d List.mem_cons_self))
        obtain ⟨fs, h3, h4⟩ := ih' fun c hc => hd c (List.mem_cons_of_mem _ hc)
        exact ⟨f :: fs, by simp [minLenL, h1, h3], .cons h2 h4⟩
    obtain ⟨ns, h1, h2⟩ := hL cs fun _ h => h
    have hns : ns ≠ [] := by
      intro e; subst e
      cases hds : cs.map PT.lang with
      | nil => simp at hds; exact hne hds
      | cons a b => rw [hds] at h2; cases h2
    have hemp : cs.isEmpty = false := by cases cs <;> simp_all
    rw [minLen, hemp, PT.lang_node]
    simp only [Bool.false_eq_true, if_false, h1, Option.bind_eq_bind, Option.bind_some]
    cases op with
    | seq => exact ⟨_, rfl, short_seq h2⟩
    | xor =>
      cases hm : ns.min? with
      | none => rw [List.min?_eq_none_iff] at hm; exact absurd hm hns
      | some n => exact ⟨n, hm, short_xor h2 n hm⟩
    | par => exact ⟨_, rfl, short_par h2⟩
    | or => exact absurd rfl hor
    | inter => exact absurd rfl hint
    | loop =>
      have hlen := hloop rfl
      match cs, hlen with
      | [c1, c2], _ =>
        cases h2 with
        | cons e1 h2 =>
          cases h2 with
          | cons e2 h2 => exact ⟨_, rfl, short_loop e1⟩

end Foot
end Verif
