import Verif.Inductive.Groups
/-
Inductive miner: the groups of the sequence cut are ordered.
-/
namespace Verif.IM
open Verif Dict Counter Dfg
variable {α : Type} [DecidableEq α]

/-- both or none of the two activities reach the other -/
def Amb (s : α → α → Bool) (a b : α) : Prop := (s a b = true ∧ s b a = true) ∨ (s a b = false ∧ s b a = false)

theorem Amb.symm {s : α → α → Bool} {a b : α} (h : Amb s a b) : Amb s b a := by
  rcases h with h | h
  · exact .inl ⟨h.2, h.1⟩
  · exact .inr ⟨h.2, h.1⟩

theorem checkMerge_iff (s : α → α → Bool) (g h : List α) :
    checkMerge s g h = true ↔ ∃ a ∈ g, ∃ b ∈ h, Amb s a b := by
  unfold checkMerge Amb
  simp only [List.any_eq_true, Bool.or_eq_true, Bool.and_eq_true, Bool.not_eq_true']

/-- a sequence of merges of ambiguous groups, up to the order of the groups -/
inductive Merges (s : α → α → Bool) : List (List α) → List (List α) → Prop
  | refl {gs gs'} : gs.Perm gs' → Merges s gs gs'
  | step {gs x y rest gs' gs''} : gs.Perm (x :: y :: rest) → checkMerge s x y = true → gs'.Perm (union x y :: rest) →
      Merges s gs' gs'' → Merges s gs gs''

theorem Merges.perm_left {s : α → α → Bool} {a b c : List (List α)} (h1 : a.Perm b) (h2 : Merges s b c) : Merges s a c := by
  cases h2 with
  | refl h => exact .refl (h1.trans h)
  | step p1 hc p2 h => exact .step (h1.trans p1) hc p2 h

theorem Merges.trans {s : α → α → Bool} {a b c : List (List α)} (h1 : Merges s a b) (h2 : Merges s b c) : Merges s a c := by
  induction h1 with
  | refl h => exact h2.perm_left h
  | step p1 hc p2 _ ih => exact .step p1 hc p2 (ih h2)

theorem Merges.cons {s : α → α → Bool} {a b : List (List α)} (z : List α) (h : Merges s a b) : Merges s (z :: a) (z :: b) := by
  induction h with
  | refl h => exact .refl (h.cons z)
  | @step gs x y rest gs' gs'' p1 hc p2 _ ih =>
    refine .step (rest := z :: rest) ?_ hc ?_ ih
    · exact (p1.cons z).trans ((List.Perm.swap _ _ _).trans ((List.Perm.swap _ _ _).cons x))
    · exact (p2.cons z).trans (List.Perm.swap _ _ _)

theorem Merges.partn {V : α → Prop} {s : α → α → Bool} {a b : List (List α)} (h : Merges s a b) (hp : Partn V a) :
    Partn V b := by
  induction h with
  | refl h => exact hp.perm h
  | step p1 _ p2 _ ih => exact ih (((hp.perm p1).merge (mem_union _ _)).perm p2.symm)

/-- the activities of the group are linked by ambiguous pairs -/
def Conn (s : α → α → Bool) (g : List α) : Prop :=
  ∀ P : α → Prop, (∀ a ∈ g, ∀ b ∈ g, Amb s a b → P a → P b) → ∀ a ∈ g, ∀ b ∈ g, P a → P b

theorem Conn.union {s : α → α → Bool} {g h : List α} (hg : Conn s g) (hh : Conn s h) (hm : checkMerge s g h = true) :
    Conn s (union g h) := by
  intro P hP
  obtain ⟨x, hx, y, hy, hxy⟩ := (checkMerge_iff s g h).1 hm
  have h1 := hg P fun a ha b hb => hP a (by simp [ha]) b (by simp [hb])
  have h2 := hh P fun a ha b hb => hP a (by simp [ha]) b (by simp [hb])
  have hxP := hP x (by simp [hx]) y (by simp [hy]) hxy
  have hyP := hP y (by simp [hy]) x (by simp [hx]) hxy.symm
  intro a ha b hb hPa
  rcases (mem_union g h a).1 ha with ha | ha <;> rcases (mem_union g h b).1 hb with hb | hb
  · exact h1 a ha b hb hPa
  · exact h2 y hy b hb (hxP (h1 a ha x hx hPa))
  · exact h1 x hx b hb (hyP (h2 a ha y hy hPa))
  · exact h2 a ha b hb hPa

theorem Merges.conn {s : α → α → Bool} {a b : List (List α)} (h : Merges s a b) (hc : ∀ g ∈ a, Conn s g) :
    ∀ g ∈ b, Conn s g := by
  induction h with
  | refl h => intro g hg; exact hc g (h.mem_iff.2 hg)
  | @step gs x y rest gs' gs'' p1 hm p2 _ ih =>
    apply ih
    intro g hg
    rw [p2.mem_iff] at hg
    rcases List.mem_cons.1 hg with rfl | hg
    · exact (hc x (p1.mem_iff.2 (by simp))).union (hc y (p1.mem_iff.2 (by simp))) hm
    · exact hc g (p1.mem_iff.2 (by simp [hg]))

theorem mergeRow_merges (s : α → α → Bool) (g : List α) (hs : List (List α)) :
    Merges s (g :: hs) ((mergeRow s g hs).1 :: (mergeRow s g hs).2) := by
  induction hs generalizing g with
  | nil => exact .refl (List.Perm.refl _)
  | cons h hs ih =>
    rw [mergeRow]
    split
    · rename_i hc
      exact .step (List.Perm.refl _) hc (List.Perm.refl _) (ih _)
    · exact ((ih g).cons h).perm_left (List.Perm.swap _ _ _) |>.trans (.refl (List.Perm.swap _ _ _))

theorem mergeGroups_merges (s : α → α → Bool) (n : Nat) (gs : List (List α)) : Merges s gs (mergeGroups s n gs) := by
  induction n generalizing gs with
  | zero => exact .refl (List.Perm.refl _)
  | succ n ih =>
    cases gs with
    | nil => exact .refl (List.Perm.refl _)
    | cons g gs => rw [mergeGroups]; exact (mergeRow_merges s g gs).trans ((ih _).cons _)

theorem mergeLoop_merges (s : α → α → Bool) (n : Nat) (gs : List (List α)) : Merges s gs (mergeLoop s n gs) := by
  induction n generalizing gs with
  | zero => exact .refl (List.Perm.refl _)
  | succ n ih =>
    rw [mergeLoop]
    split
    · exact mergeGroups_merges s _ gs
    · exact (mergeGroups_merges s _ gs).trans (ih _)

theorem mergeRow_length (s : α → α → Bool) (g : List α) (hs : List (List α)) :
    (mergeRow s g hs).2.length ≤ hs.length ∧
      ((mergeRow s g hs).2.length = hs.length → mergeRow s g hs = (g, hs) ∧ ∀ h ∈ hs, checkMerge s g h = false) := by
  induction hs generalizing g with
  | nil => simp [mergeRow]
  | cons h hs ih =>
    rw [mergeRow]
    split
    · have := (ih (union g h)).1
      refine ⟨by simp only [List.length_cons]; omega, ?_⟩
      intro he; simp only [List.length_cons] at he; omega
    · rename_i hc
      obtain ⟨h1, h2⟩ := ih g
      refine ⟨by simp only [List.length_cons]; omega, ?_⟩
      intro he
      simp only [List.length_cons, Nat.add_right_cancel_iff] at he
      obtain ⟨e, h3⟩ := h2 he
      rw [e]
      refine ⟨rfl, ?_⟩
      intro x hx
      rcases List.mem_cons.1 hx with rfl | hx
      · simpa using hc
      · exact h3 x hx

theorem mergeGroups_length (s : α → α → Bool) (n : Nat) (gs : List (List α)) :
    (mergeGroups s n gs).length ≤ gs.length ∧ (gs.length ≤ n → (mergeGroups s n gs).length = gs.length →
      mergeGroups s n gs = gs ∧ gs.Pairwise fun g h => checkMerge s g h = false) := by
  induction n generalizing gs with
  | zero =>
    refine ⟨Nat.le_refl _, ?_⟩
    intro h _
    have : gs = [] := by cases gs; rfl; simp at h
    subst this; simp [mergeGroups]
  | succ n ih =>
    cases gs with
    | nil => simp [mergeGroups]
    | cons g gs =>
      rw [mergeGroups]
      obtain ⟨r1, r2⟩ := mergeRow_length s g gs
      obtain ⟨i1, i2⟩ := ih (mergeRow s g gs).2
      refine ⟨by simp only [List.length_cons]; omega, ?_⟩
      intro hn he
      simp only [List.length_cons, Nat.add_right_cancel_iff, Nat.add_le_add_iff_right] at hn he
      obtain ⟨e, h3⟩ := r2 (by omega)
      rw [e] at i2 he ⊢
      obtain ⟨e2, h4⟩ := i2 hn he
      rw [e2]
      exact ⟨rfl, List.pairwise_cons.2 ⟨h3, h4⟩⟩

theorem mergeLoop_stable (s : α → α → Bool) (n : Nat) (gs : List (List α)) (h : gs.length ≤ n) :
    (mergeLoop s n gs).Pairwise fun g h => checkMerge s g h = false := by
  induction n generalizing gs with
  | zero =>
    have : gs = [] := by cases gs; rfl; simp at h
    subst this; simp [mergeLoop]
  | succ n ih =>
    rw [mergeLoop]
    obtain ⟨h1, h2⟩ := mergeGroups_length s gs.length gs
    split
    · rename_i he
      obtain ⟨e, h3⟩ := h2 (Nat.le_refl _) he
      rw [e]; exact h3
    · exact ih _ (by omega)

theorem conn_singleton (s : α → α → Bool) (a : α) : Conn s [a] := by
  intro P _ x hx y hy h
  rw [List.mem_singleton] at hx hy
  subst hx; subst hy; exact h

/-- the groups are pairwise unambiguous, so all pairs between two groups point in the same direction -/
theorem uniform {V : α → Prop} {s : α → α → Bool}
    (tr : ∀ a b c, V a → V b → V c → s a b = true → s b c = true → a ≠ c → s a c = true)
    {g h : List α} (hg : Conn s g) (hh : Conn s h) (hgV : ∀ a ∈ g, V a) (hhV : ∀ a ∈ h, V a)
    (hd : ∀ a ∈ g, a ∉ h) (hn : ∀ a ∈ g, ∀ b ∈ h, ¬ Amb s a b) {a a' b b' : α}
    (ha : a ∈ g) (ha' : a' ∈ g) (hb : b ∈ h) (hb' : b' ∈ h) (hs : s a b = true) : s a' b' = true := by
  have flip : ∀ a ∈ g, ∀ b ∈ h, (s a b = true ↔ s b a = false) := by
    intro a ha b hb
    have := hn a ha b hb
    unfold Amb at this
    cases h1 : s a b <;> cases h2 : s b a <;> simp_all
  have e1 : s a' b = true := by
    refine hg (fun x => s x b = true) ?_ a ha a' ha' hs
    intro x hx y hy hxy hxb
    by_cases exy : x = y
    · subst exy; exact hxb
    rcases hxy with hxy | hxy
    · exact tr y x b (hgV y hy) (hgV x hx) (hhV b hb) hxy.2 hxb (fun e => hd y hy (e ▸ hb))
    · rw [flip y hy b hb]
      cases hby : s b y with
      | false => rfl
      | true =>
        have := tr x b y (hgV x hx) (hhV b hb) (hgV y hy) hxb hby exy
        rw [this] at hxy; simp at hxy
  rw [flip a' ha' b' hb']
  have e2 := (flip a' ha' b hb).1 e1
  refine hh (fun x => s x a' = false) ?_ b hb b' hb' e2
  intro x hx y hy hxy hxa
  by_cases exy : x = y
  · subst exy; exact hxa
  have hax := (flip a' ha' x hx).2 hxa
  rcases hxy with hxy | hxy
  · rw [← flip a' ha' y hy]
    exact tr a' x y (hgV a' ha') (hhV x hx) (hhV y hy) hax hxy.1 (fun e => hd a' ha' (e ▸ hy))
  · cases hya : s y a' with
    | false => rfl
    | true =>
      have := tr y a' x (hhV y hy) (hgV a' ha') (hhV x hx) hya hax (fun e => exy e.symm)
      rw [this] at hxy; simp at hxy

/-! ### the sort key -/

theorem rounds_nodup (nodes : List α) (E : α → α → Bool) (hn : nodes.Nodup) (n : Nat) (S : List α) (hS : S.Nodup) :
    (rounds nodes E n S).Nodup := by
  induction n generalizing S with
  | zero => exact hS
  | succ n ih => exact ih _ (hn.sublist List.filter_sublist)

theorem descendants_nodup (nodes : List α) (E : α → α → Bool) (hn : nodes.Nodup) (a : α) : (descendants nodes E a).Nodup :=
  List.Nodup.sublist List.filter_sublist (rounds_nodup nodes E hn _ _ (by simp))

theorem Path.rev {nodes : List α} {E : α → α → Bool} {a b : α} (ha : a ∈ nodes) (h : Path nodes E a b) :
    Path nodes (fun x y => E y x) b a := by
  have : ∀ {b}, Path nodes E a b → b ∈ nodes ∧ Path nodes (fun x y => E y x) b a := by
    intro b h
    induction h with
    | refl => exact ⟨ha, .refl⟩
    | step _ h3 h4 ih => exact ⟨h4, (Path.step (E := fun x y => E y x) .refl h3 ih.1).trans ih.2⟩
  exact (this h).2

theorem length_le_of_subset {l m : List α} (hl : l.Nodup) (h : ∀ a ∈ l, a ∈ m) : l.length ≤ m.length := by
  induction l generalizing m with
  | nil => simp
  | cons x l ih =>
    rw [List.nodup_cons] at hl
    have hx := h x (by simp)
    have := ih (m := m.erase x) hl.2 (fun a ha => by
      have hne : a ≠ x := fun e => hl.1 (e ▸ ha)
      exact (List.mem_erase_of_ne hne).2 (h a (by simp [ha])))
    rw [List.length_erase_of_mem hx] at this
    have := List.length_pos_of_mem hx
    simp only [List.length_cons]; omega

theorem key_lt {env : Env α} {g : DFG α} (hn : (verts env g).Nodup) {a x : α} (ha : a ∈ verts env g) (hx : x ∈ verts env g)
    (h1 : succ env g a x = true) (h2 : succ env g x a = false) :
    ((descendants (verts env g) (fun x y => edge g y x) a).length : Int) +
      (((verts env g).length : Int) - (descendants (verts env g) (edge g) a).length) <
    ((descendants (verts env g) (fun x y => edge g y x) x).length : Int) +
      (((verts env g).length : Int) - (descendants (verts env g) (edge g) x).length) := by
  unfold succ at h1 h2
  rw [decide_eq_true_iff, mem_descendants _ _ _ ha] at h1
  rw [decide_eq_false_iff_not, mem_descendants _ _ _ hx] at h2
  have hax : a ≠ x := fun e => h1.1 e.symm
  have hxa : ¬ Path (verts env g) (edge g) x a := fun h => h2 ⟨hax, h⟩
  have revrev : ∀ {u v}, u ∈ verts env g → Path (verts env g) (fun x y => edge g y x) u v → Path (verts env g) (edge g) v u :=
    fun hu h => h.rev hu
  -- strictly more predecessors
  have hp : (descendants (verts env g) (fun x y => edge g y x) a).length + 1 ≤
      (descendants (verts env g) (fun x y => edge g y x) x).length := by
    have hnd : (a :: descendants (verts env g) (fun x y => edge g y x) a).Nodup := by
      rw [List.nodup_cons]
      refine ⟨?_, descendants_nodup _ _ hn _⟩
      rw [mem_descendants _ _ _ ha]; exact fun h => h.1 rfl
    have := length_le_of_subset hnd (m := descendants (verts env g) (fun x y => edge g y x) x) (by
      intro y hy
      rw [mem_descendants _ _ _ hx]
      rcases List.mem_cons.1 hy with rfl | hy
      · exact ⟨hax, h1.2.rev ha⟩
      · rw [mem_descendants _ _ _ ha] at hy
        refine ⟨?_, (h1.2.rev ha).trans hy.2⟩
        rintro rfl
        exact hxa (revrev ha hy.2))
    simpa using this
  have hs : (descendants (verts env g) (edge g) x).length ≤ (descendants (verts env g) (edge g) a).length := by
    apply length_le_of_subset (descendants_nodup _ _ hn _)
    intro y hy
    rw [mem_descendants _ _ _ hx] at hy
    rw [mem_descendants _ _ _ ha]
    refine ⟨?_, h1.2.trans hy.2⟩
    rintro rfl
    exact hxa hy.2
  omega

theorem succ_iff {env : Env α} {g : DFG α} {a b : α} (ha : a ∈ verts env g) :
    succ env g a b = true ↔ b ≠ a ∧ Path (verts env g) (edge g) a b := by
  unfold succ
  rw [decide_eq_true_iff, mem_descendants _ _ _ ha]

theorem succ_trans {env : Env α} {g : DFG α} (a b c : α) (ha : a ∈ verts env g) (hb : b ∈ verts env g)
    (h1 : succ env g a b = true) (h2 : succ env g b c = true) (hac : a ≠ c) : succ env g a c = true := by
  rw [succ_iff ha] at h1 ⊢
  rw [succ_iff hb] at h2
  exact ⟨fun e => hac e.symm, h1.2.trans h2.2⟩

/-- The groups are in order: no activity of a later group reaches an activity of an earlier group. -/
theorem holdsSeq_spec {env : Env α} (henv : env.Lawful) {L : UVCL α} {gs : List (List α)}
    (h : holdsSeq env (discoverUvcl L) = some gs) :
    Partn (Occ L) gs ∧ 1 < gs.length ∧
      gs.Pairwise fun g h => ∀ a ∈ g, ∀ b ∈ h, succ env (discoverUvcl L) a b = true ∧ succ env (discoverUvcl L) b a = false := by
  unfold holdsSeq at h
  simp only [] at h
  split at h
  · cases h
  split at h
  case isFalse => cases h
  rename_i _ hl
  cases h
  generalize hg : discoverUvcl L = g at *
  have hV : ∀ a, a ∈ verts env g ↔ Occ L a := by intro a; rw [← hg]; exact vert_iff env henv L a
  have hnd : (verts env g).Nodup := verts_nodup env henv g
  let gs0 := (verts env g).map fun a => [a]
  let gs1 := mergeLoop (succ env g) gs0.length gs0
  have p0 : Partn (· ∈ verts env g) gs0 := Partn.singletons _ hnd
  have m1 : Merges (succ env g) gs0 gs1 := mergeLoop_merges _ _ _
  have p1 : Partn (· ∈ verts env g) gs1 := m1.partn p0
  have c1 : ∀ x ∈ gs1, Conn (succ env g) x := m1.conn (by
    intro x hx
    obtain ⟨a, _, rfl⟩ := List.mem_map.1 hx
    exact conn_singleton _ _)
  have s1 : gs1.Pairwise fun x y => checkMerge (succ env g) x y = false := mergeLoop_stable _ _ _ (Nat.le_refl _)
  let gs2 := gs1.mergeSort fun x y => decide (seqKey env g x ≤ seqKey env g y)
  have hperm : gs2.Perm gs1 := List.mergeSort_perm _ _
  have p2 : Partn (· ∈ verts env g) gs2 := p1.perm hperm.symm
  have s2 : gs2.Pairwise fun x y => ∀ a ∈ x, ∀ b ∈ y, ¬ Amb (succ env g) a b := by
    have : gs1.Pairwise fun x y => ∀ a ∈ x, ∀ b ∈ y, ¬ Amb (succ env g) a b := by
      refine s1.imp ?_
      intro x y hxy a ha b hb hab
      rw [Bool.eq_false_iff] at hxy
      exact hxy ((checkMerge_iff _ _ _).2 ⟨a, ha, b, hb, hab⟩)
    refine (hperm.symm.pairwise_iff ?_).1 this
    intro x y hxy a ha b hb hab
    exact hxy b hb a ha hab.symm
  have o2 : gs2.Pairwise fun x y => seqKey env g x ≤ seqKey env g y := by
    have := List.pairwise_mergeSort (le := fun x y => decide (seqKey env g x ≤ seqKey env g y))
      (by intro a b c; simp only [decide_eq_true_iff]; omega) (by intro a b; simp only [Bool.or_eq_true, decide_eq_true_iff]; omega) gs1
    exact this.imp (by intro a b; simp)
  refine ⟨p2.congr hV, hl, ?_⟩
  have hall := (p2.disj.and s2).and o2
  refine List.Pairwise.imp_of_mem ?_ hall
  rintro x y hx hy ⟨⟨hd, hn⟩, hk⟩
  have hxV : ∀ a ∈ x, a ∈ verts env g := fun a ha => (p2.cover a).2 ⟨x, hx, ha⟩
  have hyV : ∀ a ∈ y, a ∈ verts env g := fun a ha => (p2.cover a).2 ⟨y, hy, ha⟩
  have cx := c1 x (hperm.mem_iff.1 hx)
  have cy := c1 y (hperm.mem_iff.1 hy)
  have rep : ∀ z, (∃ a, a ∈ z) → ∃ a, a ∈ z ∧ seqKey env g z =
      ((descendants (verts env g) (fun x y => edge g y x) a).length : Int) +
      (((verts env g).length : Int) - (descendants (verts env g) (edge g) a).length) := by
    rintro z ⟨a, ha⟩
    unfold seqKey
    cases hh : (env.iter z).head? with
    | none =>
      rw [List.head?_eq_none_iff] at hh
      have := (henv.iter_mem z a).2 ha
      rw [hh] at this; simp at this
    | some b =>
      exact ⟨b, (henv.iter_mem z b).1 (List.mem_of_mem_head? hh), rfl⟩
  obtain ⟨a0, ha0, k1⟩ := rep x (p2.pos hx)
  obtain ⟨b0, hb0, k2⟩ := rep y (p2.pos hy)
  have tr : ∀ a b c, a ∈ verts env g → b ∈ verts env g → c ∈ verts env g → succ env g a b = true → succ env g b c = true →
      a ≠ c → succ env g a c = true := fun a b c ha hb _ => succ_trans a b c ha hb
  have dir : succ env g a0 b0 = true := by
    cases h1 : succ env g a0 b0 with
    | true => rfl
    | false =>
      cases h2 : succ env g b0 a0 with
      | false => exact absurd (.inr ⟨h1, h2⟩) (hn a0 ha0 b0 hb0)
      | true =>
        have := key_lt hnd (hyV b0 hb0) (hxV a0 ha0) h2 h1
        omega
  intro a ha b hb
  have h1 := uniform tr cx cy hxV hyV hd hn ha0 ha hb0 hb dir
  refine ⟨h1, ?_⟩
  cases h2 : succ env g b a with
  | false => rfl
  | true => exact absurd (.inl ⟨h1, h2⟩) (hn a ha b hb)

end Verif.IM
