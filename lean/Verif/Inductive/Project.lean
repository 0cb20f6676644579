import Verif.Inductive.Strict
import Verif.PTree.LangLemmas
/-
Inductive miner: the projections split every trace correctly.
-/
namespace Verif.IM
open Verif Dict Counter Dfg
variable {α : Type} [DecidableEq α]

/-- `logs` is a split of `L` along the groups -/
structure Split (L : UVCL α) (gs : List (List α)) (logs : List (UVCL α)) : Prop where
  len : logs.length = gs.length
  sub : ∀ (i : Nat) (l : UVCL α) (g : List α), logs[i]? = some l → gs[i]? = some g → ∀ w ∈ keys l, ∀ x ∈ w, x ∈ g
  cover : ∀ a, Occ L a → ∃ l ∈ logs, Occ l a
  nodup : ∀ l ∈ logs, (keys l).Nodup

/-- the traces of every sublog are accepted by the corresponding language; for an empty sublog this is the empty trace -/
structure Fits (logs : List (UVCL α)) (Ms : List (Lang α)) : Prop where
  len : Ms.length = logs.length
  fit : ∀ (i : Nat) (l : UVCL α) (M : Lang α), logs[i]? = some l → Ms[i]? = some M → ∀ w ∈ keys l, M w
  empty : ∀ (i : Nat) (M : Lang α), logs[i]? = some [] → Ms[i]? = some M → M []

theorem Fits.get {logs : List (UVCL α)} {Ms : List (Lang α)} (h : Fits logs Ms) {i : Nat} {l : UVCL α}
    (hi : logs[i]? = some l) : ∃ M ∈ Ms, Ms[i]? = some M ∧ ∀ w ∈ keys l, M w := by
  obtain ⟨hil, _⟩ := List.getElem?_eq_some_iff.1 hi
  have hm : i < Ms.length := by rw [h.len]; exact hil
  exact ⟨Ms[i], List.getElem_mem hm, List.getElem?_eq_getElem hm, h.fit i l _ hi (List.getElem?_eq_getElem hm)⟩

/-- a property that goes from each element of a list to the next -/
theorem chain_all (P : α → Prop) (t : List α) (h0 : ∀ a v, t = a :: v → P a)
    (hs : ∀ u a b v, t = u ++ a :: b :: v → P a → P b) : ∀ x ∈ t, P x := by
  induction t with
  | nil => simp
  | cons a t ih =>
    have ha : P a := h0 a t rfl
    intro x hx
    rcases List.mem_cons.1 hx with rfl | hx
    · exact ha
    · refine ih ?_ ?_ x hx
      · rintro b v rfl; exact hs [] a b v rfl ha
      · rintro u c d v rfl; exact hs (a :: u) c d v rfl

/-! ### the index with the largest count -/

theorem best_eq (counts : List Nat) (i c : Nat) (hi : counts[i]? = some c)
    (h : ∀ j d, j ≠ i → counts[j]? = some d → d < c) : best counts = i := by
  unfold best
  have hperm := List.mergeSort_perm counts.zipIdx fun x y => decide (y.1 < x.1 ∨ (y.1 = x.1 ∧ y.2 ≤ x.2))
  have hpw := List.pairwise_mergeSort (le := fun x y : Nat × Nat => decide (y.1 < x.1 ∨ (y.1 = x.1 ∧ y.2 ≤ x.2)))
    (by intro a b c; simp only [decide_eq_true_iff]; omega)
    (by intro a b; simp only [Bool.or_eq_true, decide_eq_true_iff]; omega) counts.zipIdx
  generalize counts.zipIdx.mergeSort (fun x y => decide (y.1 < x.1 ∨ (y.1 = x.1 ∧ y.2 ≤ x.2))) = s at *
  have hmem : (c, i) ∈ s := hperm.mem_iff.2 (List.mem_zipIdx_iff_getElem?.2 hi)
  cases s with
  | nil => simp at hmem
  | cons x s =>
    simp only [List.head?_cons, Option.getD_some]
    have hx : x ∈ counts.zipIdx := hperm.mem_iff.1 (by simp)
    have hx' : counts[x.2]? = some x.1 := List.mem_zipIdx_iff_getElem?.1 hx
    rcases List.mem_cons.1 hmem with e | hm
    · rw [← e]
    · have := (List.pairwise_cons.1 hpw).1 _ hm
      simp only [decide_eq_true_iff] at this
      by_cases hxi : x.2 = i
      · exact hxi
      · have := h x.2 x.1 hxi hx'; omega

theorem best_lt (counts : List Nat) (h : counts ≠ []) : best counts < counts.length := by
  unfold best
  have hperm := List.mergeSort_perm counts.zipIdx fun x y => decide (y.1 < x.1 ∨ (y.1 = x.1 ∧ y.2 ≤ x.2))
  generalize counts.zipIdx.mergeSort (fun x y => decide (y.1 < x.1 ∨ (y.1 = x.1 ∧ y.2 ≤ x.2))) = s at *
  cases s with
  | nil =>
    have := hperm.length_eq
    simp at this
    cases counts with
    | nil => exact absurd rfl h
    | cons _ _ => simp at this
  | cons x s =>
    simp only [List.head?_cons, Option.getD_some]
    have hx' : counts[x.2]? = some x.1 := List.mem_zipIdx_iff_getElem?.1 (hperm.mem_iff.1 (by simp))
    exact (List.getElem?_eq_some_iff.1 hx').1

/-- the group in which all activities of a non-empty trace are wins -/
theorem best_group {V : α → Prop} {gs : List (List α)} (hp : Partn V gs) (t : List α) (ht : t ≠ []) (i : Nat) (g : List α)
    (hi : gs[i]? = some g) (ha : ∀ x ∈ t, x ∈ g) (m : List α → List α) (hm : ∀ x, x ∈ m t ↔ x ∈ t) :
    best (gs.map fun g => ((m t).filter fun x => decide (x ∈ g)).length) = i := by
  have hpos : 0 < (m t).length := by
    cases t with
    | nil => exact absurd rfl ht
    | cons x t => exact List.length_pos_of_mem ((hm x).2 (by simp))
  refine best_eq _ i (m t).length ?_ ?_
  · rw [List.getElem?_map, hi]
    simp only [Option.map_some, Option.some.injEq]
    rw [List.filter_eq_self.2]
    intro x hx; simpa using ha x ((hm x).1 hx)
  · intro j d hj hd
    rw [List.getElem?_map, Option.map_eq_some_iff] at hd
    obtain ⟨h, hh, rfl⟩ := hd
    rw [List.filter_eq_nil_iff.2]
    · exact hpos
    · intro x hx
      simp only [decide_eq_true_iff]
      intro hxh
      exact hj (hp.unique hh hi hxh (ha x ((hm x).1 hx)))

/-! ### exclusive choice -/

theorem getElem?_modify' {β : Type} (l : List β) (i : Nat) (f : β → β) (j : Nat) :
    (l.modify i f)[j]? = if i = j then l[j]?.map f else l[j]? := by
  rw [List.getElem?_modify]
  split <;> cases l[j]? <;> rfl

/-- adding one trace to the log at a given position, for every element of a list -/
theorem foldl_modify_inc {β : Type} (l : List β) (k : β → Nat) (w : β → List α) (n : β → Int) (logs : List (UVCL α)) :
    (l.foldl (fun logs b => logs.modify (k b) fun d => inc d (w b) (n b)) logs).length = logs.length ∧
    ∀ (i : Nat) (lg : UVCL α), (l.foldl (fun logs b => logs.modify (k b) fun d => inc d (w b) (n b)) logs)[i]? = some lg →
      ∃ lg0, logs[i]? = some lg0 ∧ (∀ v, v ∈ keys lg ↔ v ∈ keys lg0 ∨ ∃ b ∈ l, k b = i ∧ w b = v) ∧
        ((keys lg0).Nodup → (keys lg).Nodup) := by
  induction l generalizing logs with
  | nil => exact ⟨rfl, fun i lg h => ⟨lg, h, by simp, id⟩⟩
  | cons b l ih =>
    rw [List.foldl_cons]
    obtain ⟨h1, h2⟩ := ih (logs.modify (k b) fun d => inc d (w b) (n b))
    refine ⟨by rw [h1, List.length_modify], ?_⟩
    intro i lg h
    obtain ⟨lg1, e1, e2, e3⟩ := h2 i lg h
    rw [getElem?_modify'] at e1
    by_cases hk : k b = i
    · rw [if_pos hk, Option.map_eq_some_iff] at e1
      obtain ⟨lg0, e0, rfl⟩ := e1
      refine ⟨lg0, e0, ?_, fun hn => e3 (nodup_inc hn _ _)⟩
      intro v
      rw [e2, keys_inc]
      simp only [List.mem_cons, exists_eq_or_imp, hk, true_and]
      grind
    · rw [if_neg hk] at e1
      refine ⟨lg1, e1, ?_, e3⟩
      intro v
      rw [e2]
      simp [hk]

theorem xor_ok {L : UVCL α} {gs : List (List α)} (hp : Partn (Occ L) gs)
    (hf : ∀ a b, Fol L a b → ∀ g ∈ gs, a ∈ g ↔ b ∈ g) (hne : [] ∉ keys L) :
    Split L gs (projectXor L gs) ∧ ∀ Ms, Fits (projectXor L gs) Ms → ∀ t ∈ keys L, Lang.xorL Ms t := by
  -- every trace lies in one group
  have hone : ∀ t ∈ keys L, ∃ (i : Nat) (g : List α), gs[i]? = some g ∧ ∀ x ∈ t, x ∈ g := by
    intro t ht
    cases t with
    | nil => exact absurd ht hne
    | cons a t =>
      obtain ⟨g, hg, ha⟩ := (hp.cover a).1 ⟨_, ht, by simp⟩
      obtain ⟨i, hi⟩ := List.getElem?_of_mem hg
      refine ⟨i, g, hi, chain_all (· ∈ g) _ ?_ ?_⟩
      · rintro b v e; obtain ⟨rfl, rfl⟩ := List.cons.inj e; exact ha
      · rintro u c d v e hc
        exact (hf c d ⟨_, ht, u, v, e⟩ g hg).1 hc
  let kf : List α × Int → Nat := fun e => best (gs.map fun g => (e.1.filter fun x => decide (x ∈ g)).length)
  let wf : List α × Int → List α := fun e => e.1.filter fun x => decide (x ∈ gs.getD (kf e) [])
  have hproj : projectXor L gs = L.foldl (fun logs b => logs.modify (kf b) fun d => inc d (wf b) b.2) (gs.map fun _ => []) := rfl
  obtain ⟨hlen, hget⟩ := foldl_modify_inc L kf wf (fun e => e.2) (gs.map fun _ => [])
  rw [← hproj] at hlen hget
  -- what happens to a trace
  have hk : ∀ e ∈ L, ∃ (i : Nat) (g : List α), gs[i]? = some g ∧ kf e = i ∧ wf e = e.1 ∧ ∀ x ∈ e.1, x ∈ g := by
    intro e he
    have het : e.1 ∈ keys L := List.mem_map.2 ⟨e, he, rfl⟩
    obtain ⟨i, g, hi, ha⟩ := hone e.1 het
    have hne' : e.1 ≠ [] := fun h => hne (h ▸ het)
    have hki : kf e = i := best_group hp e.1 hne' i g hi ha id (by simp)
    refine ⟨i, g, hi, hki, ?_, ha⟩
    simp only [wf]
    rw [hki, List.filter_eq_self]
    intro x hx
    simp [List.getD_eq_getElem?_getD, hi, ha x hx]
  have hkeys : ∀ (i : Nat) (lg : UVCL α), (projectXor L gs)[i]? = some lg → ∀ v, v ∈ keys lg ↔ ∃ e ∈ L, kf e = i ∧ wf e = v := by
    intro i lg hlg v
    obtain ⟨lg0, e0, e1, _⟩ := hget i lg hlg
    rw [List.getElem?_map, Option.map_eq_some_iff] at e0
    obtain ⟨_, _, rfl⟩ := e0
    rw [e1]; simp
  have hex : ∀ e ∈ L, ∃ (i : Nat) (lg : UVCL α), (projectXor L gs)[i]? = some lg ∧ e.1 ∈ keys lg := by
    intro e he
    obtain ⟨i, g, hi, hki, hw, _⟩ := hk e he
    have hil : i < (projectXor L gs).length := by
      rw [hlen, List.length_map]; exact (List.getElem?_eq_some_iff.1 hi).1
    exact ⟨i, _, List.getElem?_eq_getElem hil, (hkeys i _ (List.getElem?_eq_getElem hil) _).2 ⟨e, he, hki, hw⟩⟩
  refine ⟨⟨by rw [hlen, List.length_map], ?_, ?_, ?_⟩, ?_⟩
  · intro i l g hl hg w hw x hx
    obtain ⟨e, he, hki, rfl⟩ := (hkeys i l hl w).1 hw
    obtain ⟨i', g', hi', hki', hw', ha⟩ := hk e he
    rw [hw'] at hx
    have : i' = i := by omega
    subst this
    rw [hg] at hi'; cases hi'
    exact ha x hx
  · rintro a ⟨t, ht, ha⟩
    obtain ⟨e, he, rfl⟩ := List.mem_map.1 ht
    obtain ⟨i, lg, h1, h2⟩ := hex e he
    exact ⟨lg, List.mem_of_getElem? h1, _, h2, ha⟩
  · intro l hl
    obtain ⟨i, hi⟩ := List.getElem?_of_mem hl
    obtain ⟨lg0, e0, _, e2⟩ := hget i l hi
    rw [List.getElem?_map, Option.map_eq_some_iff] at e0
    obtain ⟨_, _, rfl⟩ := e0
    exact e2 (by simp)
  · intro Ms hM t ht
    obtain ⟨e, he, rfl⟩ := List.mem_map.1 ht
    obtain ⟨i, lg, h1, h2⟩ := hex e he
    obtain ⟨M, hMm, _, hM'⟩ := hM.get h1
    exact ⟨M, hMm, hM' _ h2⟩

/-! ### sequence -/

theorem splitLoop_run (grp ign : List α) (r1 r2 : List α) (h : ∀ x ∈ r1, x ∈ grp) (i : Nat) (cost : Int) :
    splitLoop grp ign (r1 ++ r2) i cost cost i = splitLoop grp ign r2 (i + r1.length) (cost - r1.length) (cost - r1.length)
      (i + r1.length) := by
  induction r1 generalizing i cost with
  | nil => simp
  | cons x r1 ih =>
    rw [List.cons_append, splitLoop]
    simp only [h x (by simp), if_true]
    rw [if_pos (by omega), ih (fun y hy => h y (by simp [hy]))]
    simp only [List.length_cons, Int.natCast_add, Int.natCast_one]
    congr 1 <;> omega

theorem splitLoop_rest (grp ign : List α) (r : List α) (h : ∀ x ∈ r, x ∉ grp) (i : Nat) (cost least : Int) (pos : Nat)
    (hc : least ≤ cost) : splitLoop grp ign r i cost least pos = pos := by
  induction r generalizing i cost with
  | nil => rfl
  | cons x r ih =>
    rw [splitLoop]
    simp only [h x (by simp), if_false]
    have ih' := ih fun y hy => h y (by simp [hy])
    by_cases hi : x ∈ ign
    · simp only [hi, not_true_eq_false, if_false]
      rw [if_neg (by omega)]; exact ih' _ _ hc
    · simp only [hi, not_false_eq_true, if_true]
      rw [if_neg (by omega)]; exact ih' _ _ (by omega)

theorem seqPieces_ok (gs : List (List α)) (hd : gs.Pairwise fun g h => ∀ a ∈ g, a ∉ h) (u v ign : List α)
    (hv : ∀ x ∈ v, ∃ g ∈ gs, x ∈ g)
    (ho : ∀ p a b q, v = p ++ a :: b :: q → gs.Pairwise fun g h => ¬ (b ∈ g ∧ a ∈ h)) :
    (seqPieces (u ++ v) gs u.length ign).length = gs.length ∧
    (seqPieces (u ++ v) gs u.length ign).flatten = v ∧
    ∀ (i : Nat) (w g : List α), (seqPieces (u ++ v) gs u.length ign)[i]? = some w → gs[i]? = some g → ∀ x ∈ w, x ∈ g := by
  induction gs generalizing u v ign with
  | nil =>
    have : v = [] := by
      cases v with
      | nil => rfl
      | cons x v => obtain ⟨g, hg, _⟩ := hv x (by simp); simp at hg
    subst this
    simp [seqPieces]
  | cons g gs ih =>
    rw [List.pairwise_cons] at hd
    let r1 := v.takeWhile fun x => decide (x ∈ g)
    let r2 := v.dropWhile fun x => decide (x ∈ g)
    have hv12 : v = r1 ++ r2 := List.takeWhile_append_dropWhile.symm
    have hr1 : ∀ x ∈ r1, x ∈ g := by
      intro x hx
      have := List.all_takeWhile (p := fun x => decide (x ∈ g)) (l := v)
      rw [List.all_eq_true] at this
      simpa using this x hx
    have hr2 : ∀ x ∈ r2, x ∉ g := by
      apply chain_all (fun x => x ∉ g)
      · intro a q he
        have := List.head?_dropWhile_not (fun x => decide (x ∈ g)) v
        rw [show v.dropWhile (fun x => decide (x ∈ g)) = a :: q from he] at this
        simpa using this
      · intro p a b q he ha hb
        have hx : v = (r1 ++ p) ++ a :: b :: q := by rw [hv12, he, List.append_assoc]
        have := ho _ a b q hx
        rw [List.pairwise_cons] at this
        obtain ⟨h, hh, hah⟩ := hv a (by rw [hx]; simp)
        rcases List.mem_cons.1 hh with rfl | hh
        · exact ha hah
        · exact this.1 h hh ⟨hb, hah⟩
    have hsp : findSplit (u ++ v) g u.length ign = u.length + r1.length := by
      unfold findSplit
      rw [List.drop_left, hv12, splitLoop_run g ign r1 r2 hr1, splitLoop_rest g ign r2 hr2 _ _ _ _ (Int.le_refl _)]
    have hpiece : (((u ++ v).drop u.length).take (findSplit (u ++ v) g u.length ign - u.length)).filter
        (fun x => decide (x ∈ g)) = r1 := by
      rw [hsp, List.drop_left, Nat.add_sub_cancel_left, hv12, List.take_left, List.filter_eq_self]
      intro x hx; simpa using hr1 x hx
    have hrec := ih hd.2 (u ++ r1) r2 (union ign g) (by
        intro x hx
        obtain ⟨h, hh, hxh⟩ := hv x (by rw [hv12]; simp [hx])
        rcases List.mem_cons.1 hh with rfl | hh
        · exact absurd hxh (hr2 x hx)
        · exact ⟨h, hh, hxh⟩) (by
        intro p a b q he
        exact (List.pairwise_cons.1 (ho (r1 ++ p) a b q (by rw [hv12, he, List.append_assoc]))).2)
    have heq : u ++ r1 ++ r2 = u ++ v := by rw [List.append_assoc, ← hv12]
    rw [heq, List.length_append] at hrec
    have hdef : seqPieces (u ++ v) (g :: gs) u.length ign = r1 :: seqPieces (u ++ v) gs (u.length + r1.length) (union ign g) := by
      rw [seqPieces]; rw [hpiece, hsp]
    rw [hdef]
    obtain ⟨i1, i2, i3⟩ := hrec
    refine ⟨by simp [i1], by rw [List.flatten_cons, i2, ← hv12], ?_⟩
    intro i w h hw hh
    cases i with
    | zero => simp at hw hh; subst hw; subst hh; exact hr1
    | succ i => simp at hw hh; exact i3 i w h hw hh

theorem seqL_pieces (ws : List (List α)) (Ms : List (Lang α)) (hl : Ms.length = ws.length)
    (h : ∀ (i : Nat) (w : List α) (M : Lang α), ws[i]? = some w → Ms[i]? = some M → M w) : Lang.seqL Ms ws.flatten := by
  induction ws generalizing Ms with
  | nil => cases Ms with
    | nil => rfl
    | cons _ _ => simp at hl
  | cons w ws ih =>
    cases Ms with
    | nil => simp at hl
    | cons M Ms =>
      refine ⟨w, ws.flatten, h 0 w M (by simp) (by simp), ih Ms (by simpa using hl) ?_, by simp⟩
      intro i w' M' h1 h2
      exact h (i + 1) w' M' (by simpa using h1) (by simpa using h2)

theorem addAll_get (n : Int) (logs : List (UVCL α)) (ws : List (List α)) (h : ws.length = logs.length) (i : Nat) :
    (addAll n logs ws).length = logs.length ∧ ∀ lg, (addAll n logs ws)[i]? = some lg →
      ∃ l w, logs[i]? = some l ∧ ws[i]? = some w ∧ lg = inc l w n := by
  induction logs generalizing ws i with
  | nil => cases ws <;> simp [addAll]
  | cons l logs ih =>
    cases ws with
    | nil => simp at h
    | cons w ws =>
      rw [addAll]
      refine ⟨by simp [(ih ws (by simpa using h) 0).1], ?_⟩
      intro lg hlg
      cases i with
      | zero => simp at hlg; exact ⟨l, w, by simp, by simp, hlg.symm⟩
      | succ i =>
        simp at hlg
        obtain ⟨l', w', h1, h2, h3⟩ := (ih ws (by simpa using h) i).2 lg hlg
        exact ⟨l', w', by simpa using h1, by simpa using h2, h3⟩

theorem foldl_addAll {β : Type} (l : List β) (n : β → Int) (ws : β → List (List α)) (logs : List (UVCL α))
    (hw : ∀ b ∈ l, (ws b).length = logs.length) :
    (l.foldl (fun logs b => addAll (n b) logs (ws b)) logs).length = logs.length ∧
    ∀ (i : Nat) (lg : UVCL α), (l.foldl (fun logs b => addAll (n b) logs (ws b)) logs)[i]? = some lg →
      ∃ lg0, logs[i]? = some lg0 ∧ (∀ v, v ∈ keys lg ↔ v ∈ keys lg0 ∨ ∃ b ∈ l, (ws b)[i]? = some v) ∧
        ((keys lg0).Nodup → (keys lg).Nodup) := by
  induction l generalizing logs with
  | nil => exact ⟨rfl, fun i lg h => ⟨lg, h, by simp, id⟩⟩
  | cons b l ih =>
    rw [List.foldl_cons]
    have hb := hw b (by simp)
    have hlen := (addAll_get (n b) logs (ws b) hb 0).1
    obtain ⟨h1, h2⟩ := ih (addAll (n b) logs (ws b)) (fun c hc => by rw [hlen]; exact hw c (by simp [hc]))
    refine ⟨by rw [h1, hlen], ?_⟩
    intro i lg h
    obtain ⟨lg1, e1, e2, e3⟩ := h2 i lg h
    obtain ⟨l0, w, g1, g2, rfl⟩ := (addAll_get (n b) logs (ws b) hb i).2 lg1 e1
    refine ⟨l0, g1, ?_, fun hn => e3 (nodup_inc hn _ _)⟩
    intro v
    rw [e2, keys_inc]
    simp only [List.mem_cons, exists_eq_or_imp, g2, Option.some.injEq]
    grind

theorem seq_ok {L : UVCL α} {gs : List (List α)} (hp : Partn (Occ L) gs) (ho : Ordered L gs) :
    Split L gs (projectSeq L gs) ∧ ∀ Ms, Fits (projectSeq L gs) Ms → ∀ t ∈ keys L, Lang.seqL Ms t := by
  have hpc : ∀ t ∈ keys L, (seqPieces t gs 0 []).length = gs.length ∧ (seqPieces t gs 0 []).flatten = t ∧
      ∀ (i : Nat) (w g : List α), (seqPieces t gs 0 [])[i]? = some w → gs[i]? = some g → ∀ x ∈ w, x ∈ g := by
    intro t ht
    have := seqPieces_ok gs hp.disj [] t [] (fun x hx => (hp.cover x).1 ⟨t, ht, hx⟩) (by
      intro p a b q he
      refine ho.imp ?_
      rintro g h hgh ⟨hb, ha⟩
      exact hgh b hb a ha ⟨t, ht, p, q, he⟩)
    simpa using this
  have hproj : projectSeq L gs = L.foldl (fun logs b => addAll b.2 logs (seqPieces b.1 gs 0 [])) (gs.map fun _ => []) := rfl
  obtain ⟨hlen, hget⟩ := foldl_addAll L (fun e => e.2) (fun e => seqPieces e.1 gs 0 []) (gs.map fun _ => []) (by
    intro e he; rw [(hpc e.1 (List.mem_map.2 ⟨e, he, rfl⟩)).1]; simp)
  rw [← hproj] at hlen hget
  have hkeys : ∀ (i : Nat) (lg : UVCL α), (projectSeq L gs)[i]? = some lg → ∀ v, v ∈ keys lg ↔ ∃ t ∈ keys L, (seqPieces t gs 0 [])[i]? = some v := by
    intro i lg hlg v
    obtain ⟨lg0, e0, e1, _⟩ := hget i lg hlg
    rw [List.getElem?_map, Option.map_eq_some_iff] at e0
    obtain ⟨_, _, rfl⟩ := e0
    rw [e1]
    simp only [keys_nil, List.not_mem_nil, false_or]
    constructor
    · rintro ⟨e, he, h⟩; exact ⟨e.1, List.mem_map.2 ⟨e, he, rfl⟩, h⟩
    · rintro ⟨t, ht, h⟩
      obtain ⟨e, he, rfl⟩ := List.mem_map.1 ht
      exact ⟨e, he, h⟩
  have hlen' : (projectSeq L gs).length = gs.length := by rw [hlen, List.length_map]
  refine ⟨⟨hlen', ?_, ?_, ?_⟩, ?_⟩
  · intro i l g hl hg w hw
    obtain ⟨t, ht, hw'⟩ := (hkeys i l hl w).1 hw
    exact (hpc t ht).2.2 i w g hw' hg
  · rintro a ⟨t, ht, ha⟩
    obtain ⟨h1, h2, _⟩ := hpc t ht
    rw [← h2, List.mem_flatten] at ha
    obtain ⟨w, hw, ha⟩ := ha
    obtain ⟨i, hi⟩ := List.getElem?_of_mem hw
    have hil : i < (projectSeq L gs).length := by
      rw [hlen', ← h1]; exact (List.getElem?_eq_some_iff.1 hi).1
    exact ⟨_, List.getElem_mem hil, w, (hkeys i _ (List.getElem?_eq_getElem hil) w).2 ⟨t, ht, hi⟩, ha⟩
  · intro l hl
    obtain ⟨i, hi⟩ := List.getElem?_of_mem hl
    obtain ⟨lg0, e0, _, e2⟩ := hget i l hi
    rw [List.getElem?_map, Option.map_eq_some_iff] at e0
    obtain ⟨_, _, rfl⟩ := e0
    exact e2 (by simp)
  · intro Ms hM t ht
    obtain ⟨h1, h2, _⟩ := hpc t ht
    have := seqL_pieces (seqPieces t gs 0 []) Ms (by rw [hM.len, hlen', h1]) (by
      intro i w M hw hMi
      have hil : i < (projectSeq L gs).length := by
        rw [hlen', ← h1]; exact (List.getElem?_eq_some_iff.1 hw).1
      exact hM.fit i _ M (List.getElem?_eq_getElem hil) hMi w ((hkeys i _ (List.getElem?_eq_getElem hil) w).2 ⟨t, ht, hw⟩))
    rwa [h2] at this

/-! ### concurrency -/

theorem parL_filter (gs : List (List α)) (hd : gs.Pairwise fun g h => ∀ a ∈ g, a ∉ h) (t : List α)
    (ht : ∀ x ∈ t, ∃ g ∈ gs, x ∈ g) (Ms : List (Lang α)) (hl : Ms.length = gs.length)
    (hM : ∀ (i : Nat) (g : List α) (M : Lang α), gs[i]? = some g → Ms[i]? = some M → M (t.filter fun x => decide (x ∈ g))) : Lang.parL Ms t := by
  induction gs generalizing t Ms with
  | nil =>
    cases Ms with
    | cons _ _ => simp at hl
    | nil =>
      cases t with
      | nil => rfl
      | cons x t => obtain ⟨g, hg, _⟩ := ht x (by simp); simp at hg
  | cons g gs ih =>
    cases Ms with
    | nil => simp at hl
    | cons M Ms =>
      rw [List.pairwise_cons] at hd
      refine ⟨t.filter fun x => decide (x ∈ g), t.filter fun x => !decide (x ∈ g), hM 0 g M (by simp) (by simp), ?_,
        Lang.Shuffle.of_filter _ t⟩
      apply ih hd.2 _ _ Ms (by simpa using hl)
      · intro i h M' hh hM'
        have := hM (i + 1) h M' (by simpa using hh) (by simpa using hM')
        rw [List.filter_filter]
        have he : (t.filter fun a => decide (a ∈ h) && !decide (a ∈ g)) = t.filter fun x => decide (x ∈ h) := by
          apply List.filter_congr
          intro x _
          by_cases hx : x ∈ h
          · have : x ∉ g := fun hg => hd.1 h (List.mem_of_getElem? hh) x hg hx
            simp [hx, this]
          · simp [hx]
        rw [he]; exact this
      · intro x hx
        rw [List.mem_filter] at hx
        obtain ⟨h, hh, hxh⟩ := ht x hx.1
        rcases List.mem_cons.1 hh with rfl | hh
        · simp [hxh] at hx
        · exact ⟨h, hh, hxh⟩

theorem nodup_foldl {κ ν β : Type} [DecidableEq κ] (f : Dict κ ν → β → Dict κ ν) (hf : ∀ d b, (keys d).Nodup → (keys (f d b)).Nodup)
    (l : List β) (d : Dict κ ν) (hd : (keys d).Nodup) : (keys (l.foldl f d)).Nodup := by
  induction l generalizing d with
  | nil => exact hd
  | cons b l ih => exact ih _ (hf d b hd)

theorem par_split {L : UVCL α} {gs : List (List α)} (hp : Partn (Occ L) gs) (logs : List (UVCL α))
    (hlen : logs.length = gs.length)
    (hkeys : ∀ (i : Nat) (l : UVCL α) (g : List α), logs[i]? = some l → gs[i]? = some g → (keys l).Nodup ∧
      ∀ w, w ∈ keys l ↔ ∃ t ∈ keys L, w = t.filter fun x => decide (x ∈ g)) :
    Split L gs logs ∧ ∀ Ms, Fits logs Ms → ∀ t ∈ keys L, Lang.parL Ms t := by
  have hget : ∀ (i : Nat) (g : List α), gs[i]? = some g → ∃ l, logs[i]? = some l := by
    intro i g hg
    have : i < logs.length := by rw [hlen]; exact (List.getElem?_eq_some_iff.1 hg).1
    exact ⟨_, List.getElem?_eq_getElem this⟩
  refine ⟨⟨hlen, ?_, ?_, ?_⟩, ?_⟩
  · intro i l g hl hg w hw x hx
    obtain ⟨t, _, rfl⟩ := ((hkeys i l g hl hg).2 w).1 hw
    simpa using (List.mem_filter.1 hx).2
  · rintro a ⟨t, ht, ha⟩
    obtain ⟨g, hg, hag⟩ := (hp.cover a).1 ⟨t, ht, ha⟩
    obtain ⟨i, hi⟩ := List.getElem?_of_mem hg
    obtain ⟨l, hl⟩ := hget i g hi
    exact ⟨l, List.mem_of_getElem? hl, _, ((hkeys i l g hl hi).2 _).2 ⟨t, ht, rfl⟩, by simp [ha, hag]⟩
  · intro l hl
    obtain ⟨i, hi⟩ := List.getElem?_of_mem hl
    have : i < gs.length := by rw [← hlen]; exact (List.getElem?_eq_some_iff.1 hi).1
    exact (hkeys i l _ hi (List.getElem?_eq_getElem this)).1
  · intro Ms hM t ht
    apply parL_filter gs hp.disj t (fun x hx => (hp.cover x).1 ⟨t, ht, hx⟩) Ms (by rw [hM.len, hlen])
    intro i g M hg hMi
    obtain ⟨l, hl⟩ := hget i g hg
    exact hM.fit i l M hl hMi _ (((hkeys i l g hl hg).2 _).2 ⟨t, ht, rfl⟩)

theorem par_ok {L : UVCL α} {gs : List (List α)} (hp : Partn (Occ L) gs) :
    Split L gs (projectPar L gs) ∧ ∀ Ms, Fits (projectPar L gs) Ms → ∀ t ∈ keys L, Lang.parL Ms t := by
  apply par_split hp _ (by simp [projectPar])
  intro i l g hl hg
  unfold projectPar at hl
  rw [List.getElem?_map, hg] at hl
  simp only [Option.map_some, Option.some.injEq] at hl
  subst hl
  refine ⟨nodup_foldl _ (fun d b h => nodup_set h _ _) _ _ (by simp), ?_⟩
  intro w
  rw [keys_foldl _ (fun e k => k = e.1.filter fun x => decide (x ∈ g)) (fun d b k => keys_set _ _ _ _)]
  simp only [keys_nil, List.not_mem_nil, or_false]
  constructor
  · rintro ⟨e, he, h⟩; exact ⟨e.1, List.mem_map.2 ⟨e, he, rfl⟩, h⟩
  · rintro ⟨t, ht, h⟩
    obtain ⟨e, he, rfl⟩ := List.mem_map.1 ht
    exact ⟨e, he, h⟩

end Verif.IM
