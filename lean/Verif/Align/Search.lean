import Verif.Align.Dijkstra
import Verif.Align.Product
import Verif.Common.ListX
/-
The search on Petri nets: `sub_marking` / `add_marking` implement the firing rule.
-/
namespace Verif
open Dict Reach
namespace Align
variable {P T A : Type} [DecidableEq P] [DecidableEq T]

theorem subMarking_get? (net : Net P T) (t : T) (h : ((net.inArcs t).map Prod.fst).Nodup) (p : P) :
    get? (subMarking net t) p = get? (net.inArcs t) p := Marking.copy_get? _ h p

theorem le_subMarking_iff (net : Net P T) (hs : net.Simple) (t : T) (ht : t ∈ net.transitions) (m : Marking P) (hm : Pos m) :
    Marking.le (subMarking net t) m = true ↔ net.isEnabled t m = true := by
  have hn := hs.noParallel t ht
  rw [Marking.le_iff, Net.isEnabled_iff]
  have hk : ∀ p, p ∈ keys (subMarking net t) ↔ p ∈ keys (net.inArcs t) := by
    intro p; rw [mem_keys_iff, mem_keys_iff, subMarking_get? net t hn]
  constructor
  · intro h
    refine ⟨ht, fun a ha => ?_⟩
    have h1 := (h a.1 ((hk _).2 (List.mem_map.2 ⟨a, ha, rfl⟩))).2
    rwa [Marking.count_eq_of_get? (subMarking_get? net t hn a.1), count, get?_of_mem_nodup hn (k := a.1) (v := a.2) ha] at h1
  · rintro ⟨_, h⟩ p hp
    rw [hk, keys, List.mem_map] at hp
    obtain ⟨a, ha, rfl⟩ := hp
    have h1 := h a ha
    have h2 := hs.inPos t ht a ha
    constructor
    · rw [mem_keys_iff, hm.get?_eq]
      have : count m a.1 ≠ 0 := by omega
      simp [this]
    · rwa [Marking.count_eq_of_get? (subMarking_get? net t hn a.1), count, get?_of_mem_nodup hn (k := a.1) (v := a.2) ha]

theorem mem_setAdd {X : Type} [DecidableEq X] (s : List X) (x y : X) : y ∈ setAdd s x ↔ y ∈ s ∨ y = x := by
  unfold setAdd
  split
  · constructor
    · exact .inl
    · rintro (h | rfl) <;> assumption
  · simp

theorem nodup_setAdd {X : Type} [DecidableEq X] {s : List X} (h : s.Nodup) (x : X) : (setAdd s x).Nodup := by
  unfold setAdd
  split
  · exact h
  · rename_i hx
    rw [List.nodup_append]
    refine ⟨h, by simp, ?_⟩
    intro a ha b hb
    rw [List.mem_singleton.1 hb]
    rintro rfl; exact hx ha

theorem mem_inner (f : T → Bool) (l : List T) (s : List T) (y : T) :
    y ∈ l.foldl (fun s t => if f t then setAdd s t else s) s ↔ y ∈ s ∨ (y ∈ l ∧ f y = true) := by
  induction l generalizing s with
  | nil => simp
  | cons t l ih =>
    rw [List.foldl_cons, ih]
    by_cases h : f t = true
    · rw [if_pos h, mem_setAdd]; grind
    · rw [if_neg h]; grind

theorem nodup_inner (f : T → Bool) (l : List T) (s : List T) (hs : s.Nodup) :
    (l.foldl (fun s t => if f t then setAdd s t else s) s).Nodup := by
  induction l generalizing s with
  | nil => exact hs
  | cons t l ih =>
    rw [List.foldl_cons]
    apply ih
    split
    · exact nodup_setAdd hs t
    · exact hs

theorem mem_enabledTrans_aux (net : Net P T) (m : Marking P) (ps : List P) (s : List T) (t : T) :
    t ∈ ps.foldl (fun s p => (assTrans net p).foldl (fun s t => if Marking.le (subMarking net t) m then setAdd s t else s) s) s ↔
      t ∈ s ∨ ∃ p ∈ ps, t ∈ assTrans net p ∧ Marking.le (subMarking net t) m = true := by
  induction ps generalizing s with
  | nil => simp
  | cons p ps ih =>
    rw [List.foldl_cons, ih, mem_inner]
    constructor
    · rintro ((h | h) | ⟨q, hq, h⟩)
      · exact .inl h
      · exact .inr ⟨p, List.mem_cons_self, h⟩
      · exact .inr ⟨q, List.mem_cons_of_mem _ hq, h⟩
    · rintro (h | ⟨q, hq, h⟩)
      · exact .inl (.inl h)
      · rcases List.mem_cons.1 hq with rfl | hq
        · exact .inl (.inr h)
        · exact .inr ⟨q, hq, h⟩

theorem mem_enabledTrans (net : Net P T) (hs : net.Simple) (m : Marking P) (hm : Pos m) (t : T) :
    t ∈ enabledTrans net m ↔ net.isEnabled t m = true := by
  unfold enabledTrans
  rw [mem_enabledTrans_aux]
  constructor
  · rintro (h | ⟨p, _, h1, h2⟩)
    · obtain ⟨h1, h2⟩ := List.mem_filter.1 h
      rw [Net.isEnabled_iff]
      refine ⟨h1, ?_⟩
      rw [List.isEmpty_iff] at h2
      simp [h2]
    · exact (le_subMarking_iff net hs t (List.mem_filter.1 h1).1 m hm).1 h2
  · intro h
    have ht := ((Net.isEnabled_iff _ _ _).1 h).1
    have hle := (le_subMarking_iff net hs t ht m hm).2 h
    cases hin : net.inArcs t with
    | nil => left; exact List.mem_filter.2 ⟨ht, by simp [hin]⟩
    | cons a as =>
      right
      have hp : a.1 ∈ keys (subMarking net t) := by
        rw [mem_keys_iff, subMarking_get? net t (hs.noParallel t ht), ← mem_keys_iff, hin]; simp [keys]
      exact ⟨a.1, ((Marking.le_iff _ _).1 hle _ hp).1, List.mem_filter.2 ⟨ht, by simpa using hp⟩, hle⟩

theorem nodup_enabledTrans (net : Net P T) (hn : net.transitions.Nodup) (m : Marking P) : (enabledTrans net m).Nodup := by
  unfold enabledTrans
  have : ∀ (ps : List P) (s : List T), s.Nodup → (ps.foldl (fun s p => (assTrans net p).foldl
      (fun s t => if Marking.le (subMarking net t) m then setAdd s t else s) s) s).Nodup := by
    intro ps; induction ps with
    | nil => intro s h; exact h
    | cons p ps ih => intro s h; exact ih _ (nodup_inner _ _ _ h)
  exact this _ _ (List.Sublist.nodup List.filter_sublist hn)

/-! #### `add_marking` -/

theorem addMarking_count (net : Net P T) (t : T) (h : ((net.inArcs t).map Prod.fst).Nodup) (p : P) :
    count (addMarking net t) p = arcWeight (net.outArcs t) p - arcWeight (net.inArcs t) p := by
  have hout : ∀ (as : List (P × Int)) (m : Marking P),
      count (as.foldl (fun m a => if Dict.has m a.1 then Dict.set m a.1 (a.2 + Dict.count m a.1) else Dict.set m a.1 a.2) m) p =
        count m p + arcWeight as p := by
    intro as; induction as with
    | nil => intro m; simp
    | cons a as ih =>
      intro m
      rw [List.foldl_cons, ih, arcWeight_cons]
      by_cases hh : Dict.has m a.1 = true
      · rw [if_pos hh, count_set]; split
        · rename_i e; subst e; omega
        · omega
      · rw [if_neg hh, count_set]; split
        · rename_i e; subst e
          have : count m a.1 = 0 := by unfold count; simp [Dict.has] at hh; simp [hh]
          omega
        · omega
  have hin : ∀ (as : List (P × Int)) (m : Marking P), (as.map Prod.fst).Nodup → (∀ a ∈ as, count m a.1 = 0) →
      count (as.foldl (fun m a => Dict.set m a.1 (-a.2)) m) p = count m p - arcWeight as p := by
    intro as; induction as with
    | nil => intro m _ _; simp
    | cons a as ih =>
      intro m hn hz
      simp only [List.map_cons, List.nodup_cons] at hn
      rw [List.foldl_cons, ih _ hn.2, arcWeight_cons, count_set]
      · split
        · rename_i e; subst e
          have := hz a List.mem_cons_self
          omega
        · omega
      · intro b hb
        rw [count_set, if_neg]
        · exact hz b (List.mem_cons_of_mem _ hb)
        · intro e; exact hn.1 (List.mem_map.2 ⟨b, hb, e.symm⟩)
  unfold addMarking
  rw [hout, hin _ _ h (by simp)]
  simp; omega

theorem addMarking_nodup (net : Net P T) (t : T) : (keys (addMarking net t)).Nodup := by
  have h1 : ∀ (as : List (P × Int)) (m : Marking P), (keys m).Nodup →
      (keys (as.foldl (fun m a => if Dict.has m a.1 then Dict.set m a.1 (a.2 + Dict.count m a.1) else Dict.set m a.1 a.2) m)).Nodup := by
    intro as; induction as with
    | nil => intro m h; exact h
    | cons a as ih => intro m h; rw [List.foldl_cons]; apply ih; split <;> exact nodup_set h _ _
  have h2 : ∀ (as : List (P × Int)) (m : Marking P), (keys m).Nodup →
      (keys (as.foldl (fun m a => Dict.set m a.1 (-a.2)) m)).Nodup := by
    intro as; induction as with
    | nil => intro m h; exact h
    | cons a as ih => intro m h; exact ih _ (nodup_set h _ _)
  exact h1 _ _ (h2 _ _ (by simp))

/-- one iteration of `add_markings` -/
def addStep (m : Marking P) (e : P × Int) : Marking P :=
  let m1 := Dict.set m e.1 (Dict.count m e.1 + e.2)
  if Dict.count m1 e.1 = 0 then Dict.del m1 e.1 else m1

theorem addMarkings_eq (curr add : Marking P) :
    addMarkings curr add = add.foldl addStep (curr.foldl (fun m e => Dict.set m e.1 e.2) []) := rfl

theorem addStep_count (m : Marking P) (e : P × Int) (p : P) :
    count (addStep m e) p = count m p + (if e.1 = p then e.2 else 0) := by
  unfold addStep
  simp only [count_set, if_true]
  split
  · rename_i h; rw [count_del, count_set]; split
    · rename_i e; subst e; omega
    · omega
  · rw [count_set]; split
    · rename_i e; subst e; rfl
    · omega

/-- no entry is zero -/
def NoZero (m : Marking P) : Prop := ∀ k v, get? m k = some v → v ≠ 0

theorem addStep_noZero {m : Marking P} (h : NoZero m) (e : P × Int) : NoZero (addStep m e) := by
  intro k v hk
  unfold addStep at hk
  simp only [count_set, if_true] at hk
  split at hk
  · rw [get?_del] at hk; split at hk
    · cases hk
    · rw [get?_set] at hk; split at hk
      · contradiction
      · exact h k v hk
  · rw [get?_set] at hk; split at hk
    · simp at hk; omega
    · exact h k v hk

theorem addStep_nodup {m : Marking P} (h : (keys m).Nodup) (e : P × Int) : (keys (addStep m e)).Nodup := by
  unfold addStep
  simp only
  split
  · exact nodup_del (nodup_set h _ _) _
  · exact nodup_set h _ _

theorem addMarkings_spec (curr add : Marking P) (hc : (keys curr).Nodup) (ha : (keys add).Nodup) (hp : NoZero curr) :
    (∀ p, count (addMarkings curr add) p = count curr p + count add p) ∧ NoZero (addMarkings curr add) ∧
      (keys (addMarkings curr add)).Nodup := by
  have key : ∀ (as m : Marking P), NoZero m → (keys m).Nodup →
      (∀ p, count (as.foldl addStep m) p = count m p + arcWeight as p) ∧ NoZero (as.foldl addStep m) ∧
        (keys (as.foldl addStep m)).Nodup := by
    intro as; induction as with
    | nil => intro m h1 h2; exact ⟨fun p => by simp, h1, h2⟩
    | cons a as ih =>
      intro m h1 h2
      obtain ⟨h3, h4, h5⟩ := ih _ (addStep_noZero h1 a) (addStep_nodup h2 a)
      refine ⟨fun p => ?_, h4, h5⟩
      rw [List.foldl_cons, h3, addStep_count, arcWeight_cons]; omega
  have hcopy := Marking.copy_get? curr hc
  have hz : NoZero (curr.foldl (fun m e => Dict.set m e.1 e.2) []) := by
    intro k v hk; rw [hcopy] at hk; exact hp k v hk
  have hnd : (keys (curr.foldl (fun m e => Dict.set m e.1 e.2) [])).Nodup :=
    Marking.nodup_foldl_set (f := fun _ e => e.2) _ _ (by simp)
  obtain ⟨h1, h2, h3⟩ := key add _ hz hnd
  rw [addMarkings_eq]
  refine ⟨fun p => ?_, h2, h3⟩
  rw [h1, Marking.arcWeight_eq_count add ha, Marking.count_eq_of_get? (hcopy p)]

/-- well-formed markings: one entry per place, all positive -/
def Good (m : Marking P) : Prop := (keys m).Nodup ∧ Pos m

theorem exec_spec (net : Net P T) (hs : net.Simple) (t : T) (m : Marking P) (hm : Good m) (he : net.isEnabled t m = true) :
    Good (addMarkings m (addMarking net t)) ∧
      ∀ p, count (addMarkings m (addMarking net t)) p = count m p - arcWeight (net.inArcs t) p + arcWeight (net.outArcs t) p := by
  have henb := (Net.isEnabled_iff_enabled net hs t m hm.2).1 he
  have ht := henb.1
  obtain ⟨h1, h2, h3⟩ := addMarkings_spec m (addMarking net t) hm.1 (addMarking_nodup net t)
    (fun k v hk => by have := hm.2 k v hk; omega)
  have hcount : ∀ p, count (addMarkings m (addMarking net t)) p = count m p - arcWeight (net.inArcs t) p + arcWeight (net.outArcs t) p := by
    intro p; rw [h1, addMarking_count net t (hs.noParallel t ht)]; omega
  refine ⟨⟨h3, ?_⟩, hcount⟩
  intro k v hk
  have hz := h2 k v hk
  have hc := hcount k
  have hv : count (addMarkings m (addMarking net t)) k = v := by unfold count; simp [hk]
  have h4 := henb.2 k
  have h5 := arcWeight_nonneg (as := net.outArcs t) (fun a ha => by have := hs.outPos t ht a ha; omega) k
  omega

section
variable [DecidableEq A] (net : LNet P T (Cell A × Cell A))

/-- the filter on `trans_to_visit_with_cost` (dijkstra_no_heuristics.py:358-359) removes nothing -/
theorem mem_sem_enabled (hs : net.toNet.Simple) (m : Marking P) (hm : Pos m) (t : T) :
    t ∈ (searchSem net).enabled m ↔ net.toNet.isEnabled t m = true := by
  simp only [searchSem]
  rw [List.mem_filter, mem_enabledTrans _ hs m hm]
  constructor
  · exact fun h => h.1
  · intro h
    refine ⟨h, ?_⟩
    split
    · rename_i l _; simp [isLogMove, isModelMove]; grind
    · rfl

theorem reachable_good (hs : net.toNet.Simple) (im : Marking P) (hi : Good im) {m : Marking P}
    (h : Reachable (searchSem net) im m) : Good m := by
  induction h with
  | refl => exact hi
  | step _ hst ih =>
    obtain ⟨h1, rfl⟩ := hst
    exact (exec_spec net.toNet hs _ _ ih ((mem_sem_enabled net hs _ ih.2 _).1 h1)).1

theorem search_lawful (hs : net.toNet.Simple) (im : Marking P) (hi : Good im) : Lawful (searchSem net) im where
  refl a := C02_eq_equivalence.refl a
  symm _ _ h := C02_eq_equivalence.symm h
  trans _ _ _ h1 h2 := C02_eq_equivalence.trans h1 h2
  enabled_congr a b ha hb h t ht := by
    have hc : ∀ p, count a p = count b p := fun p => Marking.count_eq_of_get? ((Marking.eq_iff a b).1 h p)
    rw [mem_sem_enabled net hs _ (reachable_good net hs im hi ha).2, Net.isEnabled_iff] at ht
    rw [mem_sem_enabled net hs _ (reachable_good net hs im hi hb).2, Net.isEnabled_iff]
    exact ⟨ht.1, fun x hx => by rw [← hc]; exact ht.2 x hx⟩
  exec_congr a b ha hb h t ht := by
    have hc : ∀ p, count a p = count b p := fun p => Marking.count_eq_of_get? ((Marking.eq_iff a b).1 h p)
    have ga := reachable_good net hs im hi ha
    have gb := reachable_good net hs im hi hb
    have h1 := (mem_sem_enabled net hs _ ga.2 t).1 ht
    have h2 : net.toNet.isEnabled t b = true := by
      rw [Net.isEnabled_iff] at h1 ⊢
      exact ⟨h1.1, fun x hx => by rw [← hc]; exact h1.2 x hx⟩
    have e1 := exec_spec net.toNet hs t a ga h1
    have e2 := exec_spec net.toNet hs t b gb h2
    refine (C02_eq _ _ e1.1.2 e2.1.2).2 fun p => ?_
    show count (addMarkings a _) p = count (addMarkings b _) p
    rw [e1.2, e2.2, hc]

omit [DecidableEq T] in
theorem crun_snoc (n : Net P T) (ts : List T) (t : T) (f g : P → Int) :
    CRun n f (ts ++ [t]) g ↔ ∃ f', CRun n f ts f' ∧ t ∈ n.transitions ∧ (∀ p, arcWeight (n.inArcs t) p ≤ f' p) ∧
      g = fun p => f' p - arcWeight (n.inArcs t) p + arcWeight (n.outArcs t) p := by
  induction ts generalizing f with
  | nil =>
    simp only [List.nil_append, CRun]
    constructor
    · rintro ⟨h1, h2, h3⟩; exact ⟨f, rfl, h1, h2, h3.symm⟩
    · rintro ⟨f', rfl, h1, h2, h3⟩; exact ⟨h1, h2, h3.symm⟩
  | cons u ts ih =>
    simp only [List.cons_append, CRun, ih]
    constructor
    · rintro ⟨h1, h2, f', h3⟩; exact ⟨f', ⟨h1, h2, h3.1⟩, h3.2⟩
    · rintro ⟨f', ⟨h1, h2, h3⟩, h4⟩; exact ⟨h1, h2, f', h3, h4⟩

/-- paths of the search space are the runs of the net -/
theorem path_iff (hs : net.toNet.Simple) (im : Marking P) (hi : Good im) (ts : List T) (g : P → Int) :
    (∃ m, Path (searchSem net) im ts m ∧ count m = g) ↔ CRun net.toNet (count im) ts g := by
  constructor
  · rintro ⟨m, hp, rfl⟩
    induction hp with
    | nil => rfl
    | @snoc ts m t hp ht ih =>
      have gm := reachable_good net hs im hi hp.reachable
      have he := (mem_sem_enabled net hs _ gm.2 t).1 ht
      have hen := (Net.isEnabled_iff_enabled net.toNet hs t m gm.2).1 he
      rw [crun_snoc]
      exact ⟨count m, ih, hen.1, hen.2, funext (exec_spec net.toNet hs t m gm he).2⟩
  · intro h
    induction ts using snocInduct generalizing g with
    | nil => exact ⟨im, .nil, h⟩
    | snoc ts t ih =>
      rw [crun_snoc] at h
      obtain ⟨f', h1, h2, h3, h4⟩ := h
      obtain ⟨m, hp, hm⟩ := ih f' h1
      have gm := reachable_good net hs im hi hp.reachable
      have he := (Net.isEnabled_iff_enabled net.toNet hs t m gm.2).2 ⟨h2, fun p => by rw [hm]; exact h3 p⟩
      refine ⟨_, .snoc hp ((mem_sem_enabled net hs _ gm.2 t).2 he), ?_⟩
      rw [h4, ← hm]
      exact funext (exec_spec net.toNet hs t m gm he).2

theorem completeRun_path (hs : net.toNet.Simple) (im fm : Marking P) (hi : Good im) (hf : Good fm) (ts : List T) :
    CompleteRun net.toNet im fm ts ↔ ∃ m, Path (searchSem net) im ts m ∧ (searchSem net).eqv m fm = true := by
  rw [completeRun_iff _ hs _ _ _ hi.2, ← path_iff net hs im hi]
  constructor
  · rintro ⟨m, hp, hc⟩
    refine ⟨m, hp, (C02_eq _ _ (reachable_good net hs im hi hp.reachable).2 hf.2).2 fun p => congrFun hc p⟩
  · rintro ⟨m, hp, he⟩
    exact ⟨m, hp, funext ((C02_eq _ _ (reachable_good net hs im hi hp.reachable).2 hf.2).1 he)⟩
end
end Align
end Verif
