/-
Facts about the model of the DFG filters.
-/
import Verif.Dfg.Filtering
set_option linter.unusedSectionVars false
namespace Verif
namespace Dfg

variable {A : Type} [DecidableEq A]

/-! ### specification -/

/-- the activity lies on a path of the DFG from a start activity to an end activity -/
def OnRun (d : D A) (a : A) : Prop :=
  (∃ s ∈ d.sa.keys, Path d.dfg.keys s a) ∧ (∃ e ∈ d.ea.keys, Path d.dfg.keys a e)

/-- every activity lies on a path from a start activity to an end activity -/
def Connected (d : D A) : Prop := ∀ a ∈ d.cnt.keys, OnRun d a

/-- the dictionaries have distinct keys and only mention the activities of the activities' dictionary -/
structure WF (d : D A) : Prop where
  dfgNodup : d.dfg.keys.Nodup
  saNodup : d.sa.keys.Nodup
  eaNodup : d.ea.keys.Nodup
  cntNodup : d.cnt.keys.Nodup
  dfgL : ∀ e ∈ d.dfg.keys, e.1 ∈ d.cnt.keys
  dfgR : ∀ e ∈ d.dfg.keys, e.2 ∈ d.cnt.keys
  saIn : ∀ a ∈ d.sa.keys, a ∈ d.cnt.keys
  eaIn : ∀ a ∈ d.ea.keys, a ∈ d.cnt.keys

/-- the part of the DFG over the activities satisfying `K`, with the same frequencies -/
def restrict (d : D A) (K : A → Bool) : D A :=
  { dfg := d.dfg.filter fun e => K e.1.1 && K e.1.2
    sa := d.sa.filter fun e => K e.1
    ea := d.ea.filter fun e => K e.1
    cnt := d.cnt.filter fun e => K e.1 }

/-- `d'` has only entries of `d` -/
structure Sub (d' d : D A) : Prop where
  dfg : d'.dfg.Sublist d.dfg
  sa : d'.sa.Sublist d.sa
  ea : d'.ea.Sublist d.ea
  cnt : d'.cnt.Sublist d.cnt

/-! ### basic facts -/

theorem Sub.refl (d : D A) : Sub d d := ⟨.refl _, .refl _, .refl _, .refl _⟩

theorem Sub.trans {a b c : D A} (h : Sub a b) (h' : Sub b c) : Sub a c :=
  ⟨h.dfg.trans h'.dfg, h.sa.trans h'.sa, h.ea.trans h'.ea, h.cnt.trans h'.cnt⟩

theorem OnRun.mono {d' d : D A} (h : Sub d' d) {a : A} (ho : OnRun d' a) : OnRun d a := by
  obtain ⟨⟨s, hs, h1⟩, ⟨e, he, h2⟩⟩ := ho
  have hk : ∀ x ∈ d'.dfg.keys, x ∈ d.dfg.keys := fun x hx => (h.dfg.map Prod.fst).subset hx
  exact ⟨⟨s, (h.sa.map Prod.fst).subset hs, h1.mono hk⟩, ⟨e, (h.ea.map Prod.fst).subset he, h2.mono hk⟩⟩

theorem sub_restrict (d : D A) (K : A → Bool) : Sub (restrict d K) d :=
  ⟨List.filter_sublist, List.filter_sublist, List.filter_sublist, List.filter_sublist⟩

theorem sub_removeAct (d : D A) (a : A) : Sub (removeAct d a) d :=
  ⟨List.filter_sublist, List.filter_sublist, List.filter_sublist, List.filter_sublist⟩

theorem sub_removeAct_mono {d' d : D A} (h : Sub d' d) (a : A) : Sub (removeAct d' a) (removeAct d a) :=
  ⟨h.dfg.filter _, h.sa.filter _, h.ea.filter _, h.cnt.filter _⟩

theorem removeAct_eq (d : D A) (a : A) : removeAct d a = restrict d fun x => decide (x ≠ a) := rfl

theorem restrict_restrict (d : D A) (K L : A → Bool) :
    restrict (restrict d K) L = restrict d fun a => L a && K a := by
  unfold restrict
  simp only [List.filter_filter, D.mk.injEq]
  refine ⟨?_, trivial, trivial, trivial⟩
  apply List.filter_congr
  intro x _
  cases L x.1.1 <;> cases L x.1.2 <;> cases K x.1.1 <;> cases K x.1.2 <;> rfl

theorem restrict_congr {d : D A} (hw : WF d) {K L : A → Bool} (h : ∀ a ∈ d.cnt.keys, K a = L a) :
    restrict d K = restrict d L := by
  unfold restrict
  have hk {κ ν : Type} (l : Dict κ ν) (x : κ × ν) (hx : x ∈ l) : x.1 ∈ l.keys := List.mem_map.2 ⟨x, hx, rfl⟩
  simp only [D.mk.injEq]
  refine ⟨List.filter_congr ?_, List.filter_congr ?_, List.filter_congr ?_, List.filter_congr ?_⟩
  · intro x hx; rw [h _ (hw.dfgL _ (hk _ _ hx)), h _ (hw.dfgR _ (hk _ _ hx))]
  · intro x hx; rw [h _ (hw.saIn _ (hk _ _ hx))]
  · intro x hx; rw [h _ (hw.eaIn _ (hk _ _ hx))]
  · intro x hx; rw [h _ (hk _ _ hx)]

theorem keys_filter {κ ν : Type} (l : Dict κ ν) (p : κ → Bool) :
    Dict.keys (l.filter fun e => p e.1) = (Dict.keys l).filter p := by
  unfold Dict.keys
  rw [List.filter_map]
  rfl

theorem keys_restrict_dfg (d : D A) (K : A → Bool) :
    (restrict d K).dfg.keys = d.dfg.keys.filter fun e => K e.1 && K e.2 :=
  keys_filter d.dfg fun e => K e.1 && K e.2

theorem keys_restrict_sa (d : D A) (K : A → Bool) : (restrict d K).sa.keys = d.sa.keys.filter K := keys_filter _ _
theorem keys_restrict_ea (d : D A) (K : A → Bool) : (restrict d K).ea.keys = d.ea.keys.filter K := keys_filter _ _
theorem keys_restrict_cnt (d : D A) (K : A → Bool) : (restrict d K).cnt.keys = d.cnt.keys.filter K := keys_filter _ _

theorem WF.restrict {d : D A} (h : WF d) (K : A → Bool) : WF (restrict d K) where
  dfgNodup := by rw [keys_restrict_dfg]; exact h.dfgNodup.filter _
  saNodup := by rw [keys_restrict_sa]; exact h.saNodup.filter _
  eaNodup := by rw [keys_restrict_ea]; exact h.eaNodup.filter _
  cntNodup := by rw [keys_restrict_cnt]; exact h.cntNodup.filter _
  dfgL := by
    intro e he
    rw [keys_restrict_dfg, List.mem_filter, Bool.and_eq_true] at he
    rw [keys_restrict_cnt, List.mem_filter]; exact ⟨h.dfgL _ he.1, he.2.1⟩
  dfgR := by
    intro e he
    rw [keys_restrict_dfg, List.mem_filter, Bool.and_eq_true] at he
    rw [keys_restrict_cnt, List.mem_filter]; exact ⟨h.dfgR _ he.1, he.2.2⟩
  saIn := by
    intro e he
    rw [keys_restrict_sa, List.mem_filter] at he
    rw [keys_restrict_cnt, List.mem_filter]; exact ⟨h.saIn _ he.1, he.2⟩
  eaIn := by
    intro e he
    rw [keys_restrict_ea, List.mem_filter] at he
    rw [keys_restrict_cnt, List.mem_filter]; exact ⟨h.eaIn _ he.1, he.2⟩

theorem foldl_removeAct (l : List A) (d : D A) :
    l.foldl removeAct d = restrict d fun a => !decide (a ∈ l) := by
  induction l generalizing d with
  | nil =>
    have h1 {α : Type} (l : List α) : l.filter (fun _ => true) = l := List.filter_eq_self.2 fun _ _ => rfl
    simp [restrict, h1]
  | cons x l ih =>
    rw [List.foldl_cons, ih, removeAct_eq, restrict_restrict]
    congr 1
    funext a
    by_cases h1 : a = x <;> by_cases h2 : a ∈ l <;> simp [h1, h2]

/-! ### the graph -/

theorem mem_graphOf (d : D A) (e : GEdge A) : e ∈ graphOf d ↔
    (∃ a b, (a, b) ∈ d.dfg.keys ∧ e = (.act a, .act b)) ∨ (∃ a ∈ d.sa.keys, e = (.start, .act a)) ∨
    (∃ a ∈ d.ea.keys, e = (.act a, .fin)) := by
  unfold graphOf Dict.keys
  simp only [List.mem_append, List.mem_map]
  constructor
  · rintro ((⟨x, hx, rfl⟩ | ⟨x, hx, rfl⟩) | ⟨x, hx, rfl⟩)
    · exact .inl ⟨_, _, ⟨x, hx, rfl⟩, rfl⟩
    · exact .inr (.inl ⟨_, ⟨x, hx, rfl⟩, rfl⟩)
    · exact .inr (.inr ⟨_, ⟨x, hx, rfl⟩, rfl⟩)
  · rintro (⟨a, b, ⟨x, hx, h⟩, rfl⟩ | ⟨a, ⟨x, hx, rfl⟩, rfl⟩ | ⟨a, ⟨x, hx, rfl⟩, rfl⟩)
    · refine .inl (.inl ⟨x, hx, ?_⟩); rw [h]
    · exact .inl (.inr ⟨x, hx, rfl⟩)
    · exact .inr ⟨x, hx, rfl⟩

theorem path_act {d : D A} {a b : A} (h : Path d.dfg.keys a b) : Path (graphOf d) (.act a) (.act b) := by
  induction h with
  | refl => exact .refl
  | step _ h3 ih => exact ih.step ((mem_graphOf _ _).2 (.inl ⟨_, _, h3, rfl⟩))

theorem path_start_iff (d : D A) (a : A) :
    Path (graphOf d) .start (.act a) ↔ ∃ s ∈ d.sa.keys, Path d.dfg.keys s a := by
  constructor
  · intro h
    have key : ∀ x, Path (graphOf d) .start x → ∀ a, x = .act a → ∃ s ∈ d.sa.keys, Path d.dfg.keys s a := by
      intro x hx
      induction hx with
      | refl => intro a h; cases h
      | step _ h3 ih =>
        intro a ha
        subst ha
        rw [mem_graphOf] at h3
        rcases h3 with ⟨u, v, huv, h3⟩ | ⟨u, hu, h3⟩ | ⟨u, hu, h3⟩
        · simp only [Prod.mk.injEq, Node.act.injEq] at h3
          obtain ⟨s, hs, hp⟩ := ih u h3.1
          exact ⟨s, hs, h3.2 ▸ hp.step huv⟩
        · simp only [Prod.mk.injEq, Node.act.injEq] at h3
          exact ⟨u, hu, h3.2 ▸ .refl⟩
        · simp at h3
    exact key _ h a rfl
  · rintro ⟨s, hs, hp⟩
    exact (Path.edge ((mem_graphOf _ _).2 (.inr (.inl ⟨s, hs, rfl⟩)))).trans (path_act hp)

theorem path_fin_iff (d : D A) (a : A) :
    Path (graphOf d) (.act a) .fin ↔ ∃ e ∈ d.ea.keys, Path d.dfg.keys a e := by
  constructor
  · intro h
    have key : ∀ x, Path (graphOf d) (.act a) x → (∀ b, x = .act b → Path d.dfg.keys a b) ∧
        (x = .fin → ∃ e ∈ d.ea.keys, Path d.dfg.keys a e) := by
      intro x hx
      induction hx with
      | refl => refine ⟨?_, by simp⟩; rintro b h; cases h; exact .refl
      | @step b c hp h3 ih =>
        rw [mem_graphOf] at h3
        rcases h3 with ⟨u, v, huv, h3⟩ | ⟨u, hu, h3⟩ | ⟨u, hu, h3⟩
        · simp only [Prod.mk.injEq] at h3
          refine ⟨?_, by simp [h3.2]⟩
          intro b hb
          rw [h3.2, Node.act.injEq] at hb
          exact hb ▸ (ih.1 u h3.1).step huv
        · exfalso
          simp only [Prod.mk.injEq] at h3
          rw [h3.1] at hp
          cases hp with
          | step _ h4 =>
            rw [mem_graphOf] at h4
            rcases h4 with ⟨_, _, _, h4⟩ | ⟨_, _, h4⟩ | ⟨_, _, h4⟩ <;> simp at h4
        · simp only [Prod.mk.injEq] at h3
          refine ⟨?_, fun _ => ⟨u, hu, ih.1 u h3.1⟩⟩
          intro b hb
          rw [h3.2] at hb; cases hb
    exact (key _ h).2 rfl
  · rintro ⟨s, hs, hp⟩
    exact (path_act hp).step ((mem_graphOf _ _).2 (.inr (.inr ⟨s, hs, rfl⟩)))

theorem onRun_iff (d : D A) (a : A) :
    (decide (Node.act a ∈ descendants (graphOf d) .start) && decide (Node.act a ∈ ancestors (graphOf d) .fin)) = true
      ↔ OnRun d a := by
  rw [Bool.and_eq_true, decide_eq_true_iff, decide_eq_true_iff, mem_descendants, mem_ancestors, path_start_iff,
    path_fin_iff]
  simp [OnRun]

theorem keepOk_iff (d : D A) (keep : List A) : keepOk (graphOf d) keep = true ↔ ∀ a ∈ keep, OnRun d a := by
  unfold keepOk
  rw [List.all_eq_true]
  exact forall_congr' fun a => imp_congr_right fun _ => onRun_iff d a

theorem graphOf_restrict (d : D A) (a : A) : graphOf (removeAct d a) = removeNode (graphOf d) a := by
  unfold graphOf removeNode removeAct Dict.del
  simp only [List.filter_append, List.filter_map]
  congr 1
  · congr 1
    · congr 1
      apply List.filter_congr; intro x _; simp
    · congr 1
      apply List.filter_congr; intro x _; simp
  · congr 1
    apply List.filter_congr; intro x _; simp

theorem graphOf_deleteEdge (d : D A) (e : GEdge A) (he : e ∈ graphOf d) :
    graphOf (deleteEdge d e) = removeEdge (graphOf d) e := by
  have hall {α : Type} (l : List α) (p : α → Bool) (h : ∀ x, p x = true) : l.filter p = l :=
    List.filter_eq_self.2 fun x _ => h x
  rw [mem_graphOf] at he
  unfold graphOf removeEdge
  simp only [List.filter_append, List.filter_map]
  rcases he with ⟨a, b, _, rfl⟩ | ⟨a, _, rfl⟩ | ⟨a, _, rfl⟩
  · congr 1
    · congr 1
      · congr 1
        apply List.filter_congr
        rintro ⟨⟨x, y⟩, v⟩ _
        simp
      · rw [hall d.sa]
        · rfl
        · intro x; simp
    · rw [hall d.ea]
      · rfl
      · intro x; simp
  · congr 1
    · congr 1
      · rw [hall d.dfg]
        · rfl
        · intro x; simp
      · congr 1
        apply List.filter_congr
        intro x _
        simp
    · rw [hall d.ea]
      · rfl
      · intro x; simp
  · congr 1
    · congr 1
      · rw [hall d.dfg]
        · rfl
        · intro x; simp
      · rw [hall d.sa]
        · rfl
        · intro x; simp
    · congr 1
      apply List.filter_congr
      intro x _
      simp

/-! ### the removal of the activities that are not on a run -/

/-- the activities on a run, as a Boolean test -/
def onRunB (d : D A) (a : A) : Bool :=
  decide (Node.act a ∈ descendants (graphOf d) .start) && decide (Node.act a ∈ ancestors (graphOf d) .fin)

theorem onRunB_iff (d : D A) (a : A) : onRunB d a = true ↔ OnRun d a := onRun_iff d a

theorem dropUnreachable_eq {d : D A} (hw : WF d) : dropUnreachable (d, graphOf d) = restrict d (onRunB d) := by
  unfold dropUnreachable
  rw [foldl_removeAct]
  apply restrict_congr hw
  intro a ha
  have ha' : a ∈ d.cnt.keys := ha
  by_cases h : onRunB d a = true
  · rw [h]
    have : a ∉ d.cnt.keys.filter fun a => !onRunB d a := by simp [List.mem_filter, h]
    show (!decide (a ∈ d.cnt.keys.filter fun a => !onRunB d a)) = true
    rw [decide_eq_false this]; rfl
  · rw [Bool.not_eq_true] at h
    rw [h]
    have : a ∈ d.cnt.keys.filter fun a => !onRunB d a := by simp [List.mem_filter, h, ha']
    show (!decide (a ∈ d.cnt.keys.filter fun a => !onRunB d a)) = false
    rw [decide_eq_true this]; rfl

/-- restricting to the activities on a run leaves them on a run -/
theorem onRun_restrict {d : D A} {a : A} (h : OnRun d a) : OnRun (restrict d (onRunB d)) a := by
  obtain ⟨⟨s, hs, h1⟩, ⟨e, he, h2⟩⟩ := h
  have hsR : OnRun d s := ⟨⟨s, hs, .refl⟩, ⟨e, he, h1.trans h2⟩⟩
  have heR : OnRun d e := ⟨⟨s, hs, h1.trans h2⟩, ⟨e, he, .refl⟩⟩
  refine ⟨⟨s, ?_, ?_⟩, ⟨e, ?_, ?_⟩⟩
  · rw [keys_restrict_sa, List.mem_filter]; exact ⟨hs, (onRunB_iff _ _).2 hsR⟩
  · have key : ∀ x, Path d.dfg.keys s x → Path d.dfg.keys x a → Path (restrict d (onRunB d)).dfg.keys s x := by
      intro x hx
      induction hx with
      | refl => intro _; exact .refl
      | @step b c hb h3 ih =>
        intro hc
        refine (ih ((Path.edge h3).trans hc)).step ?_
        rw [keys_restrict_dfg, List.mem_filter, Bool.and_eq_true]
        exact ⟨h3, (onRunB_iff _ _).2 ⟨⟨s, hs, hb⟩, ⟨e, he, (Path.edge h3).trans (hc.trans h2)⟩⟩,
          (onRunB_iff _ _).2 ⟨⟨s, hs, hb.step h3⟩, ⟨e, he, hc.trans h2⟩⟩⟩
    exact key a h1 .refl
  · rw [keys_restrict_ea, List.mem_filter]; exact ⟨he, (onRunB_iff _ _).2 heR⟩
  · have key : ∀ x, Path d.dfg.keys a x → Path d.dfg.keys x e → Path (restrict d (onRunB d)).dfg.keys a x := by
      intro x hx
      induction hx with
      | refl => intro _; exact .refl
      | @step b c hb h3 ih =>
        intro hc
        refine (ih ((Path.edge h3).trans hc)).step ?_
        rw [keys_restrict_dfg, List.mem_filter, Bool.and_eq_true]
        exact ⟨h3, (onRunB_iff _ _).2 ⟨⟨s, hs, h1.trans hb⟩, ⟨e, he, (Path.edge h3).trans hc⟩⟩,
          (onRunB_iff _ _).2 ⟨⟨s, hs, h1.trans (hb.step h3)⟩, ⟨e, he, hc⟩⟩⟩
    exact key e h2 .refl

theorem connected_restrict (d : D A) : Connected (restrict d (onRunB d)) := by
  intro a ha
  rw [keys_restrict_cnt, List.mem_filter, onRunB_iff] at ha
  exact onRun_restrict ha.2

/-- the restriction to the remaining activities -/
theorem restrict_self {d : D A} (hw : WF d) (K : A → Bool) :
    restrict d K = restrict d fun a => (restrict d K).cnt.has a := by
  apply restrict_congr hw
  intro a ha
  rw [Bool.eq_iff_iff, Dict.has_iff, keys_restrict_cnt, List.mem_filter]
  simp [ha]

/-! ### sorting -/

theorem insertDesc_perm {K V : Type} (vgt : V → V → Bool) (gt : K → K → Bool) (x : K × V) (l : List (K × V)) :
    (insertDesc vgt gt x l).Perm (x :: l) := by
  induction l with
  | nil => exact .refl _
  | cons y l ih =>
    rw [insertDesc]
    split
    · exact (ih.cons y).trans (.swap _ _ _)
    · exact .refl _

theorem sortDesc_perm {K V : Type} (vgt : V → V → Bool) (gt : K → K → Bool) (l : List (K × V)) :
    (sortDesc vgt gt l).Perm l := by
  induction l with
  | nil => exact .refl _
  | cons x l ih => exact (insertDesc_perm _ _ _ _).trans (ih.cons x)

theorem insertDesc_sorted {K : Type} (gt : K → K → Bool) (x : K × Int) (l : List (K × Int))
    (h : l.Pairwise fun a b => b.2 ≤ a.2) :
    (insertDesc (fun a b : Int => decide (a > b)) gt x l).Pairwise fun a b => b.2 ≤ a.2 := by
  induction l with
  | nil => simp [insertDesc]
  | cons y l ih =>
    rw [List.pairwise_cons] at h
    rw [insertDesc]
    split
    · rename_i hc
      rw [List.pairwise_cons]
      refine ⟨?_, ih h.2⟩
      intro z hz
      rw [(insertDesc_perm _ _ _ _).mem_iff, List.mem_cons] at hz
      rcases hz with rfl | hz
      · simp at hc; omega
      · exact h.1 z hz
    · rename_i hc
      simp at hc
      rw [List.pairwise_cons, List.pairwise_cons]
      refine ⟨?_, h⟩
      intro z hz
      rcases List.mem_cons.1 hz with rfl | hz
      · omega
      · have := h.1 z hz; omega

theorem sortDesc_sorted {K : Type} (gt : K → K → Bool) (l : List (K × Int)) :
    (sortDesc (fun a b : Int => decide (a > b)) gt l).Pairwise fun a b => b.2 ≤ a.2 := by
  induction l with
  | nil => exact List.Pairwise.nil
  | cons x l ih => exact insertDesc_sorted gt x _ ih

end Dfg
end Verif
