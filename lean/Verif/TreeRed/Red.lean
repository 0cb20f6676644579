import Verif.TreeRed.Proofs
set_option linter.unusedSectionVars false
/-
Proofs for C54: overwriting slots with silent leaves keeps the language over the activities of the trace.
-/
namespace Verif
namespace TreeRed
open PT BU Foot
variable {α : Type} [DecidableEq α]

/-- the subtree at a path -/
def subAt : PT α → Path → Option (PT α)
  | t, [] => some t
  | t, i :: p => (t.children[i]?).bind fun c => subAt c p

theorem subAt_snoc (t : PT α) (p : Path) (i : Nat) : subAt t (p ++ [i]) = (subAt t p).bind fun s => s.children[i]? := by
  induction p generalizing t with
  | nil =>
    simp only [List.nil_append, subAt, Option.bind_some]
    cases t.children[i]? <;> simp [subAt]
  | cons j p ih =>
    simp only [List.cons_append, subAt]
    cases h : t.children[j]? with
    | none => simp
    | some c => simp [ih]

theorem pathOf_spec {t : PT α} (ht : WF t) {x : Nd α} (h : IsNode t x) : subAt t (pathOf x.sub x.anc) = some x.sub := by
  induction h with
  | refl => rfl
  | @step y k hy hk ih =>
    obtain ⟨c, hc, rfl⟩ := mem_kids.1 hk
    show subAt t (pathOf y.sub y.anc ++ [y.sub.children.findIdx fun d => pyEq d c]) = some c
    rw [subAt_snoc, ih]
    have hex : ∃ d ∈ y.sub.children, pyEq d c = true := ⟨c, hc, pyEq_refl c⟩
    have hlt := List.findIdx_lt_length_of_exists hex
    have hp := List.findIdx_getElem (w := hlt)
    rw [Option.bind_some, List.getElem?_eq_getElem hlt]
    exact congrArg some (pyEq_eq (wf_children (IsNode.wf ht hy) (List.getElem_mem hlt)) (wf_children (IsNode.wf ht hy) hc) hp)

theorem wf_subAt {t s : PT α} {p : Path} (ht : WF t) (h : subAt t p = some s) : WF s := by
  induction p generalizing t with
  | nil => simp only [subAt, Option.some.injEq] at h; exact h ▸ ht
  | cons i p ih =>
    simp only [subAt] at h
    cases hc : t.children[i]? with
    | none => simp [hc] at h
    | some c => rw [hc] at h; exact ih (wf_children ht (List.mem_of_getElem? hc)) h

theorem curL_length (R : List Path) (p : Path) (cs : List (PT α)) (i : Nat) : (curL R p i cs).length = cs.length := by
  induction cs generalizing i with
  | nil => simp [curL]
  | cons c cs ih => simp [curL, ih]

/-- the content of slot `k` -/
theorem curL_get (R : List Path) (p : Path) (cs : List (PT α)) (i k : Nat) :
    (curL R p i cs)[k]? = (cs[k]?).map fun c => if p ++ [i + k] ∈ R then .leaf none else cur R (p ++ [i + k]) c := by
  induction cs generalizing i k with
  | nil => simp [curL]
  | cons c cs ih =>
    cases k with
    | zero => simp [curL]
    | succ k =>
      rw [curL, List.getElem?_cons_succ, ih, List.getElem?_cons_succ]
      rw [show i + 1 + k = i + (k + 1) by omega]

theorem cur_wf (R : List Path) (t : PT α) (ht : WF t) (p : Path) : WF (cur R p t) := by
  induction t using PT.induct generalizing p with
  | leaf l => simpa [cur] using ht
  | node op cs ih =>
    rw [cur]
    cases ht with
    | node _ _ hne hcs =>
    refine .node _ _ ?_ ?_
    · intro e
      have := curL_length R p cs 0
      rw [e] at this; exact hne (List.eq_nil_of_length_eq_zero this.symm)
    · intro c hc
      obtain ⟨k, hk⟩ := List.getElem?_of_mem hc
      rw [curL_get] at hk
      obtain ⟨d, hd, rfl⟩ := Option.map_eq_some_iff.1 hk
      split
      · exact .leaf _
      · exact ih d (List.mem_of_getElem? hd) (hcs d (List.mem_of_getElem? hd)) _

/-- the labels of the current content are labels of the original -/
theorem cur_labels (R : List Path) (t : PT α) (p : Path) (a : α) (h : a ∈ (cur R p t).labels) : a ∈ t.labels := by
  induction t using PT.induct generalizing p with
  | leaf l => simpa [cur] using h
  | node op cs ih =>
    rw [cur, labels_node, List.mem_flatMap] at h
    obtain ⟨c, hc, ha⟩ := h
    obtain ⟨k, hk⟩ := List.getElem?_of_mem hc
    rw [curL_get] at hk
    obtain ⟨d, hd, rfl⟩ := Option.map_eq_some_iff.1 hk
    rw [labels_node, List.mem_flatMap]
    split at ha
    · simp [labels] at ha
    · exact ⟨d, List.mem_of_getElem? hd, ih d (List.mem_of_getElem? hd) _ ha⟩

/-- two languages have the same words over `A` -/
def EqOn (A : List α) (L M : Lang α) : Prop := ∀ w, (∀ a ∈ w, a ∈ A) → (L w ↔ M w)

/-- every overwritten slot contained a subtree that has only the empty word over `A` -/
def Good (A : List α) (t : PT α) (R : List Path) : Prop :=
  ∀ q ∈ R, ∃ s, subAt t q = some s ∧ EqOn A s.lang Lang.eps

theorem forall₂_of_get {β γ : Type _} {r : β → γ → Prop} {l : List β} {m : List γ} (hl : l.length = m.length)
    (h : ∀ (k : Nat) x y, l[k]? = some x → m[k]? = some y → r x y) : List.Forall₂ r l m := by
  induction l generalizing m with
  | nil => cases m with
    | nil => exact .nil
    | cons _ _ => simp at hl
  | cons x l ih =>
    cases m with
    | nil => simp at hl
    | cons y m =>
      exact .cons (h 0 x y rfl rfl) (ih (by simpa using hl) fun k a b ha hb => h (k + 1) a b ha hb)

/-- overwriting such slots keeps the words over `A` -/
theorem cur_eqOn {A : List α} {t : PT α} {R : List Path} (hR : Good A t R) (s : PT α) (p : Path) (hs : subAt t p = some s) :
    EqOn A (cur R p s).lang s.lang := by
  induction s using PT.induct generalizing p with
  | leaf l => intro w _; simp [cur]
  | node op cs ih =>
    have key : ∀ (k : Nat) (x y : PT α), (curL R p 0 cs)[k]? = some x → cs[k]? = some y → EqOn A x.lang y.lang := by
      intro k x y hx hy
      rw [curL_get, hy, Option.map_some, Option.some.injEq, Nat.zero_add] at hx
      have hsub : subAt t (p ++ [k]) = some y := by rw [subAt_snoc, hs]; exact hy
      split at hx
      · rename_i hin
        obtain ⟨s', h1, h2⟩ := hR _ hin
        rw [hsub, Option.some.injEq] at h1; subst h1 hx
        intro w hw
        rw [h2 w hw]; simp
      · rw [← hx]; exact ih y (List.mem_of_getElem? hy) _ hsub
    have hlen := curL_length R p cs 0
    intro w hw
    rw [cur, lang_node, lang_node]
    constructor
    · refine subOn_op op (A := A) ?_ w hw
      refine forall₂_of_get (by simp [hlen]) fun k L M hL hM => ?_
      simp only [List.getElem?_map, Option.map_eq_some_iff] at hL hM
      obtain ⟨x, hx, rfl⟩ := hL
      obtain ⟨y, hy, rfl⟩ := hM
      exact fun w hw => (key k x y hx hy w hw).1
    · refine subOn_op op (A := A) ?_ w hw
      refine forall₂_of_get (by simp [hlen]) fun k L M hL hM => ?_
      simp only [List.getElem?_map, Option.map_eq_some_iff] at hL hM
      obtain ⟨x, hx, rfl⟩ := hL
      obtain ⟨y, hy, rfl⟩ := hM
      exact fun w hw => (key k y x hy hx w hw).2

/-! ### What the footprints say about the language -/

theorem seq_nil (Ls : List (Lang α)) (h : ∀ L ∈ Ls, L []) : Lang.seqL Ls [] := by
  induction Ls with
  | nil => rfl
  | cons L Ls ih => exact ⟨[], [], h L List.mem_cons_self, ih fun M hM => h M (List.mem_cons_of_mem _ hM), rfl⟩

theorem par_nil (Ls : List (Lang α)) (h : ∀ L ∈ Ls, L []) : Lang.parL Ls [] := by
  induction Ls with
  | nil => rfl
  | cons L Ls ih => exact ⟨[], [], h L List.mem_cons_self, ih fun M hM => h M (List.mem_cons_of_mem _ hM), .nil⟩

/-- sound footprints: a skippable node has the empty word, and all labels are activities -/
structure FOk (t : PT α) (f : FP α) : Prop where
  skip : f.skip = true → t.lang []
  acts : ∀ a ∈ t.labels, a ∈ f.acts

theorem footprints_ok (t : PT α) (ht : WF t) (f : FP α) (hf : footprints t = some f) : FOk t f := by
  induction t using PT.induct generalizing f with
  | leaf l =>
    rw [footprints, Option.some.injEq] at hf; subst hf
    cases l with
    | none => exact ⟨fun _ => by simp [Lang.eps], fun a ha => by simp [labels] at ha⟩
    | some b => exact ⟨fun h => by simp [fpLeaf] at h, fun a ha => by simpa [labels, fpLeaf] using ha⟩
  | node op cs ih =>
    cases ht with
    | node _ _ hne hcs =>
    have hemp : cs.isEmpty = false := by cases cs <;> simp_all
    rw [footprints, hemp] at hf
    simp only [Bool.false_eq_true, if_false, Option.bind_eq_bind, Option.bind_eq_some_iff] at hf
    obtain ⟨fs, h1, h2⟩ := hf
    have hL : List.Forall₂ FOk cs fs := by
      clear hne hemp h2
      induction cs generalizing fs with
      | nil => rw [footprintsL, Option.some.injEq] at h1; subst h1; exact .nil
      | cons c cs ih' =>
        rw [footprintsL] at h1
        simp only [Option.bind_eq_bind, Option.bind_eq_some_iff] at h1
        obtain ⟨g, hg, gs, hgs, h1⟩ := h1
        simp only [pure, Option.some.injEq] at h1; subst h1
        exact .cons (ih c List.mem_cons_self (hcs c List.mem_cons_self) g hg)
          (ih' (fun d hd => ih d (List.mem_cons_of_mem _ hd)) (fun d hd => hcs d (List.mem_cons_of_mem _ hd)) gs hgs)
    have hacts : ∀ a ∈ (PT.node op cs).labels, a ∈ fs.flatMap FP.acts := by
      intro a ha
      rw [labels_node, List.mem_flatMap] at ha
      obtain ⟨c, hc, ha⟩ := ha
      obtain ⟨g, hg, h⟩ := forall₂_mem hL hc
      exact List.mem_flatMap.2 ⟨g, hg, h.acts a ha⟩
    have hall : (∀ g ∈ fs, g.skip = true) → ∀ L ∈ cs.map lang, L [] := by
      intro h L hL'
      obtain ⟨c, hc, rfl⟩ := List.mem_map.1 hL'
      obtain ⟨g, hg, hk⟩ := forall₂_mem hL hc
      exact hk.skip (h g hg)
    cases op with
    | seq =>
      simp only [fpOp, Option.some.injEq] at h2; subst h2
      refine ⟨fun h => ?_, hacts⟩
      rw [lang_node]
      exact seq_nil _ (hall ((foldl_and fs true).1 h).2)
    | xor =>
      simp only [fpOp, Option.some.injEq] at h2; subst h2
      refine ⟨fun h => ?_, hacts⟩
      rw [lang_node]
      rcases (foldl_or fs false).1 h with h | ⟨g, hg, h⟩
      · cases h
      · obtain ⟨c, hc, hk⟩ := forall₂_mem (List.Forall₂.flip hL) hg
        exact ⟨c.lang, List.mem_map_of_mem hc, hk.skip h⟩
    | par =>
      simp only [fpOp, Option.some.injEq] at h2; subst h2
      refine ⟨fun h => ?_, hacts⟩
      rw [lang_node]
      exact par_nil _ (hall ((foldl_and fs true).1 h).2)
    | or =>
      simp only [fpOp, Option.some.injEq] at h2; subst h2
      refine ⟨fun h => ?_, hacts⟩
      rw [lang_node]
      exact ⟨cs.map lang, by simpa using hne, List.Sublist.refl _, par_nil _ (hall ((foldl_and fs true).1 h).2)⟩
    | inter => simp [fpOp] at h2
    | loop =>
      rw [fpOp] at h2
      cases hL with
      | nil => simp [fpLoop] at h2
      | @cons c d cs' fs' hcd hrest =>
        cases fs' with
        | nil => simp [fpLoop] at h2
        | cons r fs' =>
          simp only [fpLoop, Option.some.injEq] at h2; subst h2
          refine ⟨fun h => ?_, hacts⟩
          rw [lang_node]
          exact .exit (hcd.skip h)

/-- all letters of all words satisfy `P` -/
def Over (P : α → Prop) (L : Lang α) : Prop := ∀ w, L w → ∀ a ∈ w, P a

theorem over_seq {P : α → Prop} (Ls : List (Lang α)) (h : ∀ L ∈ Ls, Over P L) : Over P (Lang.seqL Ls) := by
  induction Ls with
  | nil => intro w hw a ha; simp only [Lang.seqL, Lang.eps] at hw; subst hw; cases ha
  | cons L Ls ih =>
    rintro w ⟨u, v, hu, hv, rfl⟩ a ha
    rcases List.mem_append.1 ha with ha | ha
    · exact h L List.mem_cons_self u hu a ha
    · exact ih (fun M hM => h M (List.mem_cons_of_mem _ hM)) v hv a ha

theorem over_par {P : α → Prop} (Ls : List (Lang α)) (h : ∀ L ∈ Ls, Over P L) : Over P (Lang.parL Ls) := by
  induction Ls with
  | nil => intro w hw a ha; simp only [Lang.parL, Lang.eps] at hw; subst hw; cases ha
  | cons L Ls ih =>
    rintro w ⟨u, v, hu, hv, hs⟩ a ha
    rcases (hs.mem a).1 ha with ha | ha
    · exact h L List.mem_cons_self u hu a ha
    · exact ih (fun M hM => h M (List.mem_cons_of_mem _ hM)) v hv a ha

theorem over_op {P : α → Prop} (op : Op) (Ls : List (Lang α)) (h : ∀ L ∈ Ls, Over P L) : Over P (opLang op Ls) := by
  cases op with
  | seq => exact over_seq Ls h
  | xor => rintro w ⟨L, hL, hw⟩ a ha; exact h L hL w hw a ha
  | par => exact over_par Ls h
  | or => rintro w ⟨Ms, _, hs, hw⟩ a ha; exact over_par Ms (fun M hM => h M (hs.mem hM)) w hw a ha
  | inter => rintro w ⟨Ms, hp, hw⟩ a ha; exact over_seq Ms (fun M hM => h M (hp.mem_iff.1 hM)) w hw a ha
  | loop =>
    cases Ls with
    | nil => intro w hw; exact hw.elim
    | cons D Rs =>
      intro w hw
      induction hw with
      | exit hd => exact h D List.mem_cons_self _ hd
      | again R hd hR hr _ ih =>
        intro a ha
        simp only [List.mem_append] at ha
        rcases ha with (ha | ha) | ha
        · exact h D List.mem_cons_self _ hd a ha
        · exact h R (List.mem_cons_of_mem _ hR) _ hr a ha
        · exact ih a ha

theorem mem_labels_of_lang (t : PT α) : Over (· ∈ t.labels) t.lang := by
  induction t using PT.induct with
  | leaf l =>
    intro w hw a ha
    cases l with
    | none => rw [lang_tau] at hw; simp only [Lang.eps] at hw; subst hw; cases ha
    | some b => rw [lang_act] at hw; subst hw; simpa [labels] using ha
  | node op cs ih =>
    rw [lang_node]
    apply over_op
    intro L hL
    obtain ⟨c, hc, rfl⟩ := List.mem_map.1 hL
    intro w hw a ha
    rw [labels_node]
    exact List.mem_flatMap.2 ⟨c, hc, ih c hc w hw a ha⟩

/-- a skippable node without activities of the trace has only the empty word over the activities of the trace -/
theorem skip_eqOn {A : List α} {t : PT α} {f : FP α} (h : FOk t f) (hs : f.skip = true) (hA : (inter f.acts A).isEmpty = true) :
    EqOn A t.lang Lang.eps := by
  intro w hw
  constructor
  · intro hl
    cases w with
    | nil => rfl
    | cons a w =>
      exfalso
      have h1 := h.acts a (mem_labels_of_lang t _ hl a List.mem_cons_self)
      have h2 : a ∈ inter f.acts A := List.mem_filter.2 ⟨h1, by simpa using hw a List.mem_cons_self⟩
      rw [List.isEmpty_iff] at hA
      rw [hA] at h2; cases h2
  · rintro rfl; exact h.skip hs

theorem step_good {A : List α} {t : PT α} (ht : WF t) {fps : List (PT α × FP α)} (hf : ∀ e ∈ fps, WF e.1 ∧ footprints e.1 = some e.2)
    {R R' : List Path} (hR : Good A t R) {x : Nd α} (hx : IsNode t x) (h : step fps A R x = some R') : Good A t R' := by
  unfold step at h
  simp only [Option.bind_eq_bind, Option.bind_eq_some_iff] at h
  obtain ⟨f, hlook, h⟩ := h
  split at h
  · rename_i hc
    rw [Bool.and_eq_true] at hc
    simp only [Option.bind_eq_some_iff] at h
    obtain ⟨p, hp, i, hi, h⟩ := h
    simp only [pure, Option.some.injEq] at h; subst h
    have hfx : footprints x.sub = some f := by
      unfold look at hlook
      obtain ⟨e, he, rfl⟩ := Option.map_eq_some_iff.1 hlook
      have hm := List.mem_of_find?_eq_some he
      have := pyEq_eq (hf e hm).1 (IsNode.wf ht hx) (by simpa using List.find?_some he)
      rw [← this]; exact (hf e hm).2
    have hxe := skip_eqOn (footprints_ok x.sub (IsNode.wf ht hx) f hfx) hc.1 hc.2
    obtain ⟨hpn, _, _⟩ := IsNode.parent_node hx hp
    have hpp := pathOf_spec ht hpn
    intro q hq
    rcases List.mem_cons.1 hq with rfl | hq
    · rw [List.findIdx?_eq_some_iff_getElem] at hi
      obtain ⟨hlt, heq, _⟩ := hi
      have hge := curL_get R (pathOf p.sub p.anc) p.sub.children 0 i
      rw [List.getElem?_eq_getElem hlt] at hge
      obtain ⟨c, hc, hce⟩ := Option.map_eq_some_iff.1 hge.symm
      rw [Nat.zero_add] at hce
      have hsub : subAt t (pathOf p.sub p.anc ++ [i]) = some c := by rw [subAt_snoc, hpp]; exact hc
      refine ⟨c, hsub, ?_⟩
      split at hce
      · rename_i hin
        obtain ⟨s, h1, h2⟩ := hR _ hin
        rw [hsub, Option.some.injEq] at h1; subst h1; exact h2
      · rw [← hce] at heq
        have := pyEq_eq (cur_wf R c (wf_subAt ht hsub) _) (cur_wf R x.sub (IsNode.wf ht hx) _) heq
        intro w hw
        rw [← cur_eqOn hR c _ hsub w hw, this, cur_eqOn hR x.sub _ (pathOf_spec ht hx) w hw]
        exact hxe w hw
    · exact hR q hq
  · simp only [pure, Option.some.injEq] at h; subst h; exact hR

theorem loop_good {A : List α} {t : PT α} (ht : WF t) {fps : List (PT α × FP α)} (hf : ∀ e ∈ fps, WF e.1 ∧ footprints e.1 = some e.2)
    (l : List (Nd α)) {R R' : List Path} (hR : Good A t R) (hl : ∀ x ∈ l, IsNode t x) (h : loop fps A R l = some R') : Good A t R' := by
  induction l generalizing R with
  | nil => simp only [loop, Option.some.injEq] at h; subst h; exact hR
  | cons x l ih =>
    rw [loop] at h
    simp only [Option.bind_eq_bind, Option.bind_eq_some_iff] at h
    obtain ⟨R1, h1, h2⟩ := h
    exact ih (step_good ht hf hR (hl x List.mem_cons_self) h1) (fun y hy => hl y (List.mem_cons_of_mem _ hy)) h2

end TreeRed
end Verif
