import Verif.OcFlat.Spec
import Verif.Filter.Proofs
import Mathlib.Data.List.Nodup
import Mathlib.Algebra.BigOperators.Group.List.Basic
/-
Property theorems C74: flattening of object-centric event logs, object-centric directly-follows graphs.
-/
set_option linter.unusedSectionVars false
namespace Verif
open OcFlat Ocel Dict
namespace OcFlat
variable {ε ο α θ π : Type} [DecidableEq ε] [DecidableEq ο] [DecidableEq α] [DecidableEq θ]

/-! ### lists -/

theorem filter_single {β : Type} {l : List β} (hn : l.Nodup) {q : β → Bool} {c : β} (hq : ∀ p ∈ l, q p = true → p = c) (hc : c ∈ l) (hqc : q c = true) :
    l.filter q = [c] := by
  induction l with
  | nil => simp at hc
  | cons x l ih =>
    rw [List.nodup_cons] at hn
    by_cases hx : x = c
    · subst hx
      rw [List.filter_cons_of_pos hqc, List.filter_eq_nil_iff.2]
      intro y hy hqy
      exact hn.1 (hq y (by simp [hy]) hqy ▸ hy)
    · have : ¬ q x = true := fun h => hx (hq x (by simp) h)
      rw [List.filter_cons_of_neg this]
      refine ih hn.2 (fun p hp => hq p (by simp [hp])) ?_
      rcases List.mem_cons.1 hc with rfl | hc
      · exact absurd rfl hx
      · exact hc

theorem flatMap_if {β γ : Type} (f : β → γ) (q : β → Prop) [DecidablePred q] (l : List β) :
    (l.flatMap fun e => if q e then [f e] else []) = (l.filter fun e => decide (q e)).map f := by
  induction l with
  | nil => rfl
  | cons x l ih =>
    rw [List.flatMap_cons, ih, List.filter_cons]
    by_cases h : q x <;> simp [h]

theorem mem_zip_tail {β : Type} {l : List β} {e f : β} : (e, f) ∈ l.zip l.tail ↔ ∃ pre suf, l = pre ++ e :: f :: suf := by
  induction l with
  | nil => simp
  | cons x l ih =>
    cases l with
    | nil =>
      simp only [List.tail_cons, List.zip_nil_right, List.not_mem_nil, false_iff]
      rintro ⟨pre, suf, h⟩
      have := congrArg List.length h
      simp at this
      omega
    | cons y l =>
      rw [List.tail_cons, List.zip_cons_cons, List.mem_cons]
      rw [List.tail_cons] at ih
      constructor
      · rintro (h | h)
        · cases h; exact ⟨[], l, rfl⟩
        · obtain ⟨pre, suf, h⟩ := ih.1 h
          exact ⟨x :: pre, suf, by rw [h]; rfl⟩
      · rintro ⟨pre, suf, h⟩
        cases pre with
        | nil => cases h; exact .inl rfl
        | cons z pre =>
          rw [List.cons_append, List.cons.injEq] at h
          exact .inr (ih.2 ⟨pre, suf, h.2⟩)

theorem length_partition {β κ : Type} [DecidableEq κ] (f : β → κ) (xs : List κ) (hx : xs.Nodup) (l : List β) (h : ∀ b ∈ l, f b ∈ xs) :
    l.length = (xs.map fun x => (l.filter fun b => decide (f b = x)).length).sum := by
  induction l with
  | nil => simp
  | cons b l ih =>
    have hb := h b (by simp)
    have key : ∀ ys : List κ, ys.Nodup → (ys.map fun x => ((b :: l).filter fun b => decide (f b = x)).length).sum =
        (ys.map fun x => (l.filter fun b => decide (f b = x)).length).sum + if f b ∈ ys then 1 else 0 := by
      intro ys
      induction ys with
      | nil => simp
      | cons y ys ihy =>
        intro hy
        rw [List.nodup_cons] at hy
        rw [List.map_cons, List.sum_cons, ihy hy.2, List.map_cons, List.sum_cons, List.filter_cons]
        by_cases h1 : f b = y
        · subst h1
          simp [hy.1]; omega
        · simp [h1]; omega
    rw [key xs hx, if_pos hb, ← ih fun b hb => h b (by simp [hb]), List.length_cons]

/-! ### the log -/

variable {o : Ocel ε ο α θ π}

theorem id_inj (h : WF o) {x y : ObRow ο θ π} (hx : x ∈ o.objects) (hy : y ∈ o.objects) (e : x.id = y.id) : x = y :=
  List.inj_on_of_nodup_map h.objects hx hy e

theorem ev_inj (h : WF o) {x y : EvRow ε α π} (hx : x ∈ o.events) (hy : y ∈ o.events) (e : x.id = y.id) : x = y :=
  List.inj_on_of_nodup_map h.events hx hy e

theorem typeOf_iff (h : WF o) (x : ο) (t : θ) : typeOf o x = some t ↔ HasType o x t := by
  unfold typeOf HasType
  rw [Option.map_eq_some_iff]
  constructor
  · rintro ⟨y, hy, rfl⟩
    exact ⟨y, List.mem_of_find?_eq_some hy, by simpa using List.find?_some hy, rfl⟩
  · rintro ⟨y, hy, rfl, rfl⟩
    cases e : o.objects.find? fun z => decide (z.id = y.id) with
    | none => exact absurd (List.find?_eq_none.1 e y hy) (by simp)
    | some z =>
      have : z = y := id_inj h (List.mem_of_find?_eq_some e) hy (by simpa using List.find?_some e)
      exact ⟨z, rfl, by rw [this]⟩

theorem actOf_mem (h : WF o) {e : EvRow ε α π} (he : e ∈ o.events) : actOf o e.id = some e.act := by
  unfold actOf
  rw [Option.map_eq_some_iff]
  cases e' : o.events.find? fun z => decide (z.id = e.id) with
  | none => exact absurd (List.find?_eq_none.1 e' e he) (by simp)
  | some z =>
    have : z = e := ev_inj h (List.mem_of_find?_eq_some e') he (by simpa using List.find?_some e')
    exact ⟨z, rfl, by rw [this]⟩

/-! ### flattening -/

/-- objects merged with relations -/
def merged (ot : θ) (o : Ocel ε ο α θ π) : List (ObRow ο θ π × ε) :=
  (o.objects.filter fun x => decide (x.type = ot)).flatMap fun x =>
    ((o.relations.filter fun r => decide (r.type = ot)).filter fun r => decide (r.ob = x.id)).map fun r => (x, r.ev)

theorem flatten_eq (ot : θ) (o : Ocel ε ο α θ π) :
    flatten ot o = o.events.flatMap fun e => ((merged ot o).filter fun p => decide (p.2 = e.id)).map fun p => (e, p.1) := rfl

theorem mem_merged (h : WF o) (ot : θ) (p : ObRow ο θ π × ε) :
    p ∈ merged ot o ↔ p.1 ∈ o.objects ∧ p.1.type = ot ∧ ∃ r ∈ o.relations, r.ev = p.2 ∧ r.ob = p.1.id := by
  unfold merged
  simp only [List.mem_flatMap, List.mem_filter, List.mem_map, decide_eq_true_eq]
  constructor
  · rintro ⟨x, ⟨hx, ht⟩, r, ⟨⟨hr, _⟩, ho⟩, rfl⟩
    exact ⟨hx, ht, r, hr, rfl, ho⟩
  · rintro ⟨hx, ht, r, hr, he, ho⟩
    obtain ⟨y, hy, h1, h2⟩ := (h.refs r hr).2
    have : y = p.1 := id_inj h hy hx (h1.trans ho)
    subst this
    exact ⟨p.1, ⟨hx, ht⟩, r, ⟨⟨hr, by rw [← h2]; exact ht⟩, ho⟩, by rw [he]⟩

theorem nodup_merged (h : WF o) (ot : θ) : (merged ot o).Nodup := by
  unfold merged
  rw [List.nodup_flatMap]
  constructor
  · intro x _
    have h1 : (((o.relations.filter fun r => decide (r.type = ot)).filter fun r => decide (r.ob = x.id)).map fun r => (r.ev, r.ob)).Nodup :=
      h.once.sublist ((List.filter_sublist.trans List.filter_sublist).map _)
    refine List.Nodup.of_map (fun p : ObRow ο θ π × ε => (p.2, p.1.id)) ?_
    rw [List.map_map]
    refine (List.map_congr_left ?_).symm ▸ h1
    intro r hr
    have := (List.mem_filter.1 hr).2
    simp only [decide_eq_true_eq] at this
    simp only [Function.comp_apply, this]
  · have h2 : (o.objects.filter fun x => decide (x.type = ot)).Nodup := (List.Nodup.of_map _ h.objects).sublist List.filter_sublist
    refine h2.imp ?_
    intro x y hxy
    rw [Function.onFun, List.disjoint_left]
    intro p hp hq
    obtain ⟨_, _, rfl⟩ := List.mem_map.1 hp
    obtain ⟨_, _, e⟩ := List.mem_map.1 hq
    exact hxy (congrArg Prod.fst e).symm

theorem mem_flatten (h : WF o) (ot : θ) (r : EvRow ε α π × ObRow ο θ π) :
    r ∈ flatten ot o ↔ r.1 ∈ o.events ∧ r.2 ∈ o.objects ∧ r.2.type = ot ∧ Related o r.1.id r.2.id := by
  rw [flatten_eq, List.mem_flatMap]
  constructor
  · rintro ⟨e, he, hr⟩
    obtain ⟨p, hp, rfl⟩ := List.mem_map.1 hr
    obtain ⟨hp, hpe⟩ := List.mem_filter.1 hp
    obtain ⟨h1, h2, r, hr, h3, h4⟩ := (mem_merged h ot p).1 hp
    simp only [decide_eq_true_eq] at hpe
    exact ⟨he, h1, h2, r, hr, h3.trans hpe, h4⟩
  · rintro ⟨he, hx, ht, q, hq, h1, h2⟩
    refine ⟨r.1, he, List.mem_map.2 ⟨(r.2, r.1.id), List.mem_filter.2 ⟨(mem_merged h ot _).2 ⟨hx, ht, q, hq, h1, h2⟩, by simp⟩, rfl⟩⟩

theorem nodup_flatten (h : WF o) (ot : θ) : (flatten ot o).Nodup := by
  rw [flatten_eq, List.nodup_flatMap]
  constructor
  · intro e _
    refine List.Nodup.map_on ?_ ((nodup_merged h ot).sublist List.filter_sublist)
    intro p hp q hq e'
    have h1 := (List.mem_filter.1 hp).2
    have h2 := (List.mem_filter.1 hq).2
    simp only [decide_eq_true_eq] at h1 h2
    exact Prod.ext (congrArg Prod.snd e') (h1.trans h2.symm)
  · refine (List.Nodup.of_map _ h.events).imp ?_
    intro x y hxy
    rw [Function.onFun, List.disjoint_left]
    intro p hp hq
    obtain ⟨_, _, rfl⟩ := List.mem_map.1 hp
    obtain ⟨_, _, e⟩ := List.mem_map.1 hq
    exact hxy (congrArg Prod.fst e).symm

theorem case_flatten (h : WF o) (ot : θ) {y : ObRow ο θ π} (hy : y ∈ o.objects) (ht : y.type = ot) :
    (flatten ot o).filter (fun r => decide (r.2.id = y.id)) = (lifecycle o y.id).map fun e => (e, y) := by
  rw [flatten_eq, List.filter_flatMap]
  unfold lifecycle
  rw [← flatMap_if]
  apply List.flatMap_congr
  intro e he
  rw [List.filter_map]
  split
  · next hr =>
    obtain ⟨r, hr, h1, h2⟩ := hr
    rw [List.filter_filter, filter_single (nodup_merged h ot) (c := (y, e.id))]
    · rfl
    · intro p hp hq
      simp only [Function.comp_apply, Bool.and_eq_true, decide_eq_true_eq] at hq
      exact Prod.ext (id_inj h ((mem_merged h ot p).1 hp).1 hy hq.1) hq.2
    · exact (mem_merged h ot _).2 ⟨hy, ht, r, hr, h1, h2⟩
    · simp
  · next hr =>
    rw [List.map_eq_nil_iff, List.filter_filter, List.filter_eq_nil_iff]
    intro p hp hq
    simp only [Function.comp_apply, Bool.and_eq_true, decide_eq_true_eq] at hq
    obtain ⟨_, _, r, hr', h1, h2⟩ := (mem_merged h ot p).1 hp
    exact hr ⟨r, hr', h1.trans hq.2, h2.trans hq.1⟩

/-! ### the edges -/

/-- what is recorded -/
def triples : Dict ο ε → List (ε × ο) → List (ε × ε × ο)
  | _, [] => []
  | h, v :: vs => (match get? h v.2 with | some p => [(p, v.1, v.2)] | none => []) ++ triples (Dict.set h v.2 v.1) vs

def sel (o : Ocel ε ο α θ π) (t : θ) (ab : α × α) (x : ε × ε × ο) : Bool :=
  decide (typeOf o x.2.2 = some t ∧ actOf o x.1 = some ab.1 ∧ actOf o x.2.1 = some ab.2)

theorem edge_add (d : Edges ε ο α θ) (t t' : θ) (ab ab' : α × α) (x : ε × ε × ο) :
    edge (addEdge d t ab x) t' ab' = if t = t' ∧ ab = ab' then some ((edge d t' ab').getD [] ++ [x]) else edge d t' ab' := by
  unfold addEdge edge
  rw [get?_set]
  by_cases ht : t = t'
  · subst ht
    simp only [if_true, Option.bind_some, true_and, get?_set]
    by_cases hy : ab = ab'
    · subst hy; simp
    · simp only [hy, if_false]
      cases get? d t <;> simp
  · simp [ht]

theorem run (o : Ocel ε ο α θ π) : ∀ (vs : List (ε × ο)) (s : St ε ο α θ),
    (∀ v ∈ vs, (∃ a, actOf o v.1 = some a) ∧ ∃ t, typeOf o v.2 = some t) →
    (∀ x p, get? s.history x = some p → ∃ a, actOf o p = some a) →
    ∃ s', vs.foldlM (visit o) s = some s' ∧
      (∀ t ab, (edge s'.edges t ab).getD [] = (edge s.edges t ab).getD [] ++ (triples s.history vs).filter (sel o t ab)) ∧
      (∀ t ab, edge s'.edges t ab = some [] → edge s.edges t ab = some []) := by
  intro vs
  induction vs with
  | nil => intro s _ _; exact ⟨s, rfl, fun t ab => by simp [triples], fun _ _ h => h⟩
  | cons v vs ih =>
    intro s hv hs
    obtain ⟨⟨b, hb⟩, t, ht⟩ := hv v (by simp)
    have hs' : ∀ x p, get? (Dict.set s.history v.2 v.1) x = some p → ∃ a, actOf o p = some a := by
      intro x p hp
      rw [get?_set] at hp
      split at hp
      · cases hp; exact ⟨b, hb⟩
      · exact hs x p hp
    cases hp : get? s.history v.2 with
    | none =>
      have hvis : visit o s v = some ⟨Dict.set s.history v.2 v.1, s.edges⟩ := by unfold visit; rw [hp]
      obtain ⟨s', h1, h2, h3⟩ := ih ⟨Dict.set s.history v.2 v.1, s.edges⟩ (fun w hw => hv w (by simp [hw])) hs'
      refine ⟨s', ?_, fun t ab => ?_, h3⟩
      · rw [List.foldlM_cons, hvis]; exact h1
      · rw [h2]
        simp only [triples, hp, List.nil_append]
    | some p =>
      obtain ⟨a, ha⟩ := hs v.2 p hp
      have hvis : visit o s v = some ⟨Dict.set s.history v.2 v.1, addEdge s.edges t (a, b) (p, v.1, v.2)⟩ := by
        unfold visit; rw [hp]; simp only [ht, ha, hb]
      obtain ⟨s', h1, h2, h3⟩ := ih ⟨Dict.set s.history v.2 v.1, addEdge s.edges t (a, b) (p, v.1, v.2)⟩
        (fun w hw => hv w (by simp [hw])) hs'
      refine ⟨s', ?_, fun t' ab => ?_, fun t' ab he => ?_⟩
      · rw [List.foldlM_cons, hvis]; exact h1
      · rw [h2]
        simp only [triples, hp, List.cons_append, List.nil_append, List.filter_cons, edge_add]
        have : sel o t' ab (p, v.1, v.2) = decide (t = t' ∧ (a, b) = ab) := by
          unfold sel
          simp only [ht, ha, hb, Option.some.injEq]
          rw [decide_eq_decide]
          constructor
          · rintro ⟨rfl, rfl, rfl⟩; exact ⟨rfl, rfl⟩
          · rintro ⟨rfl, rfl⟩; exact ⟨rfl, rfl, rfl⟩
        rw [this]
        by_cases hc : t = t' ∧ (a, b) = ab
        · simp [hc]
        · simp only [hc, if_false, decide_false, Bool.false_eq_true]
      · have := h3 t' ab he
        rw [edge_add] at this
        split at this
        · simp at this
        · exact this

theorem triples_obj (x : ο) : ∀ (vs : List (ε × ο)) (h : Dict ο ε), (triples h vs).filter (fun t => decide (t.2.2 = x)) =
    let l := (get? h x).toList ++ (vs.filter fun v => decide (v.2 = x)).map Prod.fst
    (l.zip l.tail).map fun p => (p.1, p.2, x) := by
  intro vs
  induction vs with
  | nil => intro h; cases e : get? h x <;> simp [triples]
  | cons v vs ih =>
    intro h
    simp only [triples, List.filter_append, ih, get?_set, List.filter_cons]
    by_cases hx : v.2 = x
    · subst hx
      cases e : get? h v.2 <;> simp
    · cases e : get? h v.2 <;> simp [hx]

theorem triples_sublist : ∀ (vs : List (ε × ο)) (h : Dict ο ε), ((triples h vs).map Prod.snd).Sublist vs := by
  intro vs
  induction vs with
  | nil => intro h; simp [triples]
  | cons v vs ih =>
    intro h
    rw [triples, List.map_append]
    cases get? h v.2 with
    | none => exact (ih _).cons _
    | some p => exact (ih _).cons_cons _

theorem visits_obj (h : WF o) (x : ο) : ((visits o).filter fun v => decide (v.2 = x)).map Prod.fst = (lifecycle o x).map EvRow.id := by
  unfold visits lifecycle
  rw [List.filter_flatMap, List.map_flatMap, ← flatMap_if]
  apply List.flatMap_congr
  intro e _
  rw [List.filter_map, List.filter_filter, List.map_map]
  have hn := List.Nodup.of_map _ h.once
  split
  · next hr =>
    obtain ⟨r, hr, h1, h2⟩ := hr
    rw [filter_single hn (c := r)]
    · rfl
    · intro p hp hq
      simp only [Function.comp_apply, Bool.and_eq_true, decide_eq_true_eq] at hq
      exact List.inj_on_of_nodup_map h.once hp hr (by rw [hq.1, hq.2, h1, h2])
    · exact hr
    · simp [h1, h2]
  · next hr =>
    rw [List.map_eq_nil_iff, List.filter_eq_nil_iff]
    intro p hp hq
    simp only [Function.comp_apply, Bool.and_eq_true, decide_eq_true_eq] at hq
    exact hr ⟨p, hp, hq.2, hq.1⟩

theorem nodup_visits (h : WF o) : (visits o).Nodup := by
  unfold visits
  rw [List.nodup_flatMap]
  constructor
  · intro e _
    have h1 : ((o.relations.filter fun r => decide (r.ev = e.id)).map fun r => (r.ev, r.ob)).Nodup := h.once.sublist (List.filter_sublist.map _)
    refine (List.map_congr_left ?_) ▸ h1
    intro r hr
    have := (List.mem_filter.1 hr).2
    simp only [decide_eq_true_eq] at this
    rw [this]
  · have : o.events.Pairwise fun x y => x.id ≠ y.id := List.pairwise_map.1 h.events
    refine this.imp ?_
    intro x y hxy
    rw [Function.onFun, List.disjoint_left]
    intro p hp hq
    obtain ⟨_, _, rfl⟩ := List.mem_map.1 hp
    obtain ⟨_, _, e⟩ := List.mem_map.1 hq
    exact hxy (congrArg Prod.fst e).symm

theorem visits_known (h : WF o) : ∀ v ∈ visits o, (∃ a, actOf o v.1 = some a) ∧ ∃ t, typeOf o v.2 = some t := by
  intro v hv
  obtain ⟨e, he, hv⟩ := List.mem_flatMap.1 hv
  obtain ⟨r, hr, rfl⟩ := List.mem_map.1 hv
  obtain ⟨y, hy, h1, _⟩ := (h.refs r (List.mem_filter.1 hr).1).2
  exact ⟨⟨_, actOf_mem h he⟩, y.type, (typeOf_iff h _ _).2 ⟨y, hy, h1, rfl⟩⟩

/-- the triples of an object -/
theorem triples_life (h : WF o) (x : ο) : (triples [] (visits o)).filter (fun t => decide (t.2.2 = x)) =
    ((lifecycle o x).zip (lifecycle o x).tail).map fun p => (p.1.id, p.2.id, x) := by
  rw [triples_obj]
  simp only [get?_nil, Option.toList_none, List.nil_append, visits_obj h]
  rw [← List.map_tail, List.zip_map, List.map_map]
  rfl

theorem mem_life {x : ο} {p : EvRow ε α π × EvRow ε α π} (hp : p ∈ (lifecycle o x).zip (lifecycle o x).tail) : p.1 ∈ o.events ∧ p.2 ∈ o.events := by
  obtain ⟨h1, h2⟩ := List.of_mem_zip hp
  exact ⟨List.mem_of_mem_filter h1, List.mem_of_mem_filter (List.mem_of_mem_tail h2)⟩

theorem mem_sel (h : WF o) (t : θ) (a b : α) (e f : ε) (x : ο) :
    (e, f, x) ∈ (triples [] (visits o)).filter (sel o t (a, b)) ↔ Follows o t a b e f x := by
  have h0 : (e, f, x) ∈ triples [] (visits o) ↔ (e, f, x) ∈ (triples [] (visits o)).filter (fun t => decide (t.2.2 = x)) := by
    rw [List.mem_filter]; simp
  rw [List.mem_filter, h0, triples_life h, List.mem_map]
  unfold sel Follows
  simp only [decide_eq_true_eq, typeOf_iff h]
  constructor
  · rintro ⟨⟨⟨e', f'⟩, hp, e0⟩, h1, h2, h3⟩
    simp only [Prod.mk.injEq] at e0
    obtain ⟨rfl, rfl, _⟩ := e0
    obtain ⟨he, hf⟩ := mem_life hp
    obtain ⟨pre, suf, hl⟩ := mem_zip_tail.1 hp
    rw [actOf_mem h he, Option.some.injEq] at h2
    rw [actOf_mem h hf, Option.some.injEq] at h3
    exact ⟨h1, pre, e', f', suf, hl, rfl, h2, rfl, h3⟩
  · rintro ⟨h1, pre, e', f', suf, hl, rfl, rfl, rfl, rfl⟩
    have hp := mem_zip_tail.2 ⟨pre, suf, hl⟩
    obtain ⟨he, hf⟩ := mem_life hp
    exact ⟨⟨(e', f'), hp, rfl⟩, h1, actOf_mem h he, actOf_mem h hf⟩

theorem edges_ok (h : WF o) : ∃ d, edges o = some d ∧ ∀ t ab,
    (edge d t ab).getD [] = (triples [] (visits o)).filter (sel o t ab) ∧ edge d t ab ≠ some [] := by
  obtain ⟨s', h1, h2, h3⟩ := run o (visits o) ⟨[], []⟩ (visits_known h) (by intro x p hp; simp at hp)
  refine ⟨s'.edges, by unfold edges; rw [h1]; rfl, fun t ab => ⟨?_, fun he => ?_⟩⟩
  · rw [h2]; simp [edge]
  · have := h3 t ab he
    simp [edge] at this

end OcFlat

variable {ε ο α θ π : Type} [DecidableEq ε] [DecidableEq ο] [DecidableEq α] [DecidableEq θ]

/-! ### C74 -/

/-- C74: flattening on a type: the rows are exactly the pairs of an event and an object of that type that are related, each once. -/
theorem C74_rows (o : Ocel ε ο α θ π) (h : WF o) (ot : θ) : (flatten ot o).Nodup ∧
    ∀ r, r ∈ flatten ot o ↔ r.1 ∈ o.events ∧ r.2 ∈ o.objects ∧ r.2.type = ot ∧ Related o r.1.id r.2.id :=
  ⟨nodup_flatten h ot, mem_flatten h ot⟩

/-- C74: the cases of the flattened log are the objects of the type that have an event; the events of a case are the events of the object, in the
order of the object-centric log. -/
theorem C74_cases (o : Ocel ε ο α θ π) (h : WF o) (ot : θ) (x : ο) :
    (x ∈ (flatten ot o).map (fun r => r.2.id) ↔ HasType o x ot ∧ lifecycle o x ≠ []) ∧
    (HasType o x ot → ((flatten ot o).filter fun r => decide (r.2.id = x)).map Prod.fst = lifecycle o x) := by
  constructor
  · rw [List.mem_map]
    constructor
    · rintro ⟨r, hr, rfl⟩
      obtain ⟨h1, h2, h3, q, hq, h4, h5⟩ := (mem_flatten h ot r).1 hr
      refine ⟨⟨r.2, h2, rfl, h3⟩, fun e => ?_⟩
      have : r.1 ∈ lifecycle o r.2.id := List.mem_filter.2 ⟨h1, by simpa using ⟨q, hq, h4, h5⟩⟩
      rw [e] at this
      simp at this
    · rintro ⟨⟨y, hy, rfl, ht⟩, hne⟩
      obtain ⟨e, he⟩ := List.exists_mem_of_ne_nil _ hne
      obtain ⟨he, hr⟩ := List.mem_filter.1 he
      exact ⟨(e, y), (mem_flatten h ot _).2 ⟨he, hy, ht, by simpa [Related] using hr⟩, rfl⟩
  · rintro ⟨y, hy, rfl, ht⟩
    rw [case_flatten h ot hy ht, List.map_map]
    exact List.map_id _

/-- C74: the edges of the object-centric directly-follows graph: no exception is raised; the occurrences listed for the activities `a`, `b` and the
type `t` are exactly the triples of an event, the next event and the object of type `t`, each once; there is an entry exactly if there is one. -/
theorem C74_ocdfg (o : Ocel ε ο α θ π) (h : WF o) : ∃ d, edges o = some d ∧ ∀ t a b,
    (∀ L, edge d t (a, b) = some L → L.Nodup ∧ L ≠ [] ∧ ∀ e f x, (e, f, x) ∈ L ↔ Follows o t a b e f x) ∧
    (edge d t (a, b) = none ↔ ∀ e f x, ¬ Follows o t a b e f x) := by
  obtain ⟨d, hd, hL⟩ := edges_ok h
  refine ⟨d, hd, fun t a b => ⟨fun L hl => ?_, ?_⟩⟩
  · obtain ⟨h1, h2⟩ := hL t (a, b)
    rw [hl] at h1 h2
    simp only [Option.getD_some] at h1
    refine ⟨?_, fun e => h2 (by rw [e]), fun e f x => by rw [h1]; exact mem_sel h t a b e f x⟩
    rw [h1]
    exact (List.Nodup.of_map _ ((nodup_visits h).sublist (triples_sublist (visits o) []))).sublist List.filter_sublist
  · obtain ⟨h1, h2⟩ := hL t (a, b)
    constructor
    · intro e0 e f x hf
      rw [e0, Option.getD_none] at h1
      have := (mem_sel h t a b e f x).2 hf
      rw [← h1] at this
      simp at this
    · intro hno
      cases hc : edge d t (a, b) with
      | none => rfl
      | some L =>
        rw [hc, Option.getD_some] at h1
        refine absurd ?_ h2
        rw [hc, Option.some.injEq, h1, List.eq_nil_iff_forall_not_mem]
        rintro ⟨e, f, x⟩ hm
        exact hno e f x ((mem_sel h t a b e f x).1 hm)

/-- C74: for every type the number of occurrences of an edge of the object-centric directly-follows graph is its frequency in the directly-follows
graph of the log flattened on that type. -/
theorem C74_ocdfg_flat (o : Ocel ε ο α θ π) (h : WF o) (d : Edges ε ο α θ) (hd : edges o = some d) (t : θ) (a b : α) :
    (((edge d t (a, b)).getD []).length : Int) = Dict.count (Dfg.discover (flatLog t o)).graph (a, b) := by
  obtain ⟨d', hd', hL⟩ := edges_ok h
  rw [hd] at hd'
  cases hd'
  rw [(hL t (a, b)).1]
  have hdisc : Dict.count (Dfg.discover (flatLog t o)).graph (a, b) = (Counter.cnt (a, b) ((flatLog t o).flatMap Dfg.pairs) : Int) := by
    simp only [Dfg.discover]
    rw [Dfg.foldl_pairs, Counter.count_update]
    simp
  rw [hdisc, Counter.cnt_flatMap]
  have hnd : (Filter.firstOcc ((flatten t o).map fun r => r.2.id)).Nodup := Filter.firstOcc_nodup _
  have hmem : ∀ x, x ∈ Filter.firstOcc ((flatten t o).map fun r => r.2.id) ↔ HasType o x t ∧ lifecycle o x ≠ [] := by
    intro x
    rw [Filter.firstOcc_mem]
    exact (C74_cases o h t x).1
  rw [length_partition (fun z : ε × ε × ο => z.2.2) _ hnd]
  · congr 2
    unfold flatLog
    simp only
    rw [List.map_map]
    apply List.map_congr_left
    intro x hx
    have hx := ((hmem x).1 hx).1
    have hc := (C74_cases o h t x).2 hx
    simp only [Function.comp_apply]
    have e1 : ((flatten t o).filter fun r => decide (r.2.id = x)).map (fun r => r.1.act) = (lifecycle o x).map EvRow.act := by
      rw [← hc, List.map_map]; rfl
    rw [e1, Dfg.pairs_eq_zip, ← List.map_tail, List.zip_map]
    rw [List.filter_filter]
    have e2 : (triples [] (visits o)).filter (fun z => decide (z.2.2 = x) && sel o t (a, b) z) =
        ((triples [] (visits o)).filter fun z => decide (z.2.2 = x)).filter (sel o t (a, b)) := by
      rw [List.filter_filter]
      apply List.filter_congr
      intro z _
      exact Bool.and_comm _ _
    rw [e2, triples_life h, List.filter_map, List.length_map]
    unfold Counter.cnt
    rw [List.countP_map, List.countP_eq_length_filter]
    congr 1
    apply List.filter_congr
    intro p hp
    obtain ⟨he, hf⟩ := mem_life hp
    simp only [Function.comp_apply, sel, actOf_mem h he, actOf_mem h hf, (typeOf_iff h x t).2 hx, Option.some.injEq, true_and, Prod.map]
    rw [decide_eq_decide]
    simp
  · rintro ⟨e, f, x⟩ hz
    obtain ⟨h1, pre, e', f', suf, hl, _⟩ := (mem_sel h t a b e f x).1 hz
    exact (hmem x).2 ⟨h1, by rw [hl]; simp⟩

end Verif
