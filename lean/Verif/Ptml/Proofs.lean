import Verif.Ptml.Model
import Verif.PTree.Spec
set_option linter.unusedSectionVars false
/-
Proofs for C57.
-/
namespace Verif
namespace Ptml
open PT
variable {α : Type}

/-! ### Breadth-first search -/

theorem bfs_append (xs ys : List (Path × PT α)) : bfs (xs ++ ys) = xs ++ bfs (ys ++ xs.flatMap kids) := by
  induction xs generalizing ys with
  | nil => simp
  | cons x xs ih =>
    rw [List.cons_append, bfs, List.append_assoc, ih, List.flatMap_cons, List.append_assoc, List.cons_append]

theorem bfs_level (q : List (Path × PT α)) : bfs q = q ++ bfs (q.flatMap kids) := by
  have := bfs_append q []; simpa using this

/-- the subtree at a path -/
def sub : PT α → Path → Option (PT α)
  | t, [] => some t
  | t, i :: p => do sub (← t.children[i]?) p

theorem mem_kids {x y : Path × PT α} : y ∈ kids x ↔ ∃ i, x.2.children[i]? = some y.2 ∧ y.1 = x.1 ++ [i] := by
  unfold kids
  rw [List.mem_map]
  constructor
  · rintro ⟨⟨c, i⟩, hm, rfl⟩
    exact ⟨i, by have := List.mem_zipIdx_iff_getElem?.1 hm; simpa using this, rfl⟩
  · rintro ⟨i, h1, h2⟩
    exact ⟨(y.2, i), List.mem_zipIdx_iff_getElem?.2 h1, by rw [← h2]⟩

theorem sizeQ_flatMap (q : List (Path × PT α)) : sizeQ (q.flatMap kids) + q.length ≤ sizeQ q := by
  induction q with
  | nil => simp [sizeQ]
  | cons x q ih =>
    have := sizeQ_kids x
    simp only [sizeQ, List.flatMap_cons, List.map_append, List.sum_append, List.map_cons, List.sum_cons, List.length_cons] at *
    omega

theorem mem_bfs (q : List (Path × PT α)) (y : Path × PT α) : y ∈ bfs q ↔ ∃ x ∈ q, ∃ p, sub x.2 p = some y.2 ∧ y.1 = x.1 ++ p := by
  generalize hn : sizeQ q = n
  induction n using Nat.strongRecOn generalizing q with
  | _ n ih =>
    cases q with
    | nil => simp [bfs]
    | cons x0 q0 =>
      rw [bfs_level, List.mem_append]
      have hs := sizeQ_flatMap (x0 :: q0)
      rw [ih (sizeQ ((x0 :: q0).flatMap kids)) (by rw [List.length_cons] at hs; omega) _ rfl]
      constructor
      · rintro (h | ⟨x, hx, p, h1, h2⟩)
        · exact ⟨y, h, [], rfl, by simp⟩
        · obtain ⟨z, hz, hxz⟩ := List.mem_flatMap.1 hx
          obtain ⟨i, h3, h4⟩ := mem_kids.1 hxz
          exact ⟨z, hz, i :: p, by simp [sub, h3, h1], by rw [h2, h4]; simp⟩
      · rintro ⟨x, hx, p, h1, h2⟩
        cases p with
        | nil =>
          simp [sub] at h1 h2
          exact .inl (by rw [show y = x from Prod.ext h2 h1.symm]; exact hx)
        | cons i p =>
          simp only [sub, Option.bind_eq_bind, Option.bind_eq_some_iff] at h1
          obtain ⟨c, hc, h1⟩ := h1
          exact .inr ⟨(x.1 ++ [i], c), List.mem_flatMap.2 ⟨x, hx, mem_kids.2 ⟨i, hc, rfl⟩⟩, p, h1, by rw [h2]; simp⟩

/-- a level of the tree: paths of the same length, all different -/
structure Lvl (q : List (Path × PT α)) (L : Nat) : Prop where
  len : ∀ x ∈ q, x.1.length = L
  nodup : (q.map Prod.fst).Nodup

theorem kids_nodup (x : Path × PT α) : ((kids x).map Prod.fst).Nodup := by
  unfold kids
  rw [List.map_map, show (Prod.fst ∘ fun ci : PT α × Nat => (x.1 ++ [ci.2], ci.1)) = (fun i => x.1 ++ [i]) ∘ Prod.snd from rfl,
    ← List.map_map, List.zipIdx_map_snd]
  unfold List.Nodup
  rw [List.pairwise_map]
  refine (List.nodup_range' (s := 0) (n := _)).imp ?_
  intro a b hab h
  exact hab (by simpa using h)

theorem Lvl.next {q : List (Path × PT α)} {L : Nat} (h : Lvl q L) : Lvl (q.flatMap kids) (L + 1) := by
  constructor
  · intro x hx
    obtain ⟨z, hz, hxz⟩ := List.mem_flatMap.1 hx
    obtain ⟨i, _, h4⟩ := mem_kids.1 hxz
    rw [h4]; simp [h.len z hz]
  · have hn := h.nodup
    clear h
    induction q with
    | nil => simp
    | cons x q ih =>
      rw [List.map_cons, List.nodup_cons] at hn
      rw [List.flatMap_cons, List.map_append, List.nodup_append]
      refine ⟨kids_nodup x, ih hn.2, ?_⟩
      rintro a ha b hb rfl
      obtain ⟨y, hy, rfl⟩ := List.mem_map.1 ha
      obtain ⟨z, hz, hyz⟩ := List.mem_map.1 hb
      obtain ⟨w, hw, hz⟩ := List.mem_flatMap.1 hz
      obtain ⟨i, _, h1⟩ := mem_kids.1 hy
      obtain ⟨j, _, h2⟩ := mem_kids.1 hz
      rw [h1, h2] at hyz
      have := (List.append_inj' hyz rfl).1
      exact hn.1 (List.mem_map.2 ⟨w, hw, this⟩)

theorem bfs_len {q : List (Path × PT α)} {L : Nat} (h : Lvl q L) : ∀ x ∈ bfs q, L ≤ x.1.length := by
  intro x hx
  obtain ⟨z, hz, p, _, h2⟩ := (mem_bfs q x).1 hx
  rw [h2]; simp [h.len z hz]

theorem bfs_nodup {q : List (Path × PT α)} {L : Nat} (h : Lvl q L) : ((bfs q).map Prod.fst).Nodup := by
  generalize hn : sizeQ q = n
  induction n using Nat.strongRecOn generalizing q L with
  | _ n ih =>
    cases q with
    | nil => simp [bfs]
    | cons x0 q0 =>
      rw [bfs_level, List.map_append, List.nodup_append]
      have hs := sizeQ_flatMap (x0 :: q0)
      refine ⟨h.nodup, ih _ (by rw [List.length_cons] at hs; omega) h.next rfl, ?_⟩
      rintro a ha b hb rfl
      obtain ⟨y, hy, rfl⟩ := List.mem_map.1 ha
      obtain ⟨z, hz, hyz⟩ := List.mem_map.1 hb
      have h1 := h.len y hy
      have h2 := bfs_len h.next z hz
      rw [hyz] at h2
      omega

/-- the node has the parent with path `p` -/
def childOf (p : Path) (y : Path × PT α) : Bool := !y.1.isEmpty && decide (y.1.dropLast = p)

theorem childOf_len {p : Path} {y : Path × PT α} (h : childOf p y = true) : y.1.length = p.length + 1 := by
  unfold childOf at h
  simp only [Bool.and_eq_true, Bool.not_eq_true', List.isEmpty_eq_false_iff, decide_eq_true_eq] at h
  rw [← h.2, List.length_dropLast]
  have := List.length_pos_iff.2 h.1
  omega

theorem filter_kids (p : Path) (x : Path × PT α) : (kids x).filter (childOf p) = if x.1 = p then kids x else [] := by
  split
  · rename_i h
    rw [List.filter_eq_self]
    intro y hy
    obtain ⟨i, _, h4⟩ := mem_kids.1 hy
    simp [childOf, h4, h]
  · rename_i h
    rw [List.filter_eq_nil_iff]
    intro y hy
    obtain ⟨i, _, h4⟩ := mem_kids.1 hy
    simp [childOf, h4, h]

theorem bfs_children {q : List (Path × PT α)} {L : Nat} (h : Lvl q L) (x : Path × PT α) (hx : x ∈ bfs q) :
    (bfs q).filter (childOf x.1) = kids x := by
  generalize hn : sizeQ q = n
  induction n using Nat.strongRecOn generalizing q L with
  | _ n ih =>
    cases q with
    | nil => simp [bfs] at hx
    | cons x0 q0 =>
      have hs := sizeQ_flatMap (x0 :: q0)
      generalize hq : (x0 :: q0) = q at *
      have hlen : 0 < q.length := by rw [← hq]; simp
      have hL := bfs_len h x hx
      have h0 : q.filter (childOf x.1) = [] := by
        rw [List.filter_eq_nil_iff]
        intro y hy hc
        have h1 := childOf_len hc
        have h2 := h.len y hy
        omega
      rw [bfs_level q, List.filter_append, h0, List.nil_append]
      rw [bfs_level, List.mem_append] at hx
      rcases hx with hx | hx
      · -- the node is in this level
        rw [bfs_level, List.filter_append]
        have h1 : (bfs ((q.flatMap kids).flatMap kids)).filter (childOf x.1) = [] := by
          rw [List.filter_eq_nil_iff]
          intro y hy hc
          have h1 := childOf_len hc
          have h2 := bfs_len h.next.next y hy
          have h3 := h.len x hx
          omega
        rw [h1, List.append_nil]
        have hnd := h.nodup
        clear ih hs h0 h1 hq hL hlen h
        clear hn
        have hn := hnd
        clear hnd
        induction q with
        | nil => simp at hx
        | cons z q ihq =>
          rw [List.map_cons, List.nodup_cons] at hn
          rw [List.flatMap_cons, List.filter_append, filter_kids]
          rcases List.mem_cons.1 hx with rfl | hx
          · rw [if_pos rfl]
            have : (q.flatMap kids).filter (childOf x.1) = [] := by
              rw [List.filter_eq_nil_iff]
              intro y hy hc
              obtain ⟨w, hw, hy⟩ := List.mem_flatMap.1 hy
              have : y ∈ (kids w).filter (childOf x.1) := List.mem_filter.2 ⟨hy, hc⟩
              rw [filter_kids] at this
              split at this
              · rename_i he; exact hn.1 (List.mem_map.2 ⟨w, hw, he⟩)
              · simp at this
            rw [this, List.append_nil]
          · rw [if_neg, List.nil_append]
            · exact ihq hx hn.2
            · intro he; exact hn.1 (List.mem_map.2 ⟨x, hx, he.symm⟩)
      · exact ih _ (by omega) h.next hx rfl

theorem lvl_root (t : PT α) : Lvl [(([] : Path), t)] 0 := ⟨by simp, by simp⟩

/-- the nodes of the tree -/
theorem mem_nodes (t : PT α) (y : Path × PT α) : y ∈ bfs [([], t)] ↔ sub t y.1 = some y.2 := by
  rw [mem_bfs]
  constructor
  · rintro ⟨x, hx, p, h1, h2⟩
    simp at hx; subst hx
    simp at h2; subst h2; exact h1
  · intro h; exact ⟨_, List.mem_singleton.2 rfl, y.1, h, by simp⟩

theorem size_pos (t : PT α) : 0 < size t := by cases t <;> simp [size]

theorem size_child {t c : PT α} (h : c ∈ t.children) : size c < size t := by
  cases t with
  | leaf l => simp [PT.children] at h
  | node op cs =>
    simp only [PT.children] at h
    rw [size, sizeL_eq]
    have : size c ≤ (cs.map size).sum := by
      clear op
      induction cs with
      | nil => simp at h
      | cons d cs ih =>
        rw [List.map_cons, List.sum_cons]
        rcases List.mem_cons.1 h with rfl | h
        · omega
        · have := ih h; omega
    omega

theorem sub_size {t s : PT α} {p : Path} (h : sub t p = some s) : p = [] ∧ s = t ∨ size s < size t := by
  induction p generalizing t with
  | nil => simp [sub] at h; exact .inl ⟨rfl, h.symm⟩
  | cons i p ih =>
    simp only [sub, Option.bind_eq_bind, Option.bind_eq_some_iff] at h
    obtain ⟨c, hc, h⟩ := h
    have h1 := size_child (List.mem_of_getElem? hc)
    rcases ih h with ⟨_, rfl⟩ | h2
    · exact .inr h1
    · exact .inr (by omega)

section
variable [DecidableEq α]

theorem pyEq_size (s : PT α) : ∀ t, pyEq s t = true → size s = size t := by
  induction s using PT.induct with
  | leaf l =>
    intro t h
    cases l with
    | none =>
      rw [pyEq] at h
      cases t with
      | leaf l => simp [size]
      | node op cs => simp [PT.children, PT.label] at h; subst h; simp [size, sizeL]
    | some a =>
      rw [pyEq] at h
      cases t with
      | leaf l => simp [size]
      | node op cs => simp [PT.label] at h
  | node op cs ih =>
    intro t h
    rw [pyEq] at h
    split at h
    · rename_i he
      rw [List.isEmpty_iff] at he; subst he
      cases t with
      | leaf l => simp [size, sizeL]
      | node op cs => simp [PT.children, PT.label] at h; subst h; simp [size, sizeL]
    · have key : ∀ (cs ds : List (PT α)), (∀ c ∈ cs, ∀ t, pyEq c t = true → size c = size t) → pyEqL cs ds = true → sizeL cs = sizeL ds := by
        intro cs
        induction cs with
        | nil => intro ds _ h; cases ds with
          | nil => rfl
          | cons d ds => simp [pyEqL] at h
        | cons c cs ihc =>
          intro ds hc h
          cases ds with
          | nil => simp [pyEqL] at h
          | cons d ds =>
            rw [pyEqL, Bool.and_eq_true] at h
            rw [sizeL, sizeL, hc c List.mem_cons_self d h.1, ihc ds (fun c hc' => hc c (List.mem_cons_of_mem _ hc')) h.2]
      cases t with
      | leaf l => simp [PT.operator] at h
      | node op' ds =>
        simp [PT.children] at h
        rw [size, size, key cs ds ih h.2]

theorem pyEq_refl (t : PT α) : pyEq t t = true := by
  induction t using PT.induct with
  | leaf l => cases l <;> simp [pyEq, PT.label, PT.children]
  | node op cs ih =>
    rw [pyEq]
    split
    · rename_i h; simpa [PT.label, PT.children] using h
    · simp only [PT.operator, PT.children, decide_true, Bool.true_and]
      rename_i hne; clear hne
      induction cs with
      | nil => rfl
      | cons c cs ihc => rw [pyEqL, ih c List.mem_cons_self, ihc fun d hd => ih d (List.mem_cons_of_mem _ hd)]; rfl

/-- the nodes that are not the root -/
theorem filter_root (t : PT α) : (bfs [([], t)]).filter (fun x => !pyEq x.2 t) = (bfs [([], t)]).filter fun x => !x.1.isEmpty := by
  refine List.filter_congr fun x hx => ?_
  have h := (mem_nodes t x).1 hx
  rcases sub_size h with ⟨h1, h2⟩ | h1
  · rw [h1, h2, pyEq_refl]; rfl
  · have h2 : pyEq x.2 t = false := by
      cases hc : pyEq x.2 t with
      | false => rfl
      | true => have := pyEq_size _ _ hc; omega
    have h3 : x.1.isEmpty = false := by
      cases hp : x.1 with
      | nil => rw [hp] at h; simp [sub] at h; rw [h] at h1; omega
      | cons _ _ => rfl
    rw [h2, h3]
end

/-! ### Reading the elements -/

variable {I : Type} [DecidableEq I]

theorem set_self (h : Heap α I) (r : Ref I) (o : Obj α I) : h.set r o r = some o := by simp [Heap.set]
theorem set_ne (h : Heap α I) {r s : Ref I} (o : Obj α I) (hrs : s ≠ r) : h.set r o s = h s := by simp [Heap.set, hrs]

theorem readElems_append (s : List I × Heap α I) (xs ys : List (Elem α I)) :
    readElems s (xs ++ ys) = (readElems s xs).bind fun s => readElems s ys := by
  induction xs generalizing s with
  | nil => rfl
  | cons x xs ih =>
    simp only [List.cons_append, readElems, Option.bind_eq_bind, Option.bind_assoc]
    congr 1; funext s; exact ih s

/-- what is imported for a node, before the edges -/
def objOf : PT α → Obj α I
  | .leaf l => ⟨none, l, [], none⟩
  | .node op _ => ⟨some op, none, [], none⟩

theorem mapM_some {β γ : Type} (f : β → Option γ) (g : β → γ) (l : List β) (h : ∀ x ∈ l, f x = some (g x)) : l.mapM f = some (l.map g) := by
  induction l with
  | nil => rfl
  | cons x l ih =>
    rw [List.mapM_cons, h x List.mem_cons_self, ih fun y hy => h y (List.mem_cons_of_mem _ hy)]
    rfl

theorem read_nodes (u : Path → I) (hu : Function.Injective u) (ns : List (Path × PT α)) (es : List (Elem α I)) (hes : ns.mapM (elemOf u) = some es)
    (hnd : (ns.map Prod.fst).Nodup) (ids : List I) (h : Heap α I) (hids : ∀ x ∈ ns, u x.1 ∉ ids) :
    ∃ h', readElems (ids, h) es = some (ids ++ ns.map (fun x => u x.1), h') ∧ (∀ x ∈ ns, h' (.id (u x.1)) = some (objOf x.2)) ∧
      ∀ r, (∀ x ∈ ns, r ≠ .id (u x.1)) → h' r = h r := by
  induction ns generalizing es ids h with
  | nil => simp at hes; subst hes; exact ⟨h, by simp [readElems], by simp, by simp⟩
  | cons x ns ih =>
    rw [List.mapM_cons] at hes
    simp only [Option.bind_eq_bind, Option.bind_eq_some_iff, pure, Option.some.injEq] at hes
    obtain ⟨e, he, es', hes', rfl⟩ := hes
    rw [List.map_cons, List.nodup_cons] at hnd
    have hx := hids x List.mem_cons_self
    have hr : readElem (ids, h) e = some (ids ++ [u x.1], h.set (.id (u x.1)) (objOf x.2)) := by
      obtain ⟨p, t⟩ := x
      cases t with
      | leaf l => cases l <;> simp only [elemOf, Option.some.injEq] at he <;> subst he <;> simp [readElem, mkObj, objOf, hx]
      | node op cs => cases op <;> simp only [elemOf, Option.some.injEq, reduceCtorEq] at he <;> subst he <;> simp [readElem, mkObj, objOf, hx]
    obtain ⟨h', h1, h2, h3⟩ := ih es' hes' hnd.2 (ids ++ [u x.1]) (h.set (.id (u x.1)) (objOf x.2)) (by
      intro y hy hm
      rcases List.mem_append.1 hm with hm | hm
      · exact hids y (List.mem_cons_of_mem _ hy) hm
      · exact hnd.1 (List.mem_map.2 ⟨y, hy, hu (List.mem_singleton.1 hm)⟩))
    refine ⟨h', ?_, ?_, ?_⟩
    · simp only [readElems, hr, Option.bind_eq_bind, Option.bind_some, h1]
      simp
    · intro y hy
      rcases List.mem_cons.1 hy with rfl | hy
      · rw [h3, set_self]
        intro z hz he
        have : y.1 = z.1 := hu (by simpa using he)
        exact hnd.1 (List.mem_map.2 ⟨z, hz, this.symm⟩)
      · exact h2 y hy
    · intro r hr'
      rw [h3 r fun z hz => hr' z (List.mem_cons_of_mem _ hz), set_ne _ _ (hr' x List.mem_cons_self)]

/-- the same object, up to its parent, with children appended -/
def Grows (o o' : Obj α I) (l : List (Ref I)) : Prop := o'.op = o.op ∧ o'.label = o.label ∧ o'.children = o.children ++ l

theorem read_edges (es : List (I × I)) (ids : List I) (h : Heap α I) (hdom : ∀ e ∈ es, (h (.id e.1)).isSome ∧ (h (.id e.2)).isSome) :
    ∃ h', readElems (ids, h) (es.map fun e => .edge e.1 e.2) = some (ids, h') ∧
      (∀ i o, h (.id i) = some o → ∃ o', h' (.id i) = some o' ∧ Grows o o' ((es.filter fun e => decide (e.1 = i)).map fun e => .id e.2)) ∧
      ∀ i, h (.id i) = none → h' (.id i) = none := by
  induction es generalizing h with
  | nil => exact ⟨h, rfl, fun i o ho => ⟨o, ho, rfl, rfl, by simp⟩, fun _ h => h⟩
  | cons e es ih =>
    obtain ⟨a, b⟩ := e
    have hd := hdom (a, b) List.mem_cons_self
    obtain ⟨oa, hoa⟩ := Option.isSome_iff_exists.1 hd.1
    obtain ⟨ob, hob⟩ : ∃ ob, (h.set (.id a) { oa with children := oa.children ++ [.id b] }) (.id b) = some ob := by
      by_cases hab : (Ref.id b : Ref I) = .id a
      · rw [hab]; exact ⟨_, set_self _ _ _⟩
      · rw [set_ne _ _ hab]; exact Option.isSome_iff_exists.1 hd.2
    let h2 := (h.set (.id a) { oa with children := oa.children ++ [.id b] }).set (.id b) { ob with parent := some (.id a) }
    have hstep : ∀ i o, h (.id i) = some o → ∃ o', h2 (.id i) = some o' ∧ Grows o o' (if a = i then [.id b] else []) := by
      intro i o ho
      by_cases hib : i = b
      · subst hib
        refine ⟨{ ob with parent := some (.id a) }, set_self _ _ _, ?_⟩
        by_cases hia : i = a
        · subst hia
          rw [set_self] at hob; cases hob
          rw [hoa] at ho; cases ho
          exact ⟨rfl, rfl, by simp⟩
        · rw [set_ne _ _ (by simpa using hia), ho] at hob; cases hob
          exact ⟨rfl, rfl, by simp [Ne.symm hia]⟩
      · by_cases hia : i = a
        · subst hia
          refine ⟨{ oa with children := oa.children ++ [.id b] }, ?_, ?_⟩
          · show Heap.set _ _ _ _ = _
            rw [set_ne _ _ (by simpa using hib), set_self]
          · rw [hoa] at ho; cases ho; exact ⟨rfl, rfl, by simp⟩
        · refine ⟨o, ?_, rfl, rfl, by simp [Ne.symm hia]⟩
          show Heap.set _ _ _ _ = _
          rw [set_ne _ _ (by simpa using hib), set_ne _ _ (by simpa using hia), ho]
    obtain ⟨h', h1, hg, hn⟩ := ih h2 (by
      intro e he
      have := hdom e (List.mem_cons_of_mem _ he)
      obtain ⟨o1, h1⟩ := Option.isSome_iff_exists.1 this.1
      obtain ⟨o2, h2⟩ := Option.isSome_iff_exists.1 this.2
      obtain ⟨_, g1, _⟩ := hstep _ _ h1
      obtain ⟨_, g2, _⟩ := hstep _ _ h2
      exact ⟨by rw [g1]; rfl, by rw [g2]; rfl⟩)
    refine ⟨h', ?_, ?_, ?_⟩
    · simp only [List.map_cons, readElems, readElem, Option.bind_eq_bind, hoa, Option.bind_some, hob, pure]
      exact h1
    · intro i o ho
      obtain ⟨o1, g1, e1, e2, e3⟩ := hstep i o ho
      obtain ⟨o2, g2, f1, f2, f3⟩ := hg i o1 g1
      refine ⟨o2, g2, f1.trans e1, f2.trans e2, ?_⟩
      rw [f3, e3, List.filter_cons, List.append_assoc]
      by_cases hai : a = i <;> simp [hai]
    · intro i hi
      apply hn
      have h1 : (Ref.id i : Ref I) ≠ .id a := by rintro he; rw [he, hoa] at hi; cases hi
      have h2' : (Ref.id i : Ref I) ≠ .id b := by
        rintro he; rw [he] at hi; have := hd.2; rw [hi] at this; cases this
      show Heap.set _ _ _ _ = _
      rw [set_ne _ _ h2', set_ne _ _ h1, hi]

/-! ### The second loop -/

/-- the third child of a loop with three is dropped -/
def cut (o : Obj α I) : Obj α I := if o.op = some .loop ∧ o.children.length = 3 then { o with children := o.children.eraseIdx 2 } else o

/-- the third children of loops with three children are silent leaves -/
def Silent3 (h : Heap α I) : Prop := ∀ i o, h (.id i) = some o → o.op = some .loop → o.children.length = 3 →
  ∃ r o2, o.children[2]? = some r ∧ h r = some o2 ∧ o2.op = none ∧ o2.label = none

theorem cut_fields (o : Obj α I) : (cut o).op = o.op ∧ (cut o).label = o.label := by unfold cut; split <;> exact ⟨rfl, rfl⟩

theorem cut_not3 (o : Obj α I) : ¬ ((cut o).op = some .loop ∧ (cut o).children.length = 3) := by
  unfold cut
  split
  · rename_i h; rintro ⟨_, h2⟩; simp [List.length_eraseIdx, h.2] at h2
  · rename_i h; exact h

theorem cut_cut (o : Obj α I) : cut (cut o) = cut o := by
  have : ∀ o' : Obj α I, ¬ (o'.op = some .loop ∧ o'.children.length = 3) → cut o' = o' := fun o' h => by unfold cut; rw [if_neg h]
  exact this _ (cut_not3 o)

variable [DecidableEq α]

theorem fixLoop_silent (n : Nat) (h : Heap α I) (hs : Silent3 h) (i : I) (o : Obj α I) (ho : h (.id i) = some o) :
    ∃ h', fixLoop n h i = some h' ∧ Silent3 h' ∧ ∀ r, h' r = if r = .id i then some (cut o) else h r := by
  unfold fixLoop
  simp only [ho, Option.bind_eq_bind, Option.bind_some]
  by_cases hc : o.op = some .loop ∧ o.children.length = 3
  · obtain ⟨r2, o2, h1, h2, h3, h4⟩ := hs i o ho hc.1 hc.2
    rw [if_pos hc]
    simp only [h1, Option.bind_some, h2]
    rw [if_neg (by simp [h3, h4])]
    simp only [Option.bind_some, ho, pure]
    have hval : ∀ r, (h.set (.id i) { o with children := o.children.eraseIdx 2 }) r = if r = .id i then some (cut o) else h r := by
      intro r; unfold Heap.set cut; rw [if_pos hc]
    refine ⟨_, rfl, ?_, hval⟩
    intro j oj hj hop hlen
    rw [hval] at hj
    split at hj
    · cases hj; exact absurd ⟨hop, hlen⟩ (cut_not3 o)
    · obtain ⟨r, o3, g1, g2, g3, g4⟩ := hs j oj hj hop hlen
      refine ⟨r, ?_⟩
      by_cases hr : r = .id i
      · subst hr
        rw [ho] at g2; cases g2
        rw [hc.1] at g3; cases g3
      · exact ⟨o3, g1, by rw [hval, if_neg hr]; exact g2, g3, g4⟩
  · rw [if_neg hc]
    refine ⟨h, rfl, hs, fun r => ?_⟩
    unfold cut
    rw [if_neg hc]
    split
    · rename_i hr; rw [hr, ho]
    · rfl

theorem fixLoops_silent (n : Nat) (is : List I) (h : Heap α I) (hs : Silent3 h) (hd : ∀ i ∈ is, (h (.id i)).isSome) :
    ∃ h', fixLoops n h is = some h' ∧ ∀ r, h' r = if ∃ i ∈ is, r = .id i then (h r).map cut else h r := by
  induction is generalizing h with
  | nil => exact ⟨h, rfl, by simp⟩
  | cons i is ih =>
    obtain ⟨o, ho⟩ := Option.isSome_iff_exists.1 (hd i List.mem_cons_self)
    obtain ⟨h1, e1, s1, v1⟩ := fixLoop_silent n h hs i o ho
    obtain ⟨h2, e2, v2⟩ := ih h1 s1 (by
      intro j hj
      rw [v1]; split
      · rfl
      · exact hd j (List.mem_cons_of_mem _ hj))
    refine ⟨h2, by simp [fixLoops, e1, e2], fun r => ?_⟩
    rw [v2, v1]
    by_cases hr : r = .id i
    · subst hr
      rw [if_pos rfl]
      simp only [Option.map_some, cut_cut, ite_self, ho]
      rw [if_pos ⟨i, List.mem_cons_self, rfl⟩]
    · simp only [hr, if_false]
      by_cases hex : ∃ j ∈ is, r = .id j
      · rw [if_pos hex, if_pos (by obtain ⟨j, hj, e⟩ := hex; exact ⟨j, List.mem_cons_of_mem _ hj, e⟩)]
      · rw [if_neg hex, if_neg]
        rintro ⟨j, hj, e⟩
        rcases List.mem_cons.1 hj with rfl | hj
        · exact hr e
        · exact hex ⟨j, hj, e⟩

end Ptml
end Verif
