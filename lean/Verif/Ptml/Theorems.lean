import Verif.Ptml.Proofs
import Verif.PTree.Theorems
set_option linter.unusedSectionVars false
/-
Property theorems C57: writing a process tree to PTML and reading it back.
-/
namespace Verif
namespace Ptml
open PT
variable {α : Type} [DecidableEq α] {I : Type} [DecidableEq I]

mutual
/-- the third child of every loop with three children is dropped -/
def strip : PT α → PT α
  | .leaf l => .leaf l
  | .node op cs => .node op (if op = .loop ∧ cs.length = 3 then (stripL cs).eraseIdx 2 else stripL cs)
def stripL : List (PT α) → List (PT α)
  | [] => []
  | c :: cs => strip c :: stripL cs
end

theorem stripL_eq (cs : List (PT α)) : stripL cs = cs.map strip := by
  induction cs with
  | nil => rfl
  | cons c cs ih => rw [stripL, ih]; rfl

theorem addThirdL_eq (cs : List (PT α)) : addThirdL cs = cs.map addThird := by
  induction cs with
  | nil => rfl
  | cons c cs ih => rw [addThirdL, ih]; rfl

/-- the third child of every loop with three children is a silent leaf -/
inductive Third : PT α → Prop
  | leaf (l : Option α) : Third (.leaf l)
  | node (op : Op) (cs : List (PT α)) : (op = .loop → cs.length = 3 → cs[2]? = some (.leaf none)) → (∀ c ∈ cs, Third c) → Third (.node op cs)

theorem Third.sub {t s : PT α} {p : Path} (ht : Third t) (h : sub t p = some s) : Third s := by
  induction p generalizing t with
  | nil => simp [Ptml.sub] at h; subst h; exact ht
  | cons i p ih =>
    simp only [Ptml.sub, Option.bind_eq_bind, Option.bind_eq_some_iff] at h
    obtain ⟨c, hc, h⟩ := h
    refine ih ?_ h
    cases ht with
    | leaf l => simp [PT.children] at hc
    | node op cs _ h2 => exact h2 c (List.mem_of_getElem? hc)

theorem opFree_sub {op : Op} {t s : PT α} {p : Path} (ht : OpFree op t) (h : sub t p = some s) : OpFree op s := by
  induction p generalizing t with
  | nil => simp [Ptml.sub] at h; subst h; exact ht
  | cons i p ih =>
    simp only [Ptml.sub, Option.bind_eq_bind, Option.bind_eq_some_iff] at h
    obtain ⟨c, hc, h⟩ := h
    refine ih ?_ h
    cases ht with
    | leaf l => simp [PT.children] at hc
    | node op cs _ h2 => exact h2 c (List.mem_of_getElem? hc)

theorem sub_append {t s : PT α} {p : Path} (h : sub t p = some s) (i : Nat) (c : PT α) (hc : s.children[i]? = some c) : sub t (p ++ [i]) = some c := by
  induction p generalizing t with
  | nil => simp [Ptml.sub] at h; subst h; simp [Ptml.sub, hc]
  | cons j p ih =>
    simp only [Ptml.sub, Option.bind_eq_bind, Option.bind_eq_some_iff] at h
    obtain ⟨d, hd, h⟩ := h
    simp [Ptml.sub, hd, ih h]

theorem opFree_of_sub {op : Op} (t : PT α) (h : ∀ p cs, sub t p ≠ some (.node op cs)) : OpFree op t := by
  induction t using PT.induct with
  | leaf l => exact .leaf l
  | node o cs ih =>
    refine .node o cs ?_ ?_
    · rintro rfl; exact h [] cs rfl
    · intro c hc
      refine ih c hc ?_
      obtain ⟨i, hi⟩ := List.getElem?_of_mem hc
      intro p ds hp
      exact h (i :: p) ds (by simp [Ptml.sub, PT.children, hi, hp])

theorem opFree_addThird (op : Op) (t : PT α) : OpFree op (addThird t) ↔ OpFree op t := by
  induction t using PT.induct with
  | leaf l => exact Iff.rfl
  | node o cs ih =>
    rw [addThird]
    constructor
    · intro h
      cases h with
      | node _ _ h1 h2 =>
      refine .node o cs h1 fun c hc => (ih c hc).1 (h2 _ ?_)
      have : addThird c ∈ addThirdL cs := by rw [addThirdL_eq]; exact List.mem_map.2 ⟨c, hc, rfl⟩
      split
      · exact List.mem_append_left _ this
      · exact this
    · intro h
      cases h with
      | node _ _ h1 h2 =>
      have key : ∀ d ∈ addThirdL cs, OpFree op d := by
        intro d hd
        rw [addThirdL_eq] at hd
        obtain ⟨c, hc, rfl⟩ := List.mem_map.1 hd
        exact (ih c hc).2 (h2 c hc)
      refine .node o _ h1 fun d hd => ?_
      split at hd
      · rcases List.mem_append.1 hd with hd | hd
        · exact key d hd
        · simp at hd; subst hd; exact .leaf none
      · exact key d hd

/-! ### Export -/

theorem elemOf_none {u : Path → I} {x : Path × PT α} : elemOf u x = none ↔ ∃ cs, x.2 = .node .inter cs := by
  obtain ⟨p, t⟩ := x
  cases t with
  | leaf l => cases l <;> simp [elemOf]
  | node op cs => cases op <;> simp [elemOf]

theorem mapM_none {β γ : Type} (f : β → Option γ) (l : List β) : l.mapM f = none ↔ ∃ x ∈ l, f x = none := by
  induction l with
  | nil => simp
  | cons x l ih =>
    rw [List.mapM_cons]
    cases hx : f x with
    | none => simp [hx]
    | some y =>
      simp only [Option.bind_eq_bind, Option.bind_some, List.mem_cons, exists_eq_or_imp, hx, reduceCtorEq, false_or, ← ih]
      cases l.mapM f <;> simp

theorem export_none (u : Path → I) (t : PT α) : export_ u t = none ↔ ¬ OpFree .inter t := by
  rw [← opFree_addThird]
  have h1 : export_ u t = none ↔ (bfs [([], addThird t)]).mapM (elemOf u) = none := by
    unfold export_
    simp only []
    cases hm : (bfs [([], addThird t)]).mapM (elemOf u) with
    | none => simp only [Option.bind_eq_bind, Option.bind_none]
    | some m => simp only [Option.bind_eq_bind, Option.bind_some, pure]; simp
  rw [h1, mapM_none]
  constructor
  · rintro ⟨x, hx, he⟩ hf
    obtain ⟨cs, hcs⟩ := elemOf_none.1 he
    have := opFree_sub hf ((mem_nodes _ x).1 hx)
    rw [hcs] at this
    cases this with
    | node _ _ h _ => exact h rfl
  · intro hf
    apply Classical.byContradiction
    intro hno
    refine hf (opFree_of_sub _ fun p cs hp => hno ⟨(p, .node .inter cs), (mem_nodes _ _).2 hp, elemOf_none.2 ⟨cs, rfl⟩⟩)

/-! ### Import of the exported document -/

theorem mapM_map_some {β γ δ : Type} (g : β → γ) (f : γ → Option δ) (k : β → δ) (l : List β) (h : ∀ x ∈ l, f (g x) = some (k x)) :
    (l.map g).mapM f = some (l.map k) := by
  induction l with
  | nil => rfl
  | cons x l ih =>
    rw [List.map_cons, List.mapM_cons, h x List.mem_cons_self, ih fun y hy => h y (List.mem_cons_of_mem _ hy)]
    rfl

/-- an object of the dictionary for the node `s` at path `p` of the exported tree, before the second loop -/
structure Node0 (u : Path → I) (h : Heap α I) (p : Path) (s : PT α) : Prop where
  ex : ∃ o, h (.id (u p)) = some o ∧ o.op = (objOf s : Obj α I).op ∧ o.label = (objOf s : Obj α I).label ∧
    o.children = (kids (p, s)).map fun y => .id (u y.1)

theorem import_heap (u : Path → I) (hu : Function.Injective u) (t : PT α) (ht : OpFree .inter t) :
    ∃ d ids h, export_ u t = some d ∧ d.root = u [] ∧ readElems ([], fun _ => none) d.elems = some (ids, h) ∧
      (∀ i, i ∈ ids ↔ ∃ p s, sub (addThird t) p = some s ∧ i = u p) ∧
      (∀ p s, sub (addThird t) p = some s → Node0 u h p s) ∧ ∀ i, i ∉ ids → h (.id i) = none := by
  cases he : export_ u t with
  | none => exact absurd ht ((export_none u t).1 he)
  | some d =>
    unfold export_ at he
    simp only [Option.bind_eq_bind, Option.bind_eq_some_iff, pure, Option.some.injEq] at he
    obtain ⟨es, hes, rfl⟩ := he
    generalize ht' : addThird t = t' at *
    have hnd := bfs_nodup (lvl_root t')
    obtain ⟨h1, r1, v1, w1⟩ := read_nodes u hu _ es hes hnd [] (fun _ => none) (by simp)
    rw [filter_root]
    let E : List (I × I) := ((bfs [([], t')]).filter fun x => !x.1.isEmpty).map fun x => (u x.1.dropLast, u x.1)
    have hE : (((bfs [([], t')]).filter fun x => !x.1.isEmpty).map fun x => (Elem.edge (u x.1.dropLast) (u x.1) : Elem α I)) =
        E.map fun e => .edge e.1 e.2 := by rw [List.map_map]; rfl
    have hdom : ∀ e ∈ E, (h1 (.id e.1)).isSome ∧ (h1 (.id e.2)).isSome := by
      intro e he
      obtain ⟨x, hx, rfl⟩ := List.mem_map.1 he
      obtain ⟨hx, hne⟩ := List.mem_filter.1 hx
      refine ⟨?_, by rw [v1 x hx]; rfl⟩
      -- the parent is a node
      have hs := (mem_nodes t' x).1 hx
      have hp : ∃ s, sub t' x.1.dropLast = some s := by
        have key : ∀ (p : Path) (t s : PT α), sub t p = some s → ∃ s', sub t p.dropLast = some s' := by
          intro p
          induction p with
          | nil => intro t s _; exact ⟨t, rfl⟩
          | cons i p ih =>
            intro t s h
            cases p with
            | nil => exact ⟨t, rfl⟩
            | cons j p =>
              simp only [Ptml.sub, Option.bind_eq_bind, Option.bind_eq_some_iff] at h
              obtain ⟨c, hc, h⟩ := h
              obtain ⟨s', hs'⟩ := ih c s (by rw [Ptml.sub, Option.bind_eq_bind, Option.bind_eq_some_iff]; exact h)
              exact ⟨s', by rw [List.dropLast_cons_cons]; simp [Ptml.sub, hc, hs']⟩
        exact key x.1 t' x.2 hs
      obtain ⟨s, hp⟩ := hp
      have := v1 (x.1.dropLast, s) ((mem_nodes t' _).2 hp)
      rw [this]; rfl
    obtain ⟨h2, r2, v2, w2⟩ := read_edges E ([] ++ (bfs [([], t')]).map fun x => u x.1) h1 hdom
    refine ⟨_, [] ++ (bfs [([], t')]).map fun x => u x.1, h2, rfl, rfl, ?_, ?_, ?_, ?_⟩
    · show readElems _ (es ++ _) = _
      rw [hE, readElems_append, r1, Option.bind_some, r2]
    · intro i
      simp only [List.nil_append, List.mem_map]
      constructor
      · rintro ⟨x, hx, rfl⟩; exact ⟨x.1, x.2, (mem_nodes t' x).1 hx, rfl⟩
      · rintro ⟨p, s, hp, rfl⟩; exact ⟨(p, s), (mem_nodes t' _).2 hp, rfl⟩
    · intro p s hp
      have hm := (mem_nodes t' (p, s)).2 hp
      obtain ⟨o, ho, e1, e2, e3⟩ := v2 (u p) _ (v1 (p, s) hm)
      refine ⟨o, ho, e1, e2, ?_⟩
      rw [e3]
      have hc0 : (objOf s : Obj α I).children = [] := by cases s <;> rfl
      show (objOf s : Obj α I).children ++ _ = _
      rw [hc0, List.nil_append]
      have hk := bfs_children (lvl_root t') (p, s) hm
      rw [← hk]
      show List.map _ (List.filter _ (List.map _ _)) = _
      rw [List.filter_map, List.map_map, List.filter_filter]
      have : ((bfs [([], t')]).filter fun x => (((fun e : I × I => decide (e.1 = u p)) ∘ fun x : Path × PT α => (u x.1.dropLast, u x.1)) x && !x.1.isEmpty)) =
          (bfs [([], t')]).filter (childOf p) := by
        refine List.filter_congr fun x _ => ?_
        unfold childOf
        simp only [Function.comp]
        rw [Bool.and_comm]
        congr 1
        exact decide_eq_decide.2 ⟨fun h => hu h, fun h => by rw [h]⟩
      rw [this]; rfl
    · intro i hi
      refine w2 i ?_
      rw [w1]
      intro x hx he
      simp only [Ref.id.injEq] at he
      exact hi (List.mem_append_right _ (List.mem_map.2 ⟨x, hx, he.symm⟩))

theorem kids_map {β : Type} (f : PT α → β) (x : Path × PT α) : (kids x).map (fun y => f y.2) = x.2.children.map f := by
  unfold kids
  rw [List.map_map, show ((fun y : Path × PT α => f y.2) ∘ fun ci : PT α × Nat => (x.1 ++ [ci.2], ci.1)) = f ∘ Prod.fst from rfl,
    ← List.map_map, List.zipIdx_map_fst]

theorem eraseIdx_map {β γ : Type} (f : β → γ) (l : List β) (i : Nat) : (l.map f).eraseIdx i = (l.eraseIdx i).map f := by
  induction l generalizing i with
  | nil => rfl
  | cons x l ih => cases i with
    | zero => rfl
    | succ i => simp [ih]

theorem read_tree (u : Path → I) (t' : PT α) (h : Heap α I)
    (hn : ∀ p s, sub t' p = some s → ∃ o, h (.id (u p)) = some (cut o) ∧ o.op = (objOf s : Obj α I).op ∧ o.label = (objOf s : Obj α I).label ∧
      o.children = (kids (p, s)).map fun y => .id (u y.1)) (s : PT α) :
    ∀ p n, sub t' p = some s → size s ≤ n → read h n (.id (u p)) = some (strip s) := by
  induction s using PT.induct with
  | leaf l =>
    intro p n hp hs
    obtain ⟨o, ho, e1, e2, e3⟩ := hn p _ hp
    cases n with
    | zero => have := size_pos (.leaf l : PT α); omega
    | succ n =>
      rw [read]
      simp only [ho, Option.bind_eq_bind, Option.bind_some, (cut_fields o).1, e1, objOf, (cut_fields o).2, e2]
      rfl
  | node op cs ih =>
    intro p n hp hs
    obtain ⟨o, ho, e1, e2, e3⟩ := hn p _ hp
    cases n with
    | zero => have := size_pos (.node op cs : PT α); omega
    | succ n =>
      rw [read]
      simp only [ho, Option.bind_eq_bind, Option.bind_some, (cut_fields o).1, e1, objOf]
      have hk : ∀ y ∈ kids (p, .node op cs), read h n (.id (u y.1)) = some (strip y.2) := by
        intro y hy
        obtain ⟨i, h1, h2⟩ := mem_kids.1 hy
        have hc : y.2 ∈ cs := List.mem_of_getElem? h1
        have hsz := size_child (t := .node op cs) hc
        rw [h2]
        exact ih y.2 hc _ n (sub_append hp i y.2 h1) (by omega)
      have hlen : (kids (p, PT.node op cs)).length = cs.length := by simp [kids, PT.children]
      have hmap : (kids (p, PT.node op cs)).map (fun y => strip y.2) = cs.map strip := kids_map strip _
      unfold cut
      rw [e1, e3, List.length_map, hlen]
      simp only [objOf, Option.some.injEq, strip, stripL_eq]
      by_cases hc : op = .loop ∧ cs.length = 3
      · rw [if_pos hc, if_pos hc]
        simp only [eraseIdx_map]
        rw [mapM_map_some (k := fun y : Path × PT α => strip y.2) (h := fun y hy => hk y (List.mem_of_mem_eraseIdx hy)), ← eraseIdx_map, hmap]
        rw [eraseIdx_map]; rfl
      · rw [if_neg hc, if_neg hc, e3, mapM_map_some (k := fun y : Path × PT α => strip y.2) (h := hk), hmap]
        rfl

/-- import after export, in general -/
theorem import_export (u : Path → I) (hu : Function.Injective u) (hash : α → Nat) (t : PT α) (ht : OpFree .inter t) (h3 : Third (addThird t))
    (n : Nat) (hn : size (addThird t) ≤ n) :
    ∃ d, export_ u t = some d ∧ import_ hash n d = some (treeSort hash (strip (addThird t))) := by
  obtain ⟨d, ids, h, he, hroot, hr, hids, hnode, hout⟩ := import_heap u hu t ht
  refine ⟨d, he, ?_⟩
  have hs : Silent3 h := by
    intro i o ho hop hlen
    have hi : i ∈ ids := Classical.byContradiction fun hc => by rw [hout i hc] at ho; cases ho
    obtain ⟨p, s, hp, rfl⟩ := (hids i).1 hi
    obtain ⟨o', ho', e1, _, e3⟩ := (hnode p s hp).ex
    rw [ho] at ho'; cases ho'
    cases s with
    | leaf l => rw [e1] at hop; cases hop
    | node op cs =>
      rw [e1] at hop
      have hop' : op = .loop := by simpa [objOf] using hop
      have hlen' : cs.length = 3 := by rw [e3] at hlen; simpa [kids, PT.children] using hlen
      have hthird : cs[2]? = some (.leaf none) := by
        have := h3.sub hp
        cases this with
        | node _ _ h _ => exact h hop' hlen'
      have hsub := sub_append hp 2 (.leaf none) hthird
      obtain ⟨o2, h2, f1, f2, _⟩ := (hnode _ _ hsub).ex
      refine ⟨.id (u (p ++ [2])), o2, ?_, h2, f1, f2⟩
      rw [e3, List.getElem?_map]
      have : (kids (p, PT.node op cs))[2]? = some (p ++ [2], .leaf none) := by
        unfold kids
        rw [List.getElem?_map, List.getElem?_zipIdx]
        simp [PT.children, hthird]
      rw [this]; rfl
  obtain ⟨h', e', v'⟩ := fixLoops_silent n ids h hs (by
    intro i hi
    obtain ⟨p, s, hp, rfl⟩ := (hids i).1 hi
    obtain ⟨o, ho, _⟩ := (hnode p s hp).ex
    rw [ho]; rfl)
  have hrd := read_tree u (addThird t) h' (by
    intro p s hp
    obtain ⟨o, ho, e1, e2, e3⟩ := (hnode p s hp).ex
    refine ⟨o, ?_, e1, e2, e3⟩
    rw [v', if_pos ⟨u p, (hids _).2 ⟨p, s, hp, rfl⟩, rfl⟩, ho]; rfl) (addThird t) [] n rfl hn
  unfold import_
  simp only [hr, Option.bind_eq_bind, Option.bind_some, e', hroot]
  rw [if_pos ((hids _).2 ⟨[], _, rfl, rfl⟩), hrd]
  rfl

/-- loops have two children, or at least four -/
inductive Loops2 : PT α → Prop
  | leaf (l : Option α) : Loops2 (.leaf l)
  | node (op : Op) (cs : List (PT α)) : (op = .loop → cs.length = 2 ∨ 4 ≤ cs.length) → (∀ c ∈ cs, Loops2 c) → Loops2 (.node op cs)

theorem map_id_on {β : Type} (f : β → β) (l : List β) (h : ∀ x ∈ l, f x = x) : l.map f = l := by
  induction l with
  | nil => rfl
  | cons x l ih => rw [List.map_cons, h x List.mem_cons_self, ih fun y hy => h y (List.mem_cons_of_mem _ hy)]

theorem strip_addThird (t : PT α) (h : Loops2 t) : strip (addThird t) = t := by
  induction t using PT.induct with
  | leaf l => rfl
  | node op cs ih =>
    cases h with
    | node _ _ h1 h2 =>
    have hm : (cs.map addThird).map strip = cs := by
      rw [List.map_map]; exact map_id_on _ _ fun c hc => ih c hc (h2 c hc)
    rw [addThird, addThirdL_eq]
    by_cases hc : op = .loop ∧ cs.length < 3
    · have hl : cs.length = 2 := by have := h1 hc.1; omega
      rw [if_pos hc, strip, if_pos ⟨hc.1, by simp [hl]⟩, stripL_eq, List.map_append, hm]
      congr 1
      rw [List.eraseIdx_append_of_length_le (by omega)]
      simp [hl]
    · rw [if_neg hc, strip, stripL_eq, hm, if_neg]
      rintro ⟨h3, h4⟩
      rw [List.length_map] at h4
      have := h1 h3
      omega

theorem third_addThird (t : PT α) (h : Loops2 t) : Third (addThird t) := by
  induction t using PT.induct with
  | leaf l => exact .leaf l
  | node op cs ih =>
    cases h with
    | node _ _ h1 h2 =>
    have hm : ∀ d ∈ cs.map addThird, Third d := by
      intro d hd
      obtain ⟨c, hc, rfl⟩ := List.mem_map.1 hd
      exact ih c hc (h2 c hc)
    rw [addThird, addThirdL_eq]
    refine .node op _ ?_ ?_
    · intro hop hlen
      split at hlen
      · rename_i hc
        have hl : cs.length = 2 := by have := h1 hop; omega
        rw [if_pos hc, List.getElem?_append_right (by simp [hl])]
        simp [hl]
      · have := h1 hop
        rw [List.length_map] at hlen
        omega
    · intro d hd
      split at hd
      · rcases List.mem_append.1 hd with hd | hd
        · exact hm d hd
        · simp at hd; subst hd; exact .leaf none
      · exact hm d hd

end Ptml
open Ptml PT
variable {α : Type} [DecidableEq α] {I : Type} [DecidableEq I]

/-- C57: writing a process tree to PTML raises exactly if the tree has an interleaving node. -/
theorem C57_raises_iff (u : Path → I) (t : PT α) : export_ u t = none ↔ ¬ OpFree .inter t := export_none u t

/-- C57: for a tree without interleaving whose loops have two children, or at least four, reading the document written returns
the tree, up to the sorting of the children of choices and parallel nodes; the tree read has the same traces. -/
theorem C57_roundtrip (u : Path → I) (hu : Function.Injective u) (hash : α → Nat) (t : PT α) (ht : OpFree .inter t) (hl : Loops2 t)
    (n : Nat) (hn : Ptml.size (addThird t) ≤ n) :
    ∃ d, export_ u t = some d ∧ import_ hash n d = some (treeSort hash t) ∧ LangEq (treeSort hash t) t := by
  obtain ⟨d, h1, h2⟩ := import_export u hu hash t ht (third_addThird t hl) n hn
  rw [strip_addThird t hl] at h2
  exact ⟨d, h1, h2, fun w => by rw [treeSort_lang]⟩

/-- C57 fails for loops with three children: `*( 'a', 'b', 'c' )` is read back as `*( 'a', 'b' )`. -/
theorem C57_ternary_root_refuted (n : Nat) (hn : 5 ≤ n) : ∃ (t : PT Nat) (d : Doc Nat Path), t.WF ∧ export_ id t = some d ∧
    import_ id n d = some (.node .loop [.leaf (some 1), .leaf (some 2)]) ∧ t = .node .loop [.leaf (some 1), .leaf (some 2), .leaf (some 3)] := by
  obtain ⟨n, rfl⟩ : ∃ m, n = m + 5 := ⟨n - 5, by omega⟩
  refine ⟨_, ⟨[], [.node .xorLoop none [], .node .manualTask (some 1) [0], .node .manualTask (some 2) [1], .node .manualTask (some 3) [2],
    .edge [] [0], .edge [] [1], .edge [] [2]]⟩, ?_, ?_, ?_, rfl⟩
  · refine .node _ _ (by simp) ?_
    intro c hc; simp at hc; rcases hc with rfl | rfl | rfl <;> exact .leaf _
  · simp [export_, addThird, addThirdL, bfs, kids, PT.children, elemOf, pyEq, PT.label]
    rfl
  · rfl

/-- C57 fails for loops with three children below the root: `->( *( 'a', 'b', 'c' ), 'd' )` is read back as
`->( 'd', ->( *( 'a', 'b' ), 'c' ) )`. -/
theorem C57_ternary_refuted (n : Nat) (hn : 8 ≤ n) : ∃ (t s : PT Nat) (d : Doc Nat Path), t.WF ∧ export_ id t = some d ∧
    import_ id n d = some s ∧ t.lang [1, 4] ∧ ¬ s.lang [1, 4] := by
  obtain ⟨n, rfl⟩ : ∃ m, n = m + 8 := ⟨n - 8, by omega⟩
  refine ⟨.node .seq [.node .loop [.leaf (some 1), .leaf (some 2), .leaf (some 3)], .leaf (some 4)],
    .node .seq [.leaf (some 4), .node .seq [.node .loop [.leaf (some 1), .leaf (some 2)], .leaf (some 3)]],
    ⟨[], [.node .sequence none [], .node .xorLoop none [0], .node .manualTask (some 4) [1], .node .manualTask (some 1) [0, 0],
      .node .manualTask (some 2) [0, 1], .node .manualTask (some 3) [0, 2],
    .edge [] [0], .edge [] [1], .edge [0] [0, 0], .edge [0] [0, 1], .edge [0] [0, 2]]⟩, ?_, ?_, ?_, ?_, ?_⟩
  · refine .node _ _ (by simp) ?_
    intro c hc; simp at hc; rcases hc with rfl | rfl
    · refine .node _ _ (by simp) ?_
      intro c hc; simp at hc; rcases hc with rfl | rfl | rfl <;> exact .leaf _
    · exact .leaf _
  · simp [export_, addThird, addThirdL, bfs, kids, PT.children, elemOf, pyEq, pyEqL, PT.label, PT.operator]
  · rfl
  · simp only [PT.lang, PT.langs, PT.opLang]
    exact ⟨[1], [4], .exit rfl, ⟨[4], [], rfl, rfl, rfl⟩, rfl⟩
  · simp only [PT.lang, PT.langs, PT.opLang]
    rintro ⟨u, v, hu, _, h⟩
    rw [show u = [4] from hu] at h; simp at h

/-- a case that meets the conditions: `->( 'a', X( 'b', tau ), *( 'c', 'd' ) )` -/
example : ∃ t : PT Nat, OpFree .inter t ∧ Loops2 t ∧ t.WF := by
  refine ⟨.node .seq [.leaf (some 1), .node .xor [.leaf (some 2), .leaf none], .node .loop [.leaf (some 3), .leaf (some 4)]], ?_, ?_, ?_⟩
  · refine .node _ _ (by simp) ?_
    intro c hc; simp at hc; rcases hc with rfl | rfl | rfl
    · exact .leaf _
    all_goals
      refine .node _ _ (by simp) ?_
      intro c hc; simp at hc; rcases hc with rfl | rfl <;> exact .leaf _
  · refine .node _ _ (by simp) ?_
    intro c hc; simp at hc; rcases hc with rfl | rfl | rfl
    · exact .leaf _
    all_goals
      refine .node _ _ (by simp) ?_
      intro c hc; simp at hc; rcases hc with rfl | rfl <;> exact .leaf _
  · refine .node _ _ (by simp) ?_
    intro c hc; simp at hc; rcases hc with rfl | rfl | rfl
    · exact .leaf _
    all_goals
      refine .node _ _ (by simp) ?_
      intro c hc; simp at hc; rcases hc with rfl | rfl <;> exact .leaf _

end Verif
