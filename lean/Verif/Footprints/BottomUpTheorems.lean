import Verif.PTree.BottomUpProofs
import Verif.Footprints.Exact
import Verif.Inductive.Theorems
/-
Property theorems C34: the bottom-up list of the nodes of a process tree, and the dictionaries filled along it.
-/
namespace Verif
namespace BU
open PT
variable {α : Type}

/-! ### Specification -/

/-- `s` is a subtree of `t` -/
inductive Subtree (t : PT α) : PT α → Prop
  | root : Subtree t t
  | child {op : Op} {cs : List (PT α)} {c : PT α} : Subtree t (.node op cs) → c ∈ cs → Subtree t c

mutual
/-- evaluation of a tree from the leaves to the root -/
def evalT {β : Type} (leaf : Option α → β) (op : Op → List β → Option β) : PT α → Option β
  | .leaf l => some (leaf l)
  | .node o cs => if cs.isEmpty then some (leaf none) else evalTL leaf op cs >>= op o
/-- evaluation of the children -/
def evalTL {β : Type} (leaf : Option α → β) (op : Op → List β → Option β) : List (PT α) → Option (List β)
  | [] => some []
  | c :: cs => do return (← evalT leaf op c) :: (← evalTL leaf op cs)
end

/-! ### Proofs -/

theorem subtree_iff (t s : PT α) : Subtree t s ↔ ∃ x, IsNode t x ∧ x.sub = s := by
  constructor
  · intro h
    induction h with
    | root => exact ⟨⟨t, []⟩, .refl, rfl⟩
    | child _ hc ih =>
      obtain ⟨x, hx, he⟩ := ih
      exact ⟨_, .step hx (mem_kids.2 ⟨_, by rw [he]; exact hc, rfl⟩), rfl⟩
  · rintro ⟨x, hx, rfl⟩
    induction hx with
    | refl => exact .root
    | @step y _ _ hk ih =>
      obtain ⟨c, hc, rfl⟩ := mem_kids.1 hk
      cases hy : y.sub with
      | leaf l => rw [hy] at hc; cases hc
      | node op cs => rw [hy] at hc ih; exact .child ih hc

variable {β : Type} (leaf : Option α → β) (op : Op → List β → Option β)

theorem evalTL_none {cs : List (PT α)} {c : PT α} (hc : c ∈ cs) (h : evalT leaf op c = none) : evalTL leaf op cs = none := by
  induction cs with
  | nil => cases hc
  | cons d cs ih =>
    rw [evalTL]
    rcases List.mem_cons.1 hc with rfl | hc
    · simp [h]
    · simp [ih hc]

theorem eval_strict {t s : PT α} (h : Subtree t s) (hs : evalT leaf op s = none) : evalT leaf op t = none := by
  induction h with
  | root => exact hs
  | child _ hc ih =>
    apply ih
    rw [evalT, evalTL_none leaf op hc hs]
    rename_i o cs c _
    have : cs.isEmpty = false := by cases cs with
      | nil => cases hc
      | cons _ _ => rfl
    simp [this]

variable [DecidableEq α]

theorem look_spec {d : List (PT α × β)} (hd : ∀ e ∈ d, WF e.1 ∧ evalT leaf op e.1 = some e.2) {c : PT α} (hc : WF c) (hm : c ∈ d.map Prod.fst) :
    look d c = evalT leaf op c := by
  unfold look
  cases hf : d.find? fun e => pyEq e.1 c with
  | none =>
    rw [List.find?_eq_none] at hf
    obtain ⟨e, he, rfl⟩ := List.mem_map.1 hm
    exact absurd (pyEq_refl _) (hf e he)
  | some e =>
    have he := List.mem_of_find?_eq_some hf
    have h1 := List.find?_some hf
    have := pyEq_eq (hd e he).1 hc h1
    rw [← this, (hd e he).2]; rfl

theorem lookAll_spec {d : List (PT α × β)} (hd : ∀ e ∈ d, WF e.1 ∧ evalT leaf op e.1 = some e.2) {cs : List (PT α)} (hc : ∀ c ∈ cs, WF c)
    (hm : ∀ c ∈ cs, c ∈ d.map Prod.fst) : lookAll d cs = evalTL leaf op cs := by
  induction cs with
  | nil => rfl
  | cons c cs ih =>
    rw [lookAll, evalTL, look_spec leaf op hd (hc c List.mem_cons_self) (hm c List.mem_cons_self),
      ih (fun x hx => hc x (List.mem_cons_of_mem _ hx)) (fun x hx => hm x (List.mem_cons_of_mem _ hx))]

theorem value_spec {d : List (PT α × β)} (hd : ∀ e ∈ d, WF e.1 ∧ evalT leaf op e.1 = some e.2) {s : PT α} (hs : WF s)
    (hm : ∀ c ∈ s.children, c ∈ d.map Prod.fst) : value leaf op d s = evalT leaf op s := by
  cases s with
  | leaf l => simp [value, evalT]
  | node o cs =>
    rw [value, evalT, lookAll_spec leaf op hd (cs := cs) (fun c hc => wf_children hs hc) hm]

theorem fill_spec (l : List (Nd α)) (d : List (PT α × β)) (hd : ∀ e ∈ d, WF e.1 ∧ evalT leaf op e.1 = some e.2)
    (hl : ∀ x ∈ l, WF x.sub) (ho : ∀ j x, l[j]? = some x → ∀ c ∈ x.sub.children, c ∈ d.map Prod.fst ∨ c ∈ subs (l.take j)) :
    (∃ d', fill leaf op d l = some d' ∧ (∀ e ∈ d', WF e.1 ∧ evalT leaf op e.1 = some e.2) ∧
      ∀ s, s ∈ d.map Prod.fst ∨ s ∈ subs l → s ∈ d'.map Prod.fst) ∨
    (fill leaf op d l = none ∧ ∃ x ∈ l, evalT leaf op x.sub = none) := by
  induction l generalizing d with
  | nil =>
    left; refine ⟨d, rfl, hd, fun s hs => ?_⟩
    rcases hs with hs | hs
    · exact hs
    · cases hs
  | cons x l ih =>
    have hv := value_spec leaf op hd (hl x List.mem_cons_self) (fun c hc => by
      rcases ho 0 x rfl c hc with h | h
      · exact h
      · cases h)
    rw [fill, hv]
    cases he : evalT leaf op x.sub with
    | none => exact .inr ⟨rfl, x, List.mem_cons_self, he⟩
    | some v =>
      have := ih (d ++ [(x.sub, v)])
        (fun e he' => by
          rcases List.mem_append.1 he' with h | h
          · exact hd e h
          · rw [List.mem_singleton] at h; subst h; exact ⟨hl x List.mem_cons_self, he⟩)
        (fun y hy => hl y (List.mem_cons_of_mem _ hy))
        (fun j y hy c hc => by
          rcases ho (j + 1) y hy c hc with h | h
          · left; rw [List.map_append]; exact List.mem_append_left _ h
          · rw [List.take_succ_cons] at h
            rcases List.mem_cons.1 h with rfl | h
            · left; rw [List.map_append]; exact List.mem_append_right _ (by simp)
            · exact .inr h)
      rcases this with ⟨d', h1, h2, h3⟩ | ⟨h1, y, hy, h2⟩
      · refine .inl ⟨d', h1, h2, fun s hs => h3 s ?_⟩
        rw [List.map_append]
        rcases hs with hs | hs
        · exact .inl (List.mem_append_left _ hs)
        · rcases List.mem_cons.1 hs with rfl | hs
          · exact .inl (List.mem_append_right _ (by simp))
          · exact .inr hs
      · exact .inr ⟨h1, y, List.mem_cons_of_mem _ hy, h2⟩

end BU
open BU
section
variable {α : Type} [DecidableEq α]

/-- C34: for every iteration order of the set of nodes, if no visible label occurs twice and every inner node has a visible
leaf below it, `get_bottomup_nodes` lists every subtree exactly once, and every node after its children. -/
theorem C34_bottomup {ord : List (Nd α) → List (Nd α)} (hord : ∀ l, (ord l).Perm l) (t : PT α) (ht : t.WF) (hlab : t.labels.Nodup)
    (hvis : ∀ op cs, Subtree t (.node op cs) → (PT.node op cs).labels ≠ []) :
    (∀ s, s ∈ (bottomup ord t).map Nd.sub ↔ Subtree t s) ∧ ((bottomup ord t).map Nd.sub).Nodup ∧
    ∀ (j : Nat) o cs, ((bottomup ord t).map Nd.sub)[j]? = some (PT.node o cs) → ∀ c ∈ cs, ∃ i < j, ((bottomup ord t).map Nd.sub)[i]? = some c := by
  obtain ⟨n0, h⟩ := bottomup_inv hord t ht
  refine ⟨fun s => ?_, h.nodup, ?_⟩
  · rw [subtree_iff]
    constructor
    · intro hs
      obtain ⟨x, hx, rfl⟩ := List.mem_map.1 hs
      exact ⟨x, h.nodes x hx, rfl⟩
    · rintro ⟨x, hx, rfl⟩
      refine h.complete hlab ?_ x.sub x.anc hx
      intro y hy hc
      have : Subtree t y.sub := (subtree_iff _ _).2 ⟨y, hy, rfl⟩
      cases hs : y.sub with
      | leaf l => rw [hs] at hc; exact absurd rfl hc
      | node op cs => rw [hs] at this; exact hvis op cs this
  · intro j o cs hj c hc
    rw [List.getElem?_map] at hj
    obtain ⟨x, hx, he⟩ := Option.map_eq_some_iff.1 hj
    have := h.order j x hx c (by rw [he]; exact hc)
    unfold subs at this
    obtain ⟨y, hy, rfl⟩ := List.mem_map.1 this
    rw [List.mem_take_iff_getElem] at hy
    obtain ⟨i, hi, rfl⟩ := hy
    refine ⟨i, by omega, ?_⟩
    rw [List.getElem?_map, List.getElem?_eq_getElem (by omega)]; rfl

/-- C34: the dictionary computations along that list give the value obtained by evaluating the tree from the leaves to the
root. -/
theorem C34_values {β : Type} (leaf : Option α → β) (op : Op → List β → Option β) {ord : List (Nd α) → List (Nd α)}
    (hord : ∀ l, (ord l).Perm l) (t : PT α) (ht : t.WF) (hlab : t.labels.Nodup)
    (hvis : ∀ op cs, Subtree t (.node op cs) → (PT.node op cs).labels ≠ []) : run leaf op ord t = evalT leaf op t := by
  obtain ⟨h1, h2, h3⟩ := C34_bottomup hord t ht hlab hvis
  have hwf : ∀ x ∈ bottomup ord t, x.sub.WF := fun x hx => by
    obtain ⟨n0, h⟩ := bottomup_inv hord t ht
    exact (h.nodes x hx).wf ht
  have := fill_spec leaf op (bottomup ord t) [] (by simp) hwf (by
    intro j x hx c hc
    right
    obtain ⟨n0, h⟩ := bottomup_inv hord t ht
    exact h.order j x hx c hc)
  unfold run
  rcases this with ⟨d, hf, hd, hk⟩ | ⟨hf, x, hx, he⟩
  · rw [hf]
    exact look_spec leaf op hd ht (hk t (.inr ((h1 t).2 .root)))
  · rw [hf]
    exact (eval_strict leaf op ((h1 _).1 (List.mem_map_of_mem hx)) he).symm

theorem BU.footprints_eval (t : PT α) : Foot.footprints t = evalT Foot.fpLeaf Foot.fpOp t := by
  induction t using PT.induct with
  | leaf l => simp [Foot.footprints, evalT]
  | node op cs ih =>
    have : Foot.footprintsL cs = evalTL Foot.fpLeaf Foot.fpOp cs := by
      clear op
      induction cs with
      | nil => rfl
      | cons c cs ih' =>
        rw [Foot.footprintsL, evalTL, ih c List.mem_cons_self, ih' fun d hd => ih d (List.mem_cons_of_mem _ hd)]
    rw [Foot.footprints, evalT, this]

/-- a leaf contributes one activity, or none (utils/bottomup.py:157-161, 179-183) -/
def BU.lenLeaf : Option α → Nat
  | none => 0
  | some _ => 1

omit [DecidableEq α] in
theorem BU.minLen_eval (t : PT α) : Foot.minLen t = evalT lenLeaf Foot.minOp t := by
  induction t using PT.induct with
  | leaf l => cases l <;> simp [Foot.minLen, evalT, lenLeaf]
  | node op cs ih =>
    have : Foot.minLenL cs = evalTL lenLeaf Foot.minOp cs := by
      clear op
      induction cs with
      | nil => rfl
      | cons c cs ih' =>
        rw [Foot.minLenL, evalTL, ih c List.mem_cons_self, ih' fun d hd => ih d (List.mem_cons_of_mem _ hd)]
    rw [Foot.minLen, evalT, this]; rfl

/-- the inner nodes of `get_max_length_dict` (utils/bottomup.py:162-168); `big` is the number added for a loop; `none`: no case
applies (interleaving) -/
def BU.maxOp (big : Nat) : Op → List Nat → Option Nat
  | .xor, l => l.max?
  | .par, l => some l.sum
  | .seq, l => some l.sum
  | .or, l => some l.sum
  | .loop, l => some (l.sum + big)
  | .inter, _ => none

/-- C34: the footprints and the minimal trace length that the code computes along the bottom-up list are those of C19 and C20. -/
theorem C34_footprints {ord : List (Nd α) → List (Nd α)} (hord : ∀ l, (ord l).Perm l) (t : PT α) (ht : t.WF) (hlab : t.labels.Nodup)
    (hvis : ∀ op cs, Subtree t (.node op cs) → (PT.node op cs).labels ≠ []) :
    run Foot.fpLeaf Foot.fpOp ord t = Foot.footprints t ∧ run lenLeaf Foot.minOp ord t = Foot.minLen t := by
  rw [BU.footprints_eval, BU.minLen_eval, C34_values _ _ hord t ht hlab hvis, C34_values _ _ hord t ht hlab hvis]
  exact ⟨rfl, rfl⟩

/-! ### Maximal trace length -/

/-- trees with children below every operator, without loops and interleaving -/
inductive BU.LoopFree : PT α → Prop
  | leaf (l : Option α) : LoopFree (.leaf l)
  | node (op : Op) (cs : List (PT α)) : cs ≠ [] → op ≠ .loop → op ≠ .inter → (∀ c ∈ cs, LoopFree c) → LoopFree (.node op cs)

namespace BU
/-- `n` is the length of the longest traces of the language -/
def Longest (L : Lang α) (n : Nat) : Prop := (∃ w, L w ∧ w.length = n) ∧ ∀ w, L w → w.length ≤ n

/-- children lengths and their languages -/
inductive LongL : List Nat → List (Lang α) → Prop
  | nil : LongL [] []
  | cons {n : Nat} {L : Lang α} {ns : List Nat} {Ls : List (Lang α)} : Longest L n → LongL ns Ls → LongL (n :: ns) (L :: Ls)

omit [DecidableEq α] in
theorem long_seq {ns : List Nat} {Ls : List (Lang α)} (h : LongL ns Ls) : Longest (Lang.seqL Ls) ns.sum := by
  induction h with
  | nil => exact ⟨⟨[], rfl, rfl⟩, fun w hw => by simp only [Lang.seqL, Lang.eps] at hw; simp [hw]⟩
  | cons h1 _ ih =>
    obtain ⟨⟨u, hu, lu⟩, h1⟩ := h1
    obtain ⟨⟨v, hv, lv⟩, h2⟩ := ih
    refine ⟨⟨_, ⟨u, v, hu, hv, rfl⟩, by simp [lu, lv]⟩, ?_⟩
    rintro w ⟨x, y, hx, hy, rfl⟩
    have := h1 x hx; have := h2 y hy
    simp; omega

omit [DecidableEq α] in
theorem long_par {ns : List Nat} {Ls : List (Lang α)} (h : LongL ns Ls) : Longest (Lang.parL Ls) ns.sum := by
  induction h with
  | nil => exact ⟨⟨[], rfl, rfl⟩, fun w hw => by simp only [Lang.parL, Lang.eps] at hw; simp [hw]⟩
  | cons h1 _ ih =>
    obtain ⟨⟨u, hu, lu⟩, h1⟩ := h1
    obtain ⟨⟨v, hv, lv⟩, h2⟩ := ih
    refine ⟨⟨_, ⟨u, v, hu, hv, Lang.Shuffle.append _ _⟩, by simp [lu, lv]⟩, ?_⟩
    rintro w ⟨x, y, hx, hy, hs⟩
    have := h1 x hx; have := h2 y hy
    rw [hs.length]; simp; omega

omit [DecidableEq α] in
theorem long_sub {ns : List Nat} {Ls Ms : List (Lang α)} (h : LongL ns Ls) (hs : Ms.Sublist Ls) (w : List α) (hw : Lang.parL Ms w) :
    w.length ≤ ns.sum := by
  induction h generalizing Ms w with
  | nil => cases hs; simp only [Lang.parL, Lang.eps] at hw; simp [hw]
  | cons h1 _ ih =>
    cases hs with
    | cons _ hs => have := ih hs w hw; simp; omega
    | cons_cons _ hs =>
      obtain ⟨x, y, hx, hy, hsh⟩ := hw
      have h2 := ih hs y hy
      have h3 := h1.2 x hx
      rw [hsh.length]; simp; omega

omit [DecidableEq α] in
theorem LongL.length {ns : List Nat} {Ls : List (Lang α)} (h : LongL ns Ls) : ns.length = Ls.length := by
  induction h with
  | nil => rfl
  | cons _ _ ih => simp [ih]

omit [DecidableEq α] in
theorem long_or {ns : List Nat} {Ls : List (Lang α)} (h : LongL ns Ls) (hne : Ls ≠ []) : Longest (Lang.orL Ls) ns.sum := by
  obtain ⟨⟨w, hw, lw⟩, _⟩ := long_par h
  exact ⟨⟨w, ⟨Ls, hne, List.Sublist.refl _, hw⟩, lw⟩, fun v ⟨Ms, _, hs, hv⟩ => long_sub h hs v hv⟩

omit [DecidableEq α] in
theorem long_xor {ns : List Nat} {Ls : List (Lang α)} (h : LongL ns Ls) (n : Nat) (hn : ns.max? = some n) : Longest (Lang.xorL Ls) n := by
  rw [List.max?_eq_some_iff] at hn
  obtain ⟨hmem, hle⟩ := hn
  have h1 : ∀ m ∈ ns, ∃ L ∈ Ls, Longest L m := by
    clear hmem hle
    induction h with
    | nil => simp
    | cons h1 _ ih =>
      intro m hm
      rcases List.mem_cons.1 hm with rfl | hm
      · exact ⟨_, List.mem_cons_self, h1⟩
      · obtain ⟨L, hL, h⟩ := ih m hm; exact ⟨L, List.mem_cons_of_mem _ hL, h⟩
  have h2 : ∀ L ∈ Ls, ∃ m ∈ ns, Longest L m := by
    clear hmem hle h1
    induction h with
    | nil => simp
    | cons h1 _ ih =>
      intro m hm
      rcases List.mem_cons.1 hm with rfl | hm
      · exact ⟨_, List.mem_cons_self, h1⟩
      · obtain ⟨L, hL, h⟩ := ih m hm; exact ⟨L, List.mem_cons_of_mem _ hL, h⟩
  obtain ⟨L, hL, ⟨w, hw, lw⟩, _⟩ := h1 n hmem
  refine ⟨⟨w, ⟨L, hL, hw⟩, lw⟩, ?_⟩
  rintro v ⟨M, hM, hv⟩
  obtain ⟨m, hm, hs⟩ := h2 M hM
  exact Nat.le_trans (hs.2 v hv) (hle m hm)

omit [DecidableEq α] in
theorem maxLen_exact (big : Nat) (t : PT α) (ht : LoopFree t) : ∃ n, evalT lenLeaf (maxOp big) t = some n ∧ Longest t.lang n := by
  induction t using PT.induct with
  | leaf l =>
    cases l with
    | none => exact ⟨0, by simp [evalT, lenLeaf], ⟨[], by rw [PT.lang_tau]; exact ⟨rfl, rfl⟩⟩, fun w hw => by rw [PT.lang_tau] at hw; simp only [Lang.eps] at hw; simp [hw]⟩
    | some a => exact ⟨1, by simp [evalT, lenLeaf], ⟨[a], by simp⟩, fun w hw => by simp at hw; simp [hw]⟩
  | node op cs ih =>
    cases ht with
    | node _ _ hne hloop hint hcs =>
    have hL : ∀ ds : List (PT α), (∀ c ∈ ds, c ∈ cs) → ∃ ns, evalTL lenLeaf (maxOp big) ds = some ns ∧ LongL ns (ds.map PT.lang) := by
      intro ds; induction ds with
      | nil => intro _; exact ⟨[], by simp [evalTL], .nil⟩
      | cons d ds ih' =>
        intro hd
        obtain ⟨f, h1, h2⟩ := ih d (hd d List.mem_cons_self) (hcs d (hd d List.mem_cons_self))
        obtain ⟨fs, h3, h4⟩ := ih' fun c hc => hd c (List.mem_cons_of_mem _ hc)
        exact ⟨f :: fs, by simp [evalTL, h1, h3], .cons h2 h4⟩
    obtain ⟨ns, h1, h2⟩ := hL cs fun _ h => h
    have hns : ns ≠ [] := by
      intro e
      have := h2.length
      rw [e] at this; exact hne (by simpa using this.symm)
    have hemp : cs.isEmpty = false := by cases cs <;> simp_all
    rw [evalT, hemp, PT.lang_node]
    simp only [Bool.false_eq_true, if_false, h1, Option.bind_eq_bind, Option.bind_some]
    cases op with
    | seq => exact ⟨_, rfl, long_seq h2⟩
    | xor =>
      cases hm : ns.max? with
      | none => rw [List.max?_eq_none_iff] at hm; exact absurd hm hns
      | some n => exact ⟨n, hm, long_xor h2 n hm⟩
    | par => exact ⟨_, rfl, long_par h2⟩
    | or => exact ⟨_, rfl, long_or h2 (by simpa using hne)⟩
    | inter => exact absurd rfl hint
    | loop => exact absurd rfl hloop

end BU

/-- C34: for a tree without loops and interleaving, `get_max_trace_length` is the length of the longest trace of the tree (under
the conditions of C34). -/
theorem C34_max_length (big : Nat) {ord : List (Nd α) → List (Nd α)} (hord : ∀ l, (ord l).Perm l) (t : PT α) (ht : t.WF)
    (hlab : t.labels.Nodup) (hvis : ∀ op cs, Subtree t (.node op cs) → (PT.node op cs).labels ≠ []) (hl : LoopFree t) :
    ∃ n, run lenLeaf (maxOp big) ord t = some n ∧ (∃ w, t.lang w ∧ w.length = n) ∧ ∀ w, t.lang w → w.length ≤ n := by
  rw [C34_values _ _ hord t ht hlab hvis]
  exact maxLen_exact big t hl

/-- C34: `get_min_trace_length` is the length of the shortest trace, for trees without OR and interleaving whose loops have two
children (under the conditions of C34). -/
theorem C34_min_length {ord : List (Nd α) → List (Nd α)} (hord : ∀ l, (ord l).Perm l) (t : PT α) (ht : t.WF)
    (hlab : t.labels.Nodup) (hvis : ∀ op cs, Subtree t (.node op cs) → (PT.node op cs).labels ≠ []) (hl : Foot.Plain t) :
    ∃ n, run lenLeaf Foot.minOp ord t = some n ∧ (∃ w, t.lang w ∧ w.length = n) ∧ ∀ w, t.lang w → n ≤ w.length := by
  rw [(C34_footprints hord t ht hlab hvis).2]
  exact Foot.minLen_exact t hl

/-! ### Discovered trees -/

omit [DecidableEq α] in
theorem BU.vis_subtree {t : PT α} (h : PT.Vis t) {s : PT α} (hs : Subtree t s) : PT.Vis s := by
  induction hs with
  | root => exact h
  | child _ hc ih => exact ih.children _ hc

/-- C34: for every tree discovered by the inductive miner the conditions hold: the list has every subtree exactly once, every
node after its children, and the footprints and minimal trace length are computed without an exception. -/
theorem C34_discovered {env : IM.Env α} (henv : env.Lawful) (h sz : α → Nat) (log : List (List α)) (hsz : IM.SmallAlphabet log)
    (n : Nat) (t : PT α) (hd : IM.discover env h sz n log = some t) {ord : List (Nd α) → List (Nd α)} (hord : ∀ l, (ord l).Perm l) :
    ((∀ s, s ∈ (bottomup ord t).map Nd.sub ↔ Subtree t s) ∧ ((bottomup ord t).map Nd.sub).Nodup ∧
      ∀ (j : Nat) o cs, ((bottomup ord t).map Nd.sub)[j]? = some (PT.node o cs) → ∀ c ∈ cs, ∃ i < j, ((bottomup ord t).map Nd.sub)[i]? = some c) ∧
    run Foot.fpLeaf Foot.fpOp ord t = Foot.footprints t ∧ run lenLeaf Foot.minOp ord t = Foot.minLen t := by
  obtain ⟨m, t', h1, hwf, hvis⟩ := IM.discover_vis henv h sz log hsz
  have := C08_deterministic env h sz log n m t t' hd h1
  subst this
  have hlab := (C09_labels henv h sz log hsz n t hd).1
  have hv : ∀ op cs, Subtree t (.node op cs) → (PT.node op cs).labels ≠ [] := fun op cs hs => (BU.vis_subtree hvis hs).labels
  exact ⟨C34_bottomup hord t hwf hlab hv, C34_footprints hord t hwf hlab hv⟩

end

/-! ### Duplicate labels -/

namespace BU.Example
/-- `->( 1, 2, X( 1, 2 ) )` -/
def dup : PT Nat := .node .seq [.leaf (some 1), .leaf (some 2), .node .xor [.leaf (some 1), .leaf (some 2)]]

/-- `->( 1, X( tau, *( 2, tau ) ) )` -/
def good : PT Nat := .node .seq [.leaf (some 1), .node .xor [.leaf none, .node .loop [.leaf (some 2), .leaf none]]]
end BU.Example

/-- C34 fails for duplicate labels: for `->( 'a', 'b', X( 'a', 'b' ) )`, whatever the order of the set, the list of nodes
consists of the two leaves only, so that every computation along it ends with a `KeyError`. -/
theorem C34_duplicates_refuted : ∃ t : PT Nat, t.WF ∧ Foot.Plain t ∧ ∀ ord : List (Nd Nat) → List (Nd Nat), (∀ l, (ord l).Perm l) →
    t ∉ (bottomup ord t).map Nd.sub ∧ run Foot.fpLeaf Foot.fpOp ord t = none ∧ run lenLeaf Foot.minOp ord t = none := by
  refine ⟨BU.Example.dup, ?_, ?_, ?_⟩
  · refine .node _ _ (by simp) ?_
    simp only [List.mem_cons, List.not_mem_nil, or_false, forall_eq_or_imp, forall_eq]
    refine ⟨.leaf _, .leaf _, .node _ _ (by simp) ?_⟩
    simp only [List.mem_cons, List.not_mem_nil, or_false, forall_eq_or_imp, forall_eq]
    exact ⟨.leaf _, .leaf _⟩
  · refine .node _ _ (by simp) (by simp) (by simp) (by simp) ?_
    simp only [List.mem_cons, List.not_mem_nil, or_false, forall_eq_or_imp, forall_eq]
    refine ⟨.leaf _, .leaf _, .node _ _ (by simp) (by simp) (by simp) (by simp) ?_⟩
    simp only [List.mem_cons, List.not_mem_nil, or_false, forall_eq_or_imp, forall_eq]
    exact ⟨.leaf _, .leaf _⟩
  · intro ord hord
    have hsz : BU.Example.dup.size = 6 := by simp [BU.Example.dup, PT.size]
    have h0 : (allNodes BU.Example.dup).filter (fun x => x.sub.children.isEmpty) =
        [⟨.leaf (some 1), [BU.Example.dup]⟩, ⟨.leaf (some 2), [BU.Example.dup]⟩] := by
      unfold allNodes; rw [hsz]; rfl
    have hf : ((ord (allNodes BU.Example.dup)).filter fun x => x.sub.children.isEmpty).Perm
        [⟨.leaf (some 1), [BU.Example.dup]⟩, ⟨.leaf (some 2), [BU.Example.dup]⟩] :=
      h0 ▸ (hord _).filter _
    have hl : (ord (allNodes BU.Example.dup)).filter (fun x => x.sub.children.isEmpty) =
          [⟨.leaf (some 1), [BU.Example.dup]⟩, ⟨.leaf (some 2), [BU.Example.dup]⟩] ∨
        (ord (allNodes BU.Example.dup)).filter (fun x => x.sub.children.isEmpty) =
          [⟨.leaf (some 2), [BU.Example.dup]⟩, ⟨.leaf (some 1), [BU.Example.dup]⟩] := by
      generalize (ord (allNodes BU.Example.dup)).filter (fun x => x.sub.children.isEmpty) = l at hf
      have hlen := hf.length_eq
      match l, hlen with
      | [x, y], _ =>
        have hx := hf.mem_iff.1 (List.mem_cons_self (a := x) (l := [y]))
        have hy := hf.mem_iff.1 (List.mem_cons_of_mem x (List.mem_cons_self (a := y) (l := [])))
        simp only [List.mem_cons, List.not_mem_nil, or_false] at hx hy
        have hnd : ([x, y].map Nd.sub).Nodup := (hf.map Nd.sub).nodup_iff.2 (by simp)
        rcases hx with rfl | rfl <;> rcases hy with rfl | rfl
        · simp at hnd
        · exact .inl rfl
        · exact .inr rfl
        · simp at hnd
    rcases hl with hl | hl
    · have hb : bottomup ord BU.Example.dup = [⟨.leaf (some 1), [BU.Example.dup]⟩, ⟨.leaf (some 2), [BU.Example.dup]⟩] := by
        unfold bottomup; rw [hl, hsz]; rfl
      unfold run; rw [hb]
      exact ⟨by simp [BU.Example.dup], by rfl, by rfl⟩
    · have hb : bottomup ord BU.Example.dup = [⟨.leaf (some 2), [BU.Example.dup]⟩, ⟨.leaf (some 1), [BU.Example.dup]⟩] := by
        unfold bottomup; rw [hl, hsz]; rfl
      unfold run; rw [hb]
      exact ⟨by simp [BU.Example.dup], by rfl, by rfl⟩

/-- the conditions of C34 hold for `->( 1, X( tau, *( 2, tau ) ) )`: its six subtrees are listed, `tau` once -/
example : ∃ ord : List (Nd Nat) → List (Nd Nat), (∀ l, (ord l).Perm l) ∧ (bottomup ord BU.Example.good).length = 6 ∧
    (∃ n, run lenLeaf Foot.minOp ord BU.Example.good = some n ∧ n = 1) := by
  have hsub : ∀ s, Subtree BU.Example.good s → s = BU.Example.good ∨ s = .leaf (some 1) ∨
      s = .node .xor [.leaf none, .node .loop [.leaf (some 2), .leaf none]] ∨ s = .leaf none ∨
      s = .node .loop [.leaf (some 2), .leaf none] ∨ s = .leaf (some 2) := by
    intro s hs
    induction hs with
    | root => exact .inl rfl
    | child _ hc ih =>
      rcases ih with h | h | h | h | h | h <;> simp [BU.Example.good] at h
      all_goals
        obtain ⟨rfl, rfl⟩ := h
        simp at hc
        rcases hc with rfl | rfl <;> simp
  have hwf : BU.Example.good.WF := by
    refine .node _ _ (by simp) ?_
    simp only [List.mem_cons, List.not_mem_nil, or_false, forall_eq_or_imp, forall_eq]
    refine ⟨.leaf _, .node _ _ (by simp) ?_⟩
    simp only [List.mem_cons, List.not_mem_nil, or_false, forall_eq_or_imp, forall_eq]
    refine ⟨.leaf _, .node _ _ (by simp) ?_⟩
    simp only [List.mem_cons, List.not_mem_nil, or_false, forall_eq_or_imp, forall_eq]
    exact ⟨.leaf _, .leaf _⟩
  have hlab : BU.Example.good.labels.Nodup := by decide
  have hvis : ∀ op cs, Subtree BU.Example.good (.node op cs) → (PT.node op cs).labels ≠ [] := by
    intro op cs h
    rcases hsub _ h with h | h | h | h | h | h <;> first | (rw [h]; decide) | cases h
  refine ⟨id, fun l => List.Perm.refl _, ?_, ?_⟩
  · unfold bottomup allNodes
    rw [show BU.Example.good.size = 7 by simp [BU.Example.good, PT.size]]; rfl
  · rw [(C34_footprints (ord := id) (fun l => List.Perm.refl _) _ hwf hlab hvis).2]
    exact ⟨1, by rfl, rfl⟩

end Verif
