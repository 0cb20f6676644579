import Verif.PTree.BottomUp
/-
Proofs about `get_bottomup_nodes`.
-/
namespace Verif
namespace BU
open PT
variable {α : Type}

/-- `y` is `x` or a descendant of it -/
inductive Desc (r : Nd α) : Nd α → Prop
  | refl : Desc r r
  | step {x k : Nd α} : Desc r x → k ∈ x.kids → Desc r k

/-- `x` is a node of the tree `t` -/
def IsNode (t : PT α) (x : Nd α) : Prop := Desc ⟨t, []⟩ x

theorem Desc.head {r y : Nd α} (h : Desc r y) : y = r ∨ ∃ k ∈ r.kids, Desc k y := by
  induction h with
  | refl => exact .inl rfl
  | step h hk ih =>
    rcases ih with rfl | ⟨k', hk', h'⟩
    · exact .inr ⟨_, hk, .refl⟩
    · exact .inr ⟨k', hk', .step h' hk⟩

theorem Desc.trans {r x y : Nd α} (h1 : Desc r x) (h2 : Desc x y) : Desc r y := by
  induction h2 with
  | refl => exact h1
  | step _ hk ih => exact .step ih hk

theorem mem_kids {x k : Nd α} : k ∈ x.kids ↔ ∃ c ∈ x.sub.children, k = ⟨c, x.sub :: x.anc⟩ := by
  simp [Nd.kids, eq_comm]

theorem size_pos (t : PT α) : 1 ≤ size t := by
  cases t with
  | leaf l => simp [size]
  | node op cs => rw [size_node]; omega

theorem size_kids (x : Nd α) : (x.kids.map fun k => size k.sub).sum + 1 = size x.sub := by
  unfold Nd.kids
  rw [List.map_map]
  cases x.sub with
  | leaf l => simp [children, size]
  | node op cs =>
    rw [size_node]
    show (cs.map size).sum + 1 = _
    omega

theorem bfs_sound (n : Nat) (q : List (Nd α)) (y : Nd α) (h : y ∈ bfs n q) : ∃ x ∈ q, Desc x y := by
  induction n generalizing q with
  | zero => cases h
  | succ n ih =>
    cases q with
    | nil => cases h
    | cons z q =>
      rw [bfs, List.mem_cons] at h
      rcases h with rfl | h
      · exact ⟨_, List.mem_cons_self, .refl⟩
      · obtain ⟨x, hx, hd⟩ := ih _ h
        rcases List.mem_append.1 hx with hx | hx
        · exact ⟨x, List.mem_cons_of_mem _ hx, hd⟩
        · exact ⟨z, List.mem_cons_self, (Desc.step .refl hx).trans hd⟩

theorem bfs_complete (n : Nat) (q : List (Nd α)) (hn : (q.map fun k => size k.sub).sum ≤ n) (x y : Nd α) (hx : x ∈ q) (h : Desc x y) :
    y ∈ bfs n q := by
  induction n generalizing q x with
  | zero =>
    cases q with
    | nil => cases hx
    | cons z q =>
      have := size_pos z.sub
      simp only [List.map_cons, List.sum_cons] at hn; omega
  | succ n ih =>
    cases q with
    | nil => cases hx
    | cons z q =>
      have hs := size_kids z
      simp only [List.map_cons, List.sum_cons] at hn
      have hn' : ((q ++ z.kids).map fun k => size k.sub).sum ≤ n := by
        rw [List.map_append, List.sum_append]; omega
      rw [bfs, List.mem_cons]
      rcases List.mem_cons.1 hx with rfl | hx
      · rcases h.head with rfl | ⟨k, hk, hd⟩
        · exact .inl rfl
        · exact .inr (ih _ hn' k (List.mem_append_right _ hk) hd)
      · exact .inr (ih _ hn' x (List.mem_append_left _ hx) h)

theorem bfs_length (n : Nat) (q : List (Nd α)) : (bfs n q).length ≤ n := by
  induction n generalizing q with
  | zero => simp [bfs]
  | succ n ih =>
    cases q with
    | nil => simp [bfs]
    | cons z q => rw [bfs, List.length_cons]; have := ih (q ++ z.kids); omega

theorem mem_bfs (t : PT α) (x : Nd α) : x ∈ bfs (size t) [⟨t, []⟩] ↔ IsNode t x := by
  constructor
  · intro h
    obtain ⟨y, hy, hd⟩ := bfs_sound _ _ _ h
    rw [List.mem_singleton] at hy; subst hy; exact hd
  · intro h; exact bfs_complete _ _ (by simp) _ _ (List.mem_singleton.2 rfl) h

theorem wf_children {t c : PT α} (h : WF t) (hc : c ∈ t.children) : WF c := by
  cases h with
  | leaf l => cases hc
  | node op cs _ h => exact h c hc

theorem IsNode.wf {t : PT α} (ht : WF t) {x : Nd α} (h : IsNode t x) : WF x.sub := by
  induction h with
  | refl => exact ht
  | step _ hk ih =>
    obtain ⟨c, hc, rfl⟩ := mem_kids.1 hk
    exact wf_children ih hc

/-! ### Chains -/

/-- the subtrees from the node up to the root -/
def chain (x : Nd α) : List (PT α) := x.sub :: x.anc

theorem IsNode.parent_node {t : PT α} {x p : Nd α} (h : IsNode t x) (hp : x.parent = some p) :
    IsNode t p ∧ x.sub ∈ p.sub.children ∧ chain x = x.sub :: chain p := by
  cases h with
  | refl => simp [Nd.parent] at hp
  | @step y _ hy hk =>
    obtain ⟨c, hc, rfl⟩ := mem_kids.1 hk
    simp only [Nd.parent, Option.some.injEq] at hp
    subst hp
    exact ⟨hy, hc, rfl⟩

theorem labels_child {t c : PT α} (hc : c ∈ t.children) {a : α} (ha : a ∈ c.labels) : a ∈ t.labels := by
  cases t with
  | leaf l => cases hc
  | node op cs => rw [labels_node]; exact List.mem_flatMap.2 ⟨c, hc, ha⟩

theorem nodup_child {t c : PT α} (hc : c ∈ t.children) (h : t.labels.Nodup) : c.labels.Nodup := by
  cases t with
  | leaf l => cases hc
  | node op cs =>
    rw [labels_node] at h
    exact (List.pairwise_flatMap.1 h).1 c hc

theorem child_unique {t c d : PT α} (hc : c ∈ t.children) (hd : d ∈ t.children) (h : t.labels.Nodup) {a : α} (ha : a ∈ c.labels)
    (hb : a ∈ d.labels) : c = d := by
  cases t with
  | leaf l => cases hc
  | node op cs =>
    rw [labels_node] at h
    have h2 := (List.pairwise_flatMap.1 h).2
    by_cases e : c = d
    · exact e
    · exfalso
      have key : ∀ cs : List (PT α), List.Pairwise (fun a₁ a₂ => ∀ x ∈ a₁.labels, ∀ y ∈ a₂.labels, x ≠ y) cs → c ∈ cs → d ∈ cs → False := by
        intro cs; induction cs with
        | nil => intro _ h; cases h
        | cons x cs ih =>
          intro hp h1 h3
          rw [List.pairwise_cons] at hp
          rcases List.mem_cons.1 h1 with h1 | h1
          · rcases List.mem_cons.1 h3 with h3 | h3
            · exact e (h1.trans h3.symm)
            · exact hp.1 d h3 a (h1 ▸ ha) a hb rfl
          · rcases List.mem_cons.1 h3 with h3 | h3
            · exact hp.1 c h1 a (h3 ▸ hb) a ha rfl
            · exact ih hp.2 h1 h3
      exact key cs h2 hc hd

theorem IsNode.nodup {t : PT α} (ht : t.labels.Nodup) {x : Nd α} (h : IsNode t x) : x.sub.labels.Nodup := by
  induction h with
  | refl => exact ht
  | step _ hk ih =>
    obtain ⟨c, hc, rfl⟩ := mem_kids.1 hk
    exact nodup_child hc ih

theorem Desc.labels {x y : Nd α} (h : Desc x y) {a : α} (ha : a ∈ y.sub.labels) : a ∈ x.sub.labels := by
  induction h with
  | refl => exact ha
  | step _ hk ih =>
    obtain ⟨c, hc, rfl⟩ := mem_kids.1 hk
    exact ih (labels_child hc ha)

/-- two nodes that contain the same label are comparable -/
theorem comparable {t : PT α} (ht : t.labels.Nodup) {x y : Nd α} (hx : IsNode t x) (hy : IsNode t y) {a : α} (ha : a ∈ x.sub.labels)
    (hb : a ∈ y.sub.labels) : Desc x y ∨ Desc y x := by
  induction hx with
  | refl => exact .inl hy
  | @step z k hz hk ih =>
    obtain ⟨c, hc, rfl⟩ := mem_kids.1 hk
    rcases ih (labels_child hc ha) with h | h
    · rcases h.head with rfl | ⟨k, hk', hd⟩
      · exact .inr (.step .refl hk)
      · obtain ⟨d, hd', rfl⟩ := mem_kids.1 hk'
        have := child_unique hc hd' (IsNode.nodup ht hz) ha (hd.labels hb)
        subst this
        exact .inl hd
    · exact .inr (.step h hk)

theorem Desc.size_le {x y : Nd α} (h : Desc x y) : y = x ∨ size y.sub < size x.sub := by
  induction h with
  | refl => exact .inl rfl
  | @step z k _ hk ih =>
    right
    have h1 := size_kids z
    have h2 : size k.sub ≤ (z.kids.map fun k => size k.sub).sum := by
      have : ∀ l : List (Nd α), k ∈ l → size k.sub ≤ (l.map fun k => size k.sub).sum := by
        intro l; induction l with
        | nil => intro h; cases h
        | cons w l ih =>
          intro h
          rw [List.map_cons, List.sum_cons]
          rcases List.mem_cons.1 h with rfl | h
          · omega
          · have := ih h; omega
      exact this _ hk
    rcases ih with rfl | ih
    · omega
    · omega

/-- a node that contains a label is determined by its subtree -/
theorem unique {t : PT α} (ht : t.labels.Nodup) {x y : Nd α} (hx : IsNode t x) (hy : IsNode t y) (e : x.sub = y.sub) (hl : x.sub.labels ≠ []) :
    x = y := by
  obtain ⟨a, ha⟩ := List.exists_mem_of_ne_nil _ hl
  rcases comparable ht hx hy ha (e ▸ ha) with h | h
  · rcases h.size_le with h | h
    · exact h.symm
    · rw [e] at h; omega
  · rcases h.size_le with h | h
    · exact h
    · rw [e] at h; omega

/-! ### The set of nodes -/
variable [DecidableEq α]

/-- the subtrees of a list of nodes -/
def subs (l : List (Nd α)) : List (PT α) := l.map Nd.sub

theorem isIn_iff {t : PT α} {l : List (Nd α)} (ht : WF t) (hl : ∀ x ∈ l, WF x.sub) : isIn t l = true ↔ t ∈ subs l := by
  unfold isIn subs
  rw [List.any_eq_true, List.mem_map]
  constructor
  · rintro ⟨x, hx, h⟩; exact ⟨x, hx, pyEq_eq (hl x hx) ht h⟩
  · rintro ⟨x, hx, rfl⟩; exact ⟨x, hx, pyEq_refl _⟩

theorem foldl_addNode (l s : List (Nd α)) (hl : ∀ x ∈ l, WF x.sub) (hs : ∀ x ∈ s, WF x.sub) (hn : (subs s).Nodup) :
    (∀ x ∈ l.foldl addNode s, x ∈ s ∨ x ∈ l) ∧ (subs (l.foldl addNode s)).Nodup ∧
    (∀ u, u ∈ subs s ∨ u ∈ subs l → u ∈ subs (l.foldl addNode s)) := by
  induction l generalizing s with
  | nil => exact ⟨fun x h => .inl h, hn, fun u h => by rcases h with h | h; exact h; cases h⟩
  | cons y l ih =>
    rw [List.foldl_cons]
    have hy := hl y List.mem_cons_self
    have hl' : ∀ x ∈ l, WF x.sub := fun x hx => hl x (List.mem_cons_of_mem _ hx)
    unfold addNode
    split
    · rename_i hin
      rw [isIn_iff hy hs] at hin
      obtain ⟨h1, h2, h3⟩ := ih s hl' hs hn
      refine ⟨fun x hx => (h1 x hx).imp_right (List.mem_cons_of_mem _), h2, ?_⟩
      intro u hu
      apply h3
      rcases hu with hu | hu
      · exact .inl hu
      · rcases List.mem_cons.1 hu with rfl | hu
        · exact .inl hin
        · exact .inr hu
    · rename_i hin
      rw [isIn_iff hy hs] at hin
      obtain ⟨h1, h2, h3⟩ := ih (s ++ [y]) hl'
        (fun x hx => by
          rcases List.mem_append.1 hx with hx | hx
          · exact hs x hx
          · rw [List.mem_singleton] at hx; subst hx; exact hy)
        (by
          unfold subs at hn hin ⊢
          rw [List.map_append, List.nodup_append]
          refine ⟨hn, by simp, ?_⟩
          intro a ha b hb
          simp at hb; subst hb
          rintro rfl; exact hin ha)
      refine ⟨?_, h2, ?_⟩
      · intro x hx
        rcases h1 x hx with hx | hx
        · rcases List.mem_append.1 hx with hx | hx
          · exact .inl hx
          · rw [List.mem_singleton] at hx; subst hx; exact .inr List.mem_cons_self
        · exact .inr (List.mem_cons_of_mem _ hx)
      · intro u hu
        apply h3
        unfold subs at hu ⊢
        rw [List.map_append]
        rcases hu with hu | hu
        · exact .inl (List.mem_append_left _ hu)
        · rcases List.mem_cons.1 hu with rfl | hu
          · exact .inl (List.mem_append_right _ (by simp))
          · exact .inr hu

theorem allNodes_spec (t : PT α) (ht : WF t) :
    (∀ x ∈ allNodes t, IsNode t x) ∧ (subs (allNodes t)).Nodup ∧ ∀ x, IsNode t x → x.sub ∈ subs (allNodes t) := by
  obtain ⟨h1, h2, h3⟩ := foldl_addNode (bfs (size t) [⟨t, []⟩]) [] (fun x hx => IsNode.wf ht ((mem_bfs t x).1 hx)) (by simp) (by simp [subs])
  refine ⟨fun x hx => ?_, h2, fun x hx => h3 _ (.inr (List.mem_map_of_mem ((mem_bfs t x).2 hx)))⟩
  rcases h1 x hx with h | h
  · cases h
  · exact (mem_bfs t x).1 h

/-! ### The loop -/

/-- invariant of the second loop; `n0` is the number of leaves it starts with -/
structure Inv (t : PT α) (n0 i : Nat) (bu : List (Nd α)) : Prop where
  nodes : ∀ x ∈ bu, IsNode t x
  nodup : (subs bu).Nodup
  len : n0 ≤ bu.length ∧ i ≤ bu.length
  leaves : ∀ x, IsNode t x → x.sub.children = [] → x.sub ∈ subs (bu.take n0)
  order : ∀ j x, bu[j]? = some x → ∀ c ∈ x.sub.children, c ∈ subs (bu.take j)
  done : ∀ j x p, j < i → bu[j]? = some x → x.parent = some p →
    p.sub ∈ subs bu ∨ ∃ c ∈ p.sub.children, c ∉ subs (bu.take (max (j + 1) n0))

omit [DecidableEq α] in
theorem length_le (t : PT α) (bu : List (Nd α)) (h1 : ∀ x ∈ bu, IsNode t x) (h2 : (subs bu).Nodup) : bu.length ≤ size t := by
  have hsub : ∀ u ∈ subs bu, u ∈ subs (bfs (size t) [⟨t, []⟩]) := by
    intro u hu
    obtain ⟨x, hx, rfl⟩ := List.mem_map.1 hu
    exact List.mem_map_of_mem ((mem_bfs t x).2 (h1 x hx))
  have key : ∀ (l m : List (PT α)), l.Nodup → (∀ u ∈ l, u ∈ m) → l.length ≤ m.length := by
    intro l
    induction l with
    | nil => simp
    | cons a l ih =>
      intro m hn hm
      rw [List.nodup_cons] at hn
      obtain ⟨m1, m2, rfl⟩ := List.append_of_mem (hm a List.mem_cons_self)
      have := ih (m1 ++ m2) hn.2 (by
        intro u hu
        have := hm u (List.mem_cons_of_mem _ hu)
        rcases List.mem_append.1 this with h | h
        · exact List.mem_append_left _ h
        · rcases List.mem_cons.1 h with rfl | h
          · exact absurd hu hn.1
          · exact List.mem_append_right _ h)
      simp only [List.length_append, List.length_cons] at this ⊢; omega
  have := key _ _ h2 hsub
  unfold subs at this
  rw [List.length_map, List.length_map] at this
  exact Nat.le_trans this (bfs_length _ _)

theorem up_inv (t : PT α) (ht : WF t) (n0 f i : Nat) (bu : List (Nd α)) (h : Inv t n0 i bu) (hf : size t + 1 ≤ f + i) :
    Inv t n0 (up f i bu).length (up f i bu) := by
  induction f generalizing i bu with
  | zero =>
    have := length_le t bu h.nodes h.nodup
    have := h.len.2; omega
  | succ f ih =>
    have hwf : ∀ x ∈ bu, WF x.sub := fun x hx => IsNode.wf ht (h.nodes x hx)
    rw [up]
    cases hx : bu[i]? with
    | none =>
      have hle := List.getElem?_eq_none_iff.1 hx
      have : i = bu.length := by have := h.len.2; omega
      subst this
      exact h
    | some x =>
      obtain ⟨hi, hxe⟩ := List.getElem?_eq_some_iff.1 hx
      have hxm : x ∈ bu := hxe ▸ List.getElem_mem hi
      -- moving on without adding a node
      have keep : (∀ p, x.parent = some p → p.sub ∈ subs bu ∨ ∃ c ∈ p.sub.children, c ∉ subs bu) → Inv t n0 (i + 1) bu := by
        intro hp
        refine ⟨h.nodes, h.nodup, ⟨h.len.1, hi⟩, h.leaves, h.order, ?_⟩
        intro j y p hj hy hyp
        rcases Nat.lt_succ_iff_lt_or_eq.1 hj with hj | rfl
        · exact h.done j y p hj hy hyp
        · rw [hx, Option.some.injEq] at hy; subst hy
          rcases hp p hyp with h1 | ⟨c, hc, h1⟩
          · exact .inl h1
          · refine .inr ⟨c, hc, fun h2 => h1 ?_⟩
            obtain ⟨z, hz, rfl⟩ := List.mem_map.1 h2
            exact List.mem_map_of_mem (List.mem_of_mem_take hz)
      cases hp : x.parent with
      | none =>
        simp only [hp]
        exact ih (i + 1) bu (keep fun p hp' => by rw [hp] at hp'; cases hp') (by omega)
      | some p =>
        simp only [hp]
        obtain ⟨hpn, hpc, _⟩ := IsNode.parent_node (h.nodes x hxm) hp
        have hpw := IsNode.wf ht hpn
        split
        · rename_i hcond
          rw [Bool.and_eq_true, Bool.not_eq_true', ← Bool.not_eq_true, isIn_iff hpw hwf, List.all_eq_true] at hcond
          obtain ⟨hni, hall⟩ := hcond
          have hall : ∀ c ∈ p.sub.children, c ∈ subs bu := fun c hc => (isIn_iff (wf_children hpw hc) hwf).1 (hall c hc)
          refine ih (i + 1) (bu ++ [p]) ?_ (by omega)
          have htake : ∀ j, j ≤ bu.length → (bu ++ [p]).take j = bu.take j := fun j hj => List.take_append_of_le_length hj
          refine ⟨?_, ?_, ?_, ?_, ?_, ?_⟩
          · intro y hy
            rcases List.mem_append.1 hy with hy | hy
            · exact h.nodes y hy
            · rw [List.mem_singleton] at hy; subst hy; exact hpn
          · unfold subs at hni ⊢
            rw [List.map_append, List.nodup_append]
            refine ⟨h.nodup, by simp, ?_⟩
            intro a ha b hb
            simp at hb; subst hb
            rintro rfl; exact hni ha
          · have := h.len; simp only [List.length_append, List.length_singleton]; omega
          · intro y hy hyc
            rw [htake n0 h.len.1]; exact h.leaves y hy hyc
          · intro j y hy c hc
            rw [List.getElem?_append] at hy
            split at hy
            · rename_i hj
              rw [htake j (by omega)]
              exact h.order j y hy c hc
            · rename_i hj
              have hy' : y = p := by
                cases hk : j - bu.length with
                | zero => rw [hk] at hy; simpa using hy.symm
                | succ k => rw [hk] at hy; simp at hy
              have hj' : j = bu.length := by
                cases hk : j - bu.length with
                | zero => omega
                | succ k => rw [hk] at hy; simp at hy
              subst hj'; subst hy'
              rw [htake _ (Nat.le_refl _), List.take_length]
              exact hall c hc
          · intro j y q hj hy hyq
            have hjl : j < bu.length := by omega
            rw [List.getElem?_append_left hjl] at hy
            have hmax : max (j + 1) n0 ≤ bu.length := by have := h.len.1; omega
            rw [htake _ hmax]
            rcases Nat.lt_succ_iff_lt_or_eq.1 hj with hj | rfl
            · rcases h.done j y q hj hy hyq with h1 | h1
              · left; unfold subs at h1 ⊢; rw [List.map_append]; exact List.mem_append_left _ h1
              · exact .inr h1
            · rw [hx, Option.some.injEq] at hy; subst hy
              rw [hp, Option.some.injEq] at hyq; subst hyq
              left; unfold subs; rw [List.map_append]; exact List.mem_append_right _ (by simp)
        · rename_i hcond
          refine ih (i + 1) bu (keep fun q hq => ?_) (by omega)
          rw [hp, Option.some.injEq] at hq; subst hq
          by_cases h1 : p.sub ∈ subs bu
          · exact .inl h1
          · right
            have h2 : ¬ ∀ c ∈ p.sub.children, c ∈ subs bu := by
              intro h2
              apply hcond
              rw [Bool.and_eq_true, Bool.not_eq_true', ← Bool.not_eq_true, isIn_iff hpw hwf, List.all_eq_true]
              exact ⟨h1, fun c hc => (isIn_iff (wf_children hpw hc) hwf).2 (h2 c hc)⟩
            simp only [Classical.not_forall] at h2
            obtain ⟨c, hc, h2⟩ := h2
            exact ⟨c, hc, h2⟩

theorem bottomup_inv {ord : List (Nd α) → List (Nd α)} (hord : ∀ l, (ord l).Perm l) (t : PT α) (ht : WF t) :
    ∃ n0, Inv t n0 (bottomup ord t).length (bottomup ord t) := by
  obtain ⟨h1, h2, h3⟩ := allNodes_spec t ht
  unfold bottomup
  generalize hl : (ord (allNodes t)).filter (fun x => x.sub.children.isEmpty) = l
  refine ⟨l.length, up_inv t ht _ _ _ _ ?_ (by omega)⟩
  have hmem : ∀ x, x ∈ l ↔ x ∈ allNodes t ∧ x.sub.children = [] := by
    intro x; rw [← hl, List.mem_filter, (hord _).mem_iff, List.isEmpty_iff]
  refine ⟨fun x hx => h1 x ((hmem x).1 hx).1, ?_, ⟨Nat.le_refl _, Nat.zero_le _⟩, ?_, ?_, fun j x p hj => absurd hj (Nat.not_lt_zero _)⟩
  · have hp : (subs (ord (allNodes t))).Nodup := ((hord (allNodes t)).map Nd.sub).nodup_iff.2 h2
    rw [← hl]
    exact hp.sublist (List.filter_sublist.map Nd.sub)
  · intro x hx hc
    rw [List.take_length]
    obtain ⟨y, hy, he⟩ := List.mem_map.1 (h3 x hx)
    exact List.mem_map.2 ⟨y, (hmem y).2 ⟨hy, by rw [he]; exact hc⟩, he⟩
  · intro j x hx c hc
    have := List.mem_of_getElem? hx
    rw [((hmem x).1 this).2] at hc; cases hc

omit [DecidableEq α] in
theorem exists_max {X : Type} (f : X → Nat) (l : List X) (h : l ≠ []) : ∃ c ∈ l, ∀ d ∈ l, f d ≤ f c := by
  induction l with
  | nil => exact absurd rfl h
  | cons x l ih =>
    by_cases hl : l = []
    · subst hl; exact ⟨x, by simp, by simp⟩
    · obtain ⟨c, hc, hm⟩ := ih hl
      by_cases hx : f c ≤ f x
      · refine ⟨x, by simp, ?_⟩
        intro d hd
        rcases List.mem_cons.1 hd with rfl | hd
        · exact Nat.le_refl _
        · exact Nat.le_trans (hm d hd) hx
      · refine ⟨c, List.mem_cons_of_mem _ hc, ?_⟩
        intro d hd
        rcases List.mem_cons.1 hd with rfl | hd
        · omega
        · exact hm d hd

/-- every node is reached -/
theorem Inv.complete {t : PT α} (hlab : t.labels.Nodup) (hin : ∀ x : Nd α, IsNode t x → x.sub.children ≠ [] → x.sub.labels ≠ [])
    {n0 : Nat} {bu : List (Nd α)} (h : Inv t n0 bu.length bu) (s : PT α) : ∀ anc, IsNode t ⟨s, anc⟩ → s ∈ subs bu := by
  induction s using PT.induct with
  | leaf l =>
    intro anc hn
    have := h.leaves _ hn rfl
    obtain ⟨x, hx, he⟩ := List.mem_map.1 this
    exact List.mem_map.2 ⟨x, List.mem_of_mem_take hx, he⟩
  | node op cs ih =>
    intro anc hn
    by_cases hcs : cs = []
    · subst hcs
      have := h.leaves _ hn rfl
      obtain ⟨x, hx, he⟩ := List.mem_map.1 this
      exact List.mem_map.2 ⟨x, List.mem_of_mem_take hx, he⟩
    -- all children are present
    have hkid : ∀ c ∈ cs, IsNode t ⟨c, .node op cs :: anc⟩ := fun c hc => .step hn (mem_kids.2 ⟨c, hc, rfl⟩)
    have hch : ∀ c ∈ cs, c ∈ subs bu := fun c hc => ih c hc _ (hkid c hc)
    have hne : (PT.node op cs).labels ≠ [] := hin _ hn hcs
    obtain ⟨a, ha⟩ := List.exists_mem_of_ne_nil _ hne
    rw [labels_node, List.mem_flatMap] at ha
    obtain ⟨c0, hc0, ha⟩ := ha
    -- a position for every child
    have hpos : ∀ c : PT α, ∃ j : Nat, c ∈ subs bu → ∃ x : Nd α, bu[j]? = some x ∧ x.sub = c := by
      intro c
      by_cases hc : c ∈ subs bu
      · obtain ⟨x, hx, he⟩ := List.mem_map.1 hc
        obtain ⟨j, hj⟩ := List.getElem?_of_mem hx
        exact ⟨j, fun _ => ⟨x, hj, he⟩⟩
      · exact ⟨0, fun h => absurd h hc⟩
    obtain ⟨pos, hpos⟩ := Classical.axiomOfChoice hpos
    obtain ⟨c, hc, hmax⟩ := exists_max pos (cs.filter fun c => !c.labels.isEmpty) (by
      intro e
      have : c0 ∈ cs.filter fun c => !c.labels.isEmpty := by
        rw [List.mem_filter]
        refine ⟨hc0, ?_⟩
        cases hl : c0.labels with
        | nil => rw [hl] at ha; cases ha
        | cons _ _ => rfl
      rw [e] at this; cases this)
    rw [List.mem_filter] at hc
    have hcl : c.labels ≠ [] := by
      intro e; simp [e] at hc
    obtain ⟨x, hx, hxs⟩ := hpos c (hch c hc.1)
    have hxn := h.nodes x (List.mem_of_getElem? hx)
    have hxe : x = ⟨c, .node op cs :: anc⟩ := unique hlab hxn (hkid c hc.1) hxs (by rw [hxs]; exact hcl)
    have hpar : x.parent = some ⟨.node op cs, anc⟩ := by rw [hxe]; rfl
    obtain ⟨hlt, _⟩ := List.getElem?_eq_some_iff.1 hx
    rcases h.done (pos c) x _ hlt hx hpar with h1 | ⟨d, hd, h1⟩
    · exact h1
    · exfalso
      apply h1
      have hd : d ∈ cs := hd
      by_cases hdl : d.labels = []
      · have hdc : d.children = [] := by
          by_cases e : d.children = []
          · exact e
          · exact absurd hdl (hin _ (hkid d hd) e)
        have := h.leaves _ (hkid d hd) hdc
        obtain ⟨y, hy, he⟩ := List.mem_map.1 this
        refine List.mem_map.2 ⟨y, ?_, he⟩
        exact (List.take_sublist_take_left (Nat.le_max_right _ _)).mem hy
      · have hle := hmax d (by
          rw [List.mem_filter]
          refine ⟨hd, ?_⟩
          cases hl : d.labels with
          | nil => exact absurd hl hdl
          | cons _ _ => rfl)
        obtain ⟨y, hy, he⟩ := hpos d (hch d hd)
        refine List.mem_map.2 ⟨y, ?_, he⟩
        rw [List.mem_take_iff_getElem]
        obtain ⟨hlt', hye⟩ := List.getElem?_eq_some_iff.1 hy
        exact ⟨pos d, by omega, hye⟩

end BU
end Verif
