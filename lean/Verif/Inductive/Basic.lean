import Verif.Inductive.Model
/-
Inductive miner: the directly-follows relation of a log, reachability, connected components.
-/
namespace Verif.IM
open Verif Dict Counter Dfg
variable {α : Type} [DecidableEq α]

/-! ### keys of folded dictionaries -/

theorem keys_inc {κ : Type} [DecidableEq κ] (d : Dict κ Int) (k : κ) (n : Int) (k' : κ) :
    k' ∈ keys (inc d k n) ↔ k' = k ∨ k' ∈ keys d := keys_set d k _ k'

theorem keys_foldl {κ β : Type} [DecidableEq κ] {ν : Type} (f : Dict κ ν → β → Dict κ ν) (P : β → κ → Prop)
    (hf : ∀ d b k, k ∈ keys (f d b) ↔ P b k ∨ k ∈ keys d) (l : List β) (d : Dict κ ν) (k : κ) :
    k ∈ keys (l.foldl f d) ↔ (∃ b ∈ l, P b k) ∨ k ∈ keys d := by
  induction l generalizing d with
  | nil => simp
  | cons b l ih =>
    rw [List.foldl_cons, ih, hf]
    simp only [List.mem_cons, exists_eq_or_imp]
    grind

/-! ### the directly-follows relation -/

/-- `a` is directly followed by `b` in some trace -/
def Fol (L : UVCL α) (a b : α) : Prop := ∃ t ∈ keys L, ∃ u v, t = u ++ a :: b :: v

theorem mem_pairs_iff (t : List α) (a b : α) : (a, b) ∈ pairs t ↔ ∃ u v, t = u ++ a :: b :: v := by
  unfold pairs
  rw [List.mem_filterMap]
  constructor
  · rintro ⟨i, _, h⟩
    cases h1 : t[i]? with
    | none => rw [h1] at h; simp at h
    | some x =>
      cases h2 : t[i + 1]? with
      | none => rw [h1, h2] at h; simp at h
      | some y =>
        rw [h1, h2] at h
        simp at h
        obtain ⟨rfl, rfl⟩ := h
        obtain ⟨hl1, e1⟩ := List.getElem?_eq_some_iff.1 h1
        obtain ⟨hl2, e2⟩ := List.getElem?_eq_some_iff.1 h2
        refine ⟨t.take i, t.drop (i + 2), ?_⟩
        rw [← e1, ← e2]
        rw [← List.drop_eq_getElem_cons hl2, ← List.drop_eq_getElem_cons hl1, List.take_append_drop]
  · rintro ⟨u, v, rfl⟩
    refine ⟨u.length, by simp, ?_⟩
    simp [List.getElem?_append]

theorem edge_iff (L : UVCL α) (a b : α) : edge (discoverUvcl L) a b = true ↔ Fol L a b := by
  unfold edge discoverUvcl
  rw [decide_eq_true_iff]
  simp only []
  rw [keys_foldl _ (fun e k => k ∈ pairs e.1)]
  · simp only [keys_nil, List.not_mem_nil, or_false, mem_pairs_iff]
    constructor
    · rintro ⟨e, he, h⟩; exact ⟨e.1, List.mem_map.2 ⟨e, he, rfl⟩, h⟩
    · rintro ⟨t, ht, h⟩
      obtain ⟨e, he, rfl⟩ := List.mem_map.1 ht
      exact ⟨e, he, h⟩
  · intro d e k
    rw [keys_foldl _ (fun p k => k = p)]
    · simp
    · intro d p k; exact keys_inc d p _ k

/-- `a` starts some trace -/
def IsStart (L : UVCL α) (a : α) : Prop := ∃ v, a :: v ∈ keys L
/-- `a` ends some trace -/
def IsEnd (L : UVCL α) (a : α) : Prop := ∃ u, u ++ [a] ∈ keys L
/-- `a` occurs in some trace -/
def Occ (L : UVCL α) (a : α) : Prop := ∃ t ∈ keys L, a ∈ t

theorem mem_alphabet (l : List (List α)) (a : α) : a ∈ alphabet l ↔ ∃ t ∈ l, a ∈ t := by
  unfold alphabet; simp

theorem getLast_eq (t : List α) (a : α) : (0 < t.length ∧ t[t.length - 1]? = some a) ↔ ∃ u, t = u ++ [a] := by
  constructor
  · rintro ⟨h1, h2⟩
    rw [← List.getLast?_eq_getElem?] at h2
    obtain ⟨u, hu⟩ := List.getLast?_eq_some_iff.1 h2
    exact ⟨u, hu⟩
  · rintro ⟨u, rfl⟩; simp

theorem head_eq (t : List α) (a : α) : t[0]? = some a ↔ ∃ v, t = a :: v := by
  cases t with
  | nil => simp
  | cons x t => simp

theorem start_iff (L : UVCL α) (a : α) : a ∈ keys (discoverUvcl L).starts ↔ IsStart L a := by
  unfold discoverUvcl
  simp only []
  rw [keys_foldl _ (fun x k => k = x ∧ ∃ e ∈ L, e.1[0]? = some x)]
  · simp only [keys_nil, List.not_mem_nil, or_false, head_eq]
    constructor
    · rintro ⟨b, _, rfl, e, he, v, hv⟩; exact ⟨v, List.mem_map.2 ⟨e, he, hv⟩⟩
    · rintro ⟨v, hv⟩
      obtain ⟨e, he, hv'⟩ := List.mem_map.1 hv
      refine ⟨a, ?_, rfl, e, he, v, hv'⟩
      rw [mem_alphabet]; exact ⟨_, hv, by simp⟩
  · intro d x k
    rw [keys_foldl _ (fun e k => k = x ∧ e.1[0]? = some x)]
    · constructor
      · rintro (⟨e, he, rfl, h⟩ | h)
        · exact .inl ⟨rfl, e, he, h⟩
        · exact .inr h
      · rintro (⟨rfl, e, he, h⟩ | h)
        · exact .inl ⟨e, he, rfl, h⟩
        · exact .inr h
    · intro d e k
      split
      · rename_i h; rw [keys_inc]; simp [h]
      · rename_i h; simp [h]

theorem end_iff (L : UVCL α) (a : α) : a ∈ keys (discoverUvcl L).ends ↔ IsEnd L a := by
  unfold discoverUvcl
  simp only []
  rw [keys_foldl _ (fun x k => k = x ∧ ∃ e ∈ L, 0 < e.1.length ∧ e.1[e.1.length - 1]? = some x)]
  · simp only [keys_nil, List.not_mem_nil, or_false, getLast_eq]
    constructor
    · rintro ⟨b, _, rfl, e, he, v, hv⟩; exact ⟨v, List.mem_map.2 ⟨e, he, hv⟩⟩
    · rintro ⟨v, hv⟩
      obtain ⟨e, he, hv'⟩ := List.mem_map.1 hv
      refine ⟨a, ?_, rfl, e, he, v, hv'⟩
      rw [mem_alphabet]; exact ⟨_, hv, by simp⟩
  · intro d x k
    rw [keys_foldl _ (fun e k => k = x ∧ 0 < e.1.length ∧ e.1[e.1.length - 1]? = some x)]
    · constructor
      · rintro (⟨e, he, rfl, h⟩ | h)
        · exact .inl ⟨rfl, e, he, h⟩
        · exact .inr h
      · rintro (⟨rfl, e, he, h⟩ | h)
        · exact .inl ⟨e, he, rfl, h⟩
        · exact .inr h
    · intro d e k
      split
      · rename_i h; rw [keys_inc]; simp [h]
      · rename_i h; simp [h]

theorem vert_iff (env : Env α) (henv : env.Lawful) (L : UVCL α) (a : α) :
    a ∈ verts env (discoverUvcl L) ↔ Occ L a := by
  unfold verts vertices
  rw [henv.iter_mem, mem_dedup]
  simp only [List.mem_append, List.mem_flatMap, start_iff, end_iff, List.mem_cons, List.not_mem_nil, or_false]
  constructor
  · rintro ((⟨⟨x, y⟩, h, h'⟩ | ⟨v, h⟩) | ⟨u, h⟩)
    · have := (edge_iff L x y).1 (by unfold edge; simpa using h)
      obtain ⟨t, ht, u, v, rfl⟩ := this
      refine ⟨_, ht, ?_⟩
      rcases h' with rfl | rfl <;> simp
    · exact ⟨_, h, by simp⟩
    · exact ⟨_, h, by simp⟩
  · rintro ⟨t, ht, ha⟩
    obtain ⟨u, v, rfl⟩ := List.append_of_mem ha
    cases v with
    | nil => exact .inr ⟨u, ht⟩
    | cons b v =>
      left; left
      refine ⟨(a, b), ?_, .inl rfl⟩
      have := (edge_iff L a b).2 ⟨_, ht, u, v, rfl⟩
      simpa [edge] using this

theorem verts_nodup (env : Env α) (henv : env.Lawful) (g : DFG α) : (verts env g).Nodup := henv.iter_nodup _

/-! ### reachability -/

/-- reachable by a path through the nodes -/
inductive Path (nodes : List α) (E : α → α → Bool) (a : α) : α → Prop
  | refl : Path nodes E a a
  | step {b c} : Path nodes E a b → E b c = true → c ∈ nodes → Path nodes E a c

theorem Path.trans {nodes : List α} {E : α → α → Bool} {a b c : α} (h1 : Path nodes E a b) (h2 : Path nodes E b c) :
    Path nodes E a c := by
  induction h2 with
  | refl => exact h1
  | step _ h3 h4 ih => exact ih.step h3 h4

theorem Path.symm {nodes : List α} {E : α → α → Bool} (hs : ∀ a b, E a b = E b a) {a b : α} (ha : a ∈ nodes)
    (h : Path nodes E a b) : Path nodes E b a ∧ b ∈ nodes := by
  induction h with
  | refl => exact ⟨.refl, ha⟩
  | step _ h3 h4 ih => exact ⟨((Path.refl).step (by rw [hs]; exact h3) ih.2).trans ih.1, h4⟩

theorem mem_expand (nodes : List α) (E : α → α → Bool) (S : List α) (v : α) :
    v ∈ expand nodes E S ↔ v ∈ nodes ∧ (v ∈ S ∨ ∃ u ∈ S, E u v = true) := by
  unfold expand; simp [List.mem_filter]

theorem expand_eq_of (nodes : List α) (E : α → α → Bool) (S S' : List α) (h : ∀ v, v ∈ S ↔ v ∈ S') :
    expand nodes E S = expand nodes E S' := by
  unfold expand
  apply List.filter_congr
  intro v _
  rw [Bool.eq_iff_iff]
  simp [h]

theorem rounds_eq_of (nodes : List α) (E : α → α → Bool) (n : Nat) (S S' : List α) (h : ∀ v, v ∈ S ↔ v ∈ S') (v : α) :
    v ∈ rounds nodes E n S ↔ v ∈ rounds nodes E n S' := by
  cases n with
  | zero => exact h v
  | succ n => rw [rounds, rounds, expand_eq_of nodes E S S' h]

theorem rounds_sound (nodes : List α) (E : α → α → Bool) (a : α) (n : Nat) (S : List α)
    (h : ∀ v ∈ S, Path nodes E a v) : ∀ v ∈ rounds nodes E n S, Path nodes E a v := by
  induction n generalizing S with
  | zero => exact h
  | succ n ih =>
    apply ih
    intro v hv
    rw [mem_expand] at hv
    rcases hv.2 with hv' | ⟨u, hu, hE⟩
    · exact h v hv'
    · exact (h u hu).step hE hv.1

/-- `S` is closed under edges into the nodes -/
def ClosedSet (nodes : List α) (E : α → α → Bool) (S : List α) : Prop :=
  ∀ u ∈ S, ∀ v ∈ nodes, E u v = true → v ∈ S

theorem sublist_of_length_le {l m : List α} (h : l.Sublist m) (hl : m.length ≤ l.length) : l = m :=
  h.eq_of_length_le hl

theorem filter_sub_filter (l : List α) (p q : α → Bool) (h : ∀ x ∈ l, p x = true → q x = true) :
    (l.filter p).Sublist (l.filter q) := by
  induction l with
  | nil => simp
  | cons x l ih =>
    have ih' := ih fun y hy => h y (by simp [hy])
    rw [List.filter_cons, List.filter_cons]
    by_cases hp : p x = true
    · simp [hp, h x (by simp) hp, ih']
    · by_cases hq : q x = true
      · simp [hp, hq]; exact ih'.cons x
      · simp [hp, hq, ih']

theorem rounds_closed (nodes : List α) (E : α → α → Bool) (n : Nat) (p : α → Bool)
    (h : nodes.length ≤ (nodes.filter p).length + n) :
    ClosedSet nodes E (rounds nodes E n (nodes.filter p)) := by
  induction n generalizing p with
  | zero =>
    have : nodes.filter p = nodes := sublist_of_length_le List.filter_sublist (by omega)
    rw [rounds, this]
    intro u _ v hv _; exact hv
  | succ n ih =>
    rw [rounds]
    by_cases hc : ClosedSet nodes E (nodes.filter p)
    · have he : ∀ v, v ∈ expand nodes E (nodes.filter p) ↔ v ∈ nodes.filter p := by
        intro v
        rw [mem_expand]
        constructor
        · rintro ⟨h1, h2 | ⟨u, hu, hE⟩⟩
          · exact h2
          · exact hc u hu v h1 hE
        · intro hv; exact ⟨(List.mem_filter.1 hv).1, .inl hv⟩
      have hk : ∀ m, ∀ v, v ∈ rounds nodes E m (expand nodes E (nodes.filter p)) ↔ v ∈ nodes.filter p := by
        intro m
        induction m with
        | zero => exact he
        | succ m ihm =>
          intro v
          rw [rounds, rounds_eq_of nodes E m _ (expand nodes E (nodes.filter p))]
          · exact ihm v
          · intro w; rw [expand_eq_of nodes E _ _ he]
      intro u hu v hv hE
      rw [hk] at hu ⊢
      exact hc u hu v hv hE
    · have hlt : (nodes.filter p).length < (expand nodes E (nodes.filter p)).length := by
        unfold expand
        have hsub : (nodes.filter p).Sublist
            (nodes.filter fun v => decide (v ∈ nodes.filter p) || (nodes.filter p).any fun u => E u v) := by
          apply filter_sub_filter
          intro x hx hp
          simp [List.mem_filter, hx, hp]
        rcases Nat.lt_or_ge (nodes.filter p).length (nodes.filter fun v => decide (v ∈ nodes.filter p) ||
          (nodes.filter p).any fun u => E u v).length with h1 | h1
        · exact h1
        · exfalso
          have heq := sublist_of_length_le hsub h1
          apply hc
          intro u hu v hv hE
          rw [heq, List.mem_filter]
          refine ⟨hv, ?_⟩
          rw [Bool.or_eq_true, List.any_eq_true]
          exact .inr ⟨u, hu, hE⟩
      apply ih
      unfold expand at hlt
      omega

theorem mem_reach (nodes : List α) (E : α → α → Bool) (a : α) (ha : a ∈ nodes) (b : α) :
    b ∈ reach nodes E a ↔ Path nodes E a b := by
  unfold reach
  have hmem : ∀ v, v ∈ [a] ↔ v ∈ nodes.filter fun x => decide (x = a) := by
    intro v; simp only [List.mem_singleton, List.mem_filter, decide_eq_true_iff]
    constructor
    · rintro rfl; exact ⟨ha, rfl⟩
    · exact fun h => h.2
  rw [rounds_eq_of nodes E nodes.length _ _ hmem b]
  constructor
  · apply rounds_sound
    intro v hv
    rw [← hmem] at hv
    rw [List.mem_singleton.1 hv]; exact .refl
  · intro hp
    have hcl := rounds_closed nodes E nodes.length (fun x => decide (x = a)) (by omega)
    induction hp with
    | refl =>
      have : ∀ n (S : List α), a ∈ S → a ∈ rounds nodes E n S := by
        intro n
        induction n with
        | zero => intro S h; exact h
        | succ n ih => intro S h; exact ih _ ((mem_expand nodes E S a).2 ⟨ha, .inl h⟩)
      exact this _ _ ((hmem a).1 (by simp))
    | step _ h3 h4 ih => exact hcl _ ih _ h4 h3

theorem mem_descendants (nodes : List α) (E : α → α → Bool) (a : α) (ha : a ∈ nodes) (b : α) :
    b ∈ descendants nodes E a ↔ b ≠ a ∧ Path nodes E a b := by
  unfold descendants
  rw [List.mem_filter, mem_reach nodes E a ha]
  simp [and_comm]

/-! ### partitions -/

/-- The groups split the activities `V`: every activity is in exactly one group and no group is empty. -/
structure Partn (V : α → Prop) (gs : List (List α)) : Prop where
  cover : ∀ a, V a ↔ ∃ g ∈ gs, a ∈ g
  disj : gs.Pairwise fun g h => ∀ a ∈ g, a ∉ h
  ne : ∀ g ∈ gs, g ≠ []

theorem Partn.perm {V : α → Prop} {gs gs' : List (List α)} (h : Partn V gs) (hp : gs.Perm gs') : Partn V gs' where
  cover a := by rw [h.cover]; constructor <;> rintro ⟨g, hg, ha⟩ <;> exact ⟨g, by first | exact hp.mem_iff.1 hg | exact hp.mem_iff.2 hg, ha⟩
  disj := (hp.pairwise_iff (fun {x y} hxy a ha hb => hxy a hb ha)).1 h.disj
  ne g hg := h.ne g (hp.mem_iff.2 hg)

theorem Partn.unique {V : α → Prop} {gs : List (List α)} (h : Partn V gs) {i j : Nat} {g g' : List α}
    (hi : gs[i]? = some g) (hj : gs[j]? = some g') {a : α} (ha : a ∈ g) (ha' : a ∈ g') : i = j := by
  obtain ⟨hil, e1⟩ := List.getElem?_eq_some_iff.1 hi
  obtain ⟨hjl, e2⟩ := List.getElem?_eq_some_iff.1 hj
  have hd := List.pairwise_iff_getElem.1 h.disj
  rcases Nat.lt_trichotomy i j with hlt | heq | hgt
  · have := hd i j hil hjl hlt; rw [e1, e2] at this; exact absurd ha' (this a ha)
  · exact heq
  · have := hd j i hjl hil hgt; rw [e1, e2] at this; exact absurd ha (this a ha')

theorem Partn.singletons (l : List α) (hn : l.Nodup) : Partn (· ∈ l) (l.map fun a => [a]) where
  cover a := by
    constructor
    · intro ha; exact ⟨[a], List.mem_map.2 ⟨a, ha, rfl⟩, by simp⟩
    · rintro ⟨g, hg, ha⟩
      obtain ⟨b, hb, rfl⟩ := List.mem_map.1 hg
      rw [List.mem_singleton.1 ha]; exact hb
  disj := by
    rw [List.pairwise_map]
    refine hn.imp ?_
    intro a b hab x hx hy
    simp at hx hy; exact hab (hx ▸ hy ▸ rfl)
  ne g hg := by obtain ⟨a, _, rfl⟩ := List.mem_map.1 hg; simp

@[simp] theorem mem_union (g h : List α) (a : α) : a ∈ union g h ↔ a ∈ g ∨ a ∈ h := by
  unfold union
  simp only [List.mem_append, List.mem_filter, decide_eq_true_iff]
  by_cases ha : a ∈ g <;> simp [ha]

/-! ### connected components -/

theorem components_spec (nodes : List α) (E : α → α → Bool) :
    Partn (· ∈ nodes) (components nodes E) ∧
      (∀ a ∈ nodes, ∀ b ∈ nodes, E a b = true → ∀ g ∈ components nodes E, a ∈ g ↔ b ∈ g) ∧
      ∀ g ∈ components nodes E, ∃ v ∈ nodes, g = reach nodes (fun a b => E a b || E b a) v := by
  let S : α → α → Bool := fun a b => E a b || E b a
  have hs : ∀ a b, S a b = S b a := fun a b => by simp only [S]; rw [Bool.or_comm]
  -- invariant of the loop
  have key : ∀ (l : List α) (s : List α × List (List α)), (∀ v ∈ l, v ∈ nodes) →
      (∀ x, x ∈ s.1 ↔ ∃ g ∈ s.2, x ∈ g) →
      s.2.Pairwise (fun g h => ∀ a ∈ g, a ∉ h) →
      (∀ g ∈ s.2, ∃ v ∈ nodes, g = reach nodes S v) →
      let r := l.foldl (fun (s : List α × List (List α)) v =>
        if v ∈ s.1 then s else (s.1 ++ reach nodes S v, s.2 ++ [reach nodes S v])) s
      (∀ x, x ∈ r.1 ↔ ∃ g ∈ r.2, x ∈ g) ∧ r.2.Pairwise (fun g h => ∀ a ∈ g, a ∉ h) ∧
      (∀ g ∈ r.2, ∃ v ∈ nodes, g = reach nodes S v) ∧ (∀ v ∈ l, v ∈ r.1) ∧ ∀ v ∈ s.1, v ∈ r.1 := by
    intro l
    induction l with
    | nil => intro s _ h1 h2 h3; exact ⟨h1, h2, h3, by simp, fun v hv => hv⟩
    | cons v l ih =>
      intro s hl h1 h2 h3
      rw [List.foldl_cons]
      have hv := hl v (by simp)
      have hl' : ∀ w ∈ l, w ∈ nodes := fun w hw => hl w (by simp [hw])
      by_cases hm : v ∈ s.1
      · simp only [hm, if_true]
        obtain ⟨r1, r2, r3, r4, r5⟩ := ih s hl' h1 h2 h3
        refine ⟨r1, r2, r3, ?_, r5⟩
        intro w hw
        rcases List.mem_cons.1 hw with rfl | hw
        · exact r5 _ hm
        · exact r4 _ hw
      · simp only [hm, if_false]
        obtain ⟨r1, r2, r3, r4, r5⟩ := ih (s.1 ++ reach nodes S v, s.2 ++ [reach nodes S v]) hl' (by
            intro x
            simp only [List.mem_append, List.mem_singleton]
            rw [h1]
            constructor
            · rintro (⟨g, hg, hx⟩ | hx)
              · exact ⟨g, .inl hg, hx⟩
              · exact ⟨_, .inr rfl, hx⟩
            · rintro ⟨g, hg | rfl, hx⟩
              · exact .inl ⟨g, hg, hx⟩
              · exact .inr hx) (by
            rw [List.pairwise_append]
            refine ⟨h2, by simp, ?_⟩
            intro g hg h hh a ha ha'
            rw [List.mem_singleton] at hh
            subst hh
            obtain ⟨u, hu, rfl⟩ := h3 g hg
            rw [mem_reach nodes S u hu] at ha
            rw [mem_reach nodes S v hv] at ha'
            apply hm
            rw [h1]
            exact ⟨_, hg, (mem_reach nodes S u hu v).2 (ha.trans (ha'.symm hs hv).1)⟩) (by
            intro g hg
            rcases List.mem_append.1 hg with hg | hg
            · exact h3 g hg
            · exact ⟨v, hv, by simpa using hg⟩)
        refine ⟨r1, r2, r3, ?_, fun w hw => r5 w (by simp [hw])⟩
        intro w hw
        rcases List.mem_cons.1 hw with rfl | hw
        · exact r5 _ (by simp [mem_reach nodes S w hv, Path.refl])
        · exact r4 _ hw
  have hk := key nodes ([], []) (fun v hv => hv) (by simp) (by simp) (by simp)
  obtain ⟨r1, r2, r3, r4, _⟩ := hk
  have hc : components nodes E = (nodes.foldl (fun (s : List α × List (List α)) v =>
        if v ∈ s.1 then s else (s.1 ++ reach nodes S v, s.2 ++ [reach nodes S v])) ([], [])).2 := rfl
  rw [hc]
  refine ⟨⟨?_, r2, ?_⟩, ?_, r3⟩
  · intro a
    constructor
    · intro ha; exact (r1 a).1 (r4 a ha)
    · rintro ⟨g, hg, ha⟩
      obtain ⟨v, hv, rfl⟩ := r3 g hg
      rw [mem_reach nodes S v hv] at ha
      exact (ha.symm hs hv).2
  · intro g hg
    obtain ⟨v, hv, rfl⟩ := r3 g hg
    intro he
    have := (mem_reach nodes S v hv v).2 .refl
    rw [he] at this; simp at this
  · intro a ha b hb hE g hg
    obtain ⟨v, hv, rfl⟩ := r3 g hg
    rw [mem_reach nodes S v hv, mem_reach nodes S v hv]
    constructor
    · intro h; exact h.step (by simp [S, hE]) hb
    · intro h; exact h.step (by simp [S, hE]) ha

end Verif.IM
