/-
C27: /repo/pm4py/algo/transformation/log_to_trie/algorithm.py and /repo/pm4py/objects/trie/obj.py.
-/
namespace Verif.TrieM
variable {α : Type} [DecidableEq α]

/-! ### Model -/

/-- A `Trie` object (trie/obj.py:18-58).  The label is kept at the edge from the parent; the parent pointer is
not modelled. -/
inductive Trie (α : Type)
  | node (depth : Nat) (final : Bool) (children : List (α × Trie α))

def Trie.depth : Trie α → Nat | .node d _ _ => d
def Trie.final : Trie α → Bool | .node _ f _ => f
def Trie.children : Trie α → List (α × Trie α) | .node _ _ cs => cs

/-- The loop over `trie.children` and the creation of a missing node (log_to_trie/algorithm.py:48-58):
continue with `f` in the first child labelled `a`, otherwise append `new`. -/
def descend (a : α) (f : Trie α → Trie α) (new : Trie α) : List (α × Trie α) → List (α × Trie α)
  | [] => [(a, new)]
  | (b, t) :: cs => if b = a then (b, f t) :: cs else (b, t) :: descend a f new cs

/-- The loop over the activities of one variant (algorithm.py:45-60), walking down from a node.  `final` is set
only on a node that was just created by the last activity: in the matching case `continue` skips line 59-60. -/
def insert : List α → Trie α → Trie α
  | [], t => t
  | a :: w, .node d f cs => .node d f (descend a (insert w) (insert w (.node (d + 1) w.isEmpty [])) cs)

/-- `apply` (algorithm.py:31-61) on the list of variants. -/
def build (variants : List (List α)) : Trie α := variants.foldl (fun t w => insert w t) (.node 0 false [])

/-! ### Specification -/

/-- `s` is the node at the end of a path labelled `w` that starts in `t`. -/
inductive Path : Trie α → List α → Trie α → Prop
  | nil (t : Trie α) : Path t [] t
  | cons {t : Trie α} {a : α} {c : Trie α} {w : List α} {s : Trie α} : (a, c) ∈ t.children → Path c w s → Path t (a :: w) s

/-! ### Proofs -/

def find : Trie α → List α → Option (Trie α)
  | t, [] => some t
  | .node _ _ cs, a :: w =>
    match cs.find? (fun c => decide (c.1 = a)) with
    | none => none
    | some c => find c.2 w

/-- children of every node have different labels -/
inductive Distinct : Trie α → Prop
  | node {d f cs} : (cs.map Prod.fst).Nodup → (∀ c ∈ cs, Distinct c.2) → Distinct (.node d f cs)

theorem descend_labels (a : α) (f : Trie α → Trie α) (new : Trie α) (cs : List (α × Trie α)) :
    (descend a f new cs).map Prod.fst = if a ∈ cs.map Prod.fst then cs.map Prod.fst else cs.map Prod.fst ++ [a] := by
  induction cs with
  | nil => simp [descend]
  | cons c cs ih =>
    obtain ⟨b, t⟩ := c
    simp only [descend]
    by_cases h : b = a
    · simp [h]
    · have h' : a ≠ b := fun e => h e.symm
      simp only [h, if_false, List.map_cons, ih, List.mem_cons, h', false_or]
      split <;> simp

theorem descend_mem (a : α) (f : Trie α → Trie α) (new : Trie α) (cs : List (α × Trie α)) (c : α × Trie α)
    (h : c ∈ descend a f new cs) : c ∈ cs ∨ c.2 = new ∨ ∃ t, (c.1, t) ∈ cs ∧ c.2 = f t := by
  induction cs with
  | nil => simp [descend] at h; right; left; rw [h]
  | cons e cs ih =>
    obtain ⟨b, t⟩ := e
    simp only [descend] at h
    split at h
    · rcases List.mem_cons.1 h with rfl | h
      · exact .inr (.inr ⟨t, by simp, rfl⟩)
      · exact .inl (by simp [h])
    · rcases List.mem_cons.1 h with rfl | h
      · exact .inl (by simp)
      · rcases ih h with h | h | ⟨t', h1, h2⟩
        · exact .inl (by simp [h])
        · exact .inr (.inl h)
        · exact .inr (.inr ⟨t', by simp [h1], h2⟩)

theorem insert_distinct (w : List α) (t : Trie α) (h : Distinct t) : Distinct (insert w t) := by
  induction w generalizing t with
  | nil => exact h
  | cons a w ih =>
    cases h with
    | @node d f cs hn hc =>
      simp only [insert]
      refine .node ?_ ?_
      · rw [descend_labels]
        split
        · exact hn
        · rename_i h; rw [List.nodup_append]; exact ⟨hn, by simp, by intro x hx y hy; simp at hy; subst hy; exact fun e => h (e ▸ hx)⟩
      · intro c hcm
        rcases descend_mem _ _ _ _ _ hcm with h | h | ⟨t, h1, h2⟩
        · exact hc c h
        · rw [h]; exact ih _ (.node (by simp) (by simp))
        · rw [h2]; exact ih _ (hc _ h1)

theorem path_iff_find (t : Trie α) (h : Distinct t) (w : List α) (s : Trie α) : Path t w s ↔ find t w = some s := by
  induction w generalizing t with
  | nil =>
    constructor
    · intro h; cases h; simp [find]
    · intro h; simp [find] at h; subst h; exact .nil _
  | cons a w ih =>
    cases h with
    | @node d f cs hn hc =>
    constructor
    · intro hp
      cases hp with
      | @cons _ _ c _ _ hm hp =>
        simp only [Trie.children] at hm
        simp only [find]
        have : cs.find? (fun c => decide (c.1 = a)) = some (a, c) := by
          clear hc ih
          induction cs with
          | nil => cases hm
          | cons e cs ih2 =>
            rw [List.map_cons, List.nodup_cons] at hn
            rw [List.find?_cons]
            rcases List.mem_cons.1 hm with rfl | hm
            · simp
            · have : e.1 ≠ a := by
                intro he; apply hn.1; rw [he]; exact List.mem_map.2 ⟨_, hm, rfl⟩
              simp [this]; exact ih2 hn.2 hm
        rw [this]
        exact (ih c (hc _ hm)).1 hp
    · intro hf
      simp only [find] at hf
      split at hf
      · simp at hf
      · rename_i c hfc
        have h1 := List.mem_of_find?_eq_some hfc
        have h2 : c.1 = a := by simpa using List.find?_some hfc
        exact .cons (c := c.2) (by simp only [Trie.children]; rw [← h2]; exact h1) ((ih c.2 (hc c h1)).2 hf)

/-- final flag of the node at the end of a path -/
def flag (t : Trie α) (u : List α) : Option Bool := (find t u).map Trie.final

theorem find?_descend (a : α) (f : Trie α → Trie α) (new : Trie α) (cs : List (α × Trie α)) (x : α) :
    (descend a f new cs).find? (fun c => decide (c.1 = x)) =
      if x = a then some (match cs.find? (fun c => decide (c.1 = a)) with
        | none => (a, new)
        | some c => (a, f c.2))
      else cs.find? (fun c => decide (c.1 = x)) := by
  induction cs with
  | nil =>
    simp only [descend, List.find?_cons, List.find?_nil]
    by_cases h : x = a
    · simp [h]
    · have : a ≠ x := fun e => h e.symm
      simp [h, this]
  | cons e cs ih =>
    obtain ⟨b, t⟩ := e
    simp only [descend]
    by_cases hb : b = a
    · subst hb
      by_cases hx : x = b
      · subst hx; simp
      · have : b ≠ x := fun e => hx e.symm
        simp [hx, this]
    · simp only [hb, if_false, List.find?_cons, ih]
      by_cases hx : x = a
      · subst hx; simp [hb]
      · by_cases hbx : b = x
        · simp [hbx, hx]
        · simp [hbx, hx]

theorem flag_cons (d : Nat) (f : Bool) (cs : List (α × Trie α)) (x : α) (u : List α) :
    flag (.node d f cs) (x :: u) = match cs.find? (fun c => decide (c.1 = x)) with
      | none => none
      | some c => flag c.2 u := by
  simp only [flag, find]
  split <;> simp_all

theorem flag_insert (w u : List α) (t : Trie α) :
    flag (insert w t) u = match flag t u with
      | some b => some b
      | none => if u <+: w then some (decide (u = w)) else none := by
  induction w generalizing t u with
  | nil =>
    simp only [insert, List.prefix_nil]
    cases h : flag t u with
    | some b => rfl
    | none =>
      by_cases hu : u = []
      · subst hu; simp [flag, find] at h
      · simp [hu]
  | cons a w ih =>
    obtain ⟨d, f, cs⟩ := t
    cases u with
    | nil => simp [flag, find, insert, Trie.final]
    | cons x u =>
      simp only [insert]
      rw [flag_cons, flag_cons, find?_descend]
      by_cases hx : x = a
      · subst hx
        simp only [if_true, List.cons_prefix_cons, true_and, List.cons.injEq]
        cases hf : cs.find? (fun c => decide (c.1 = x)) with
        | some c =>
          simp only
          rw [ih]
        | none =>
          simp only
          rw [ih]
          cases u with
          | nil => simp [flag, find, Trie.final]; cases w <;> simp
          | cons y u => rw [flag_cons]; simp
      · simp only [hx, if_false, List.cons_prefix_cons, false_and]
        split
        · rfl
        · cases h : flag _ u <;> rfl

/-- depths increase by one -/
inductive Deep : Trie α → Prop
  | node {d f cs} : (∀ c ∈ cs, c.2.depth = d + 1) → (∀ c ∈ cs, Deep c.2) → Deep (.node d f cs)

theorem insert_depth (w : List α) (t : Trie α) : (insert w t).depth = t.depth := by
  cases w <;> cases t <;> rfl

theorem insert_deep (w : List α) (t : Trie α) (h : Deep t) : Deep (insert w t) := by
  induction w generalizing t with
  | nil => exact h
  | cons a w ih =>
    cases h with
    | @node d f cs hn hc =>
      simp only [insert]
      refine .node ?_ ?_
      · intro c hcm
        rcases descend_mem _ _ _ _ _ hcm with h | h | ⟨t, h1, h2⟩
        · exact hn c h
        · rw [h, insert_depth]; rfl
        · rw [h2, insert_depth]; exact hn _ h1
      · intro c hcm
        rcases descend_mem _ _ _ _ _ hcm with h | h | ⟨t, h1, h2⟩
        · exact hc c h
        · rw [h]; exact ih _ (.node (by simp) (by simp))
        · rw [h2]; exact ih _ (hc _ h1)

theorem path_depth {t s : Trie α} {w : List α} (h : Path t w s) (hd : Deep t) : s.depth = t.depth + w.length := by
  induction h with
  | nil => simp
  | cons hm _ ih =>
    cases hd with
    | node h1 h2 =>
      simp only [Trie.children] at hm
      have := ih (h2 _ hm)
      have h3 := h1 _ hm
      simp only [Trie.depth, List.length_cons] at *; omega

/-- the first variant in the list that has `u` as a prefix equals `u` -/
def firstIs (u : List α) : List (List α) → Bool
  | [] => false
  | w :: ws => if u <+: w then decide (u = w) else firstIs u ws

theorem flag_foldl (vs : List (List α)) (t : Trie α) (u : List α) :
    flag (vs.foldl (fun t w => insert w t) t) u = match flag t u with
      | some b => some b
      | none => if ∃ v ∈ vs, u <+: v then some (firstIs u vs) else none := by
  induction vs generalizing t with
  | nil => cases h : flag t u <;> simp [h]
  | cons w vs ih =>
    rw [List.foldl_cons, ih, flag_insert]
    cases flag t u with
    | some b => rfl
    | none =>
      by_cases h : u <+: w
      · simp [h, firstIs]
      · simp [h, firstIs]

theorem firstIs_iff (u : List α) (vs : List (List α)) :
    firstIs u vs = true ↔ ∃ pre post, vs = pre ++ u :: post ∧ ∀ v ∈ pre, ¬ u <+: v := by
  induction vs with
  | nil => simp [firstIs]
  | cons w vs ih =>
    simp only [firstIs]
    by_cases h : u <+: w
    · simp only [h, if_true, decide_eq_true_eq]
      constructor
      · rintro rfl; exact ⟨[], vs, rfl, by simp⟩
      · rintro ⟨pre, post, h1, h2⟩
        cases pre with
        | nil => simp at h1; exact h1.1.symm
        | cons p pre => simp at h1; exact absurd (h1.1 ▸ h) (h2 p (by simp))
    · simp only [h, if_false, ih]
      constructor
      · rintro ⟨pre, post, rfl, h2⟩
        exact ⟨w :: pre, post, rfl, fun v hv => by
          rcases List.mem_cons.1 hv with rfl | hv
          · exact h
          · exact h2 v hv⟩
      · rintro ⟨pre, post, h1, h2⟩
        cases pre with
        | nil => simp at h1; exact absurd (h1.1 ▸ List.prefix_refl u) h
        | cons p pre => simp at h1; exact ⟨pre, post, h1.2, fun v hv => h2 v (by simp [hv])⟩

theorem build_distinct (vs : List (List α)) : Distinct (build vs) := by
  unfold build
  have : ∀ (vs : List (List α)) (t : Trie α), Distinct t → Distinct (vs.foldl (fun t w => insert w t) t) := by
    intro vs
    induction vs with
    | nil => intro t h; exact h
    | cons v vs ih => intro t h; exact ih _ (insert_distinct v t h)
  exact this vs _ (.node (by simp) (by simp))

theorem build_deep (vs : List (List α)) : Deep (build vs) ∧ (build vs).depth = 0 := by
  unfold build
  have : ∀ (vs : List (List α)) (t : Trie α), Deep t → Deep (vs.foldl (fun t w => insert w t) t) ∧
      (vs.foldl (fun t w => insert w t) t).depth = t.depth := by
    intro vs
    induction vs with
    | nil => intro t h; exact ⟨h, rfl⟩
    | cons v vs ih => intro t h; have := ih _ (insert_deep v t h); rw [insert_depth] at this; exact this
  exact this vs _ (.node (by simp) (by simp))

end TrieM
open TrieM
section
variable {α : Type} [DecidableEq α]

/-- C27: the paths of the trie that start in the root are exactly the prefixes of the variants. -/
theorem C27_paths (variants : List (List α)) (u : List α) (hu : u ≠ []) :
    (∃ s, Path (build variants) u s) ↔ ∃ v ∈ variants, u <+: v := by
  have h := flag_foldl variants (.node 0 false []) u
  have hnone : flag (.node 0 false [] : Trie α) u = none := by
    cases u with
    | nil => exact absurd rfl hu
    | cons x u => rw [flag_cons]; rfl
  rw [hnone] at h
  simp only [path_iff_find _ (build_distinct variants)]
  by_cases hv : ∃ v ∈ variants, u <+: v
  · rw [if_pos hv] at h
    simp only [hv, iff_true]
    unfold flag at h
    rw [Option.map_eq_some_iff] at h
    exact ⟨h.choose, h.choose_spec.1⟩
  · rw [if_neg hv] at h
    simp only [hv, iff_false]
    rintro ⟨s, hs⟩
    unfold flag at h
    rw [show find (variants.foldl (fun t w => insert w t) (.node 0 false [])) u = some s from hs] at h
    simp at h

/-- C27: there is one path for each word. -/
theorem C27_deterministic (variants : List (List α)) (u : List α) (s s' : Trie α)
    (h : Path (build variants) u s) (h' : Path (build variants) u s') : s = s' := by
  rw [path_iff_find _ (build_distinct variants)] at h h'
  rw [h] at h'; exact Option.some.inj h'

/-- C27: the node reached by a word has the length of the word as its depth. -/
theorem C27_depth (variants : List (List α)) (u : List α) (s : Trie α) (h : Path (build variants) u s) :
    s.depth = u.length := by
  have := path_depth h (build_deep variants).1
  rw [(build_deep variants).2] at this; omega

/-- C27: which nodes are final: a word ends in a final node exactly if it is a variant and no variant earlier
in the list has it as a prefix. -/
theorem C27_final (variants : List (List α)) (u : List α) (hu : u ≠ []) :
    (∃ s, Path (build variants) u s ∧ s.final = true) ↔
      ∃ pre post, variants = pre ++ u :: post ∧ ∀ v ∈ pre, ¬ u <+: v := by
  have h := flag_foldl variants (.node 0 false []) u
  have hnone : flag (.node 0 false [] : Trie α) u = none := by
    cases u with
    | nil => exact absurd rfl hu
    | cons x u => rw [flag_cons]; rfl
  rw [hnone] at h
  rw [← firstIs_iff]
  simp only [path_iff_find _ (build_distinct variants)]
  by_cases hv : ∃ v ∈ variants, u <+: v
  · rw [if_pos hv] at h
    unfold flag at h
    rw [Option.map_eq_some_iff] at h
    obtain ⟨s, hs, hf⟩ := h
    constructor
    · rintro ⟨s', hs', hf'⟩
      rw [show find (build variants) u = some s from hs] at hs'
      rw [← hf, Option.some.inj hs', hf']
    · intro h; exact ⟨s, hs, by rw [hf, h]⟩
  · rw [if_neg hv] at h
    constructor
    · rintro ⟨s, hs, _⟩
      unfold flag at h
      rw [show find (variants.foldl (fun t w => insert w t) (.node 0 false [])) u = some s from hs] at h
      simp at h
    · intro hf
      rw [firstIs_iff] at hf
      obtain ⟨pre, post, rfl, _⟩ := hf
      exact absurd ⟨u, by simp, List.prefix_refl u⟩ hv

/-- C27 for logs in which no variant is a proper prefix of another: the final nodes are exactly the variants. -/
theorem C27_final_prefix_free (variants : List (List α)) (hpf : ∀ u ∈ variants, ∀ v ∈ variants, u <+: v → u = v)
    (u : List α) (hu : u ≠ []) :
    (∃ s, Path (build variants) u s ∧ s.final = true) ↔ u ∈ variants := by
  rw [C27_final variants u hu]
  constructor
  · rintro ⟨pre, post, rfl, _⟩; simp
  · intro h
    obtain ⟨pre, post, h1, h2⟩ := List.eq_append_cons_of_mem h
    refine ⟨pre, post, h1, fun v hv hp => h2 ?_⟩
    have := hpf u h v (by rw [h1]; simp [hv]) hp
    rw [this]; exact hv

/-- C27, refuted in general: the log with the variants `⟨a, b⟩` and `⟨a⟩` gives a trie in which `⟨a⟩` does not end
in a final node. -/
theorem C27_prefix_refuted : ∃ (variants : List (List Nat)) (u : List Nat), u ∈ variants ∧ u ≠ [] ∧
    ¬ ∃ s, Path (build variants) u s ∧ s.final = true := by
  refine ⟨[[0, 1], [0]], [0], by simp, by simp, ?_⟩
  rw [C27_final _ _ (by simp)]
  rintro ⟨pre, post, h1, h2⟩
  cases pre with
  | nil => simp at h1
  | cons p pre => simp at h1; exact h2 p (by simp) (by rw [← h1.1]; exact ⟨[1], rfl⟩)

example : ∀ u ∈ [[0, 1], [0, 2]], ∀ v ∈ [[0, 1], [0, 2]], u <+: v → u = v := by decide
end
end Verif
