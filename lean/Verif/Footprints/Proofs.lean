import Verif.Footprints.Model
import Verif.Footprints.Spec
/-
The footprints of composed languages, and exactness of the footprints of process trees.
-/
namespace Verif
namespace Foot
open Lang
variable {α : Type}

/-! ### Directly-follows pairs of concatenated and interleaved traces -/

theorem follows_append {u v : List α} {a b : α} :
    Follows (u ++ v) a b ↔ Follows u a b ∨ Follows v a b ∨ ((∃ x, u = x ++ [a]) ∧ ∃ y, v = b :: y) := by
  constructor
  · rintro ⟨x, y, h⟩
    rcases List.append_eq_append_iff.1 h with ⟨z, h1, h2⟩ | ⟨z, h1, h2⟩
    · -- x = u ++ z, v = z ++ a :: b :: y
      exact .inr (.inl ⟨z, y, h2⟩)
    · -- u = x ++ z, a :: b :: y = z ++ v
      cases z with
      | nil => simp at h2; exact .inr (.inl ⟨[], y, h2.symm⟩)
      | cons c z =>
        simp only [List.cons_append, List.cons.injEq] at h2
        obtain ⟨rfl, h2⟩ := h2
        cases z with
        | nil => simp at h2; exact .inr (.inr ⟨⟨x, h1⟩, ⟨y, h2.symm⟩⟩)
        | cons d z =>
          simp only [List.cons_append, List.cons.injEq] at h2
          obtain ⟨rfl, h2⟩ := h2
          exact .inl ⟨x, z, h1⟩
  · rintro (⟨x, y, rfl⟩ | ⟨x, y, rfl⟩ | ⟨⟨x, rfl⟩, ⟨y, rfl⟩⟩)
    · exact ⟨x, y ++ v, by simp⟩
    · exact ⟨u ++ x, y, by simp⟩
    · exact ⟨x, y, by simp⟩

theorem not_follows_nil {a b : α} : ¬ Follows ([] : List α) a b := by rintro ⟨u, v, h⟩; simp at h

theorem follows_cons {c a b : α} {w : List α} : Follows (c :: w) a b ↔ (c = a ∧ ∃ y, w = b :: y) ∨ Follows w a b := by
  have := follows_append (u := [c]) (v := w) (a := a) (b := b)
  rw [List.singleton_append] at this
  rw [this]
  constructor
  · rintro (⟨x, y, h⟩ | h | ⟨⟨x, h⟩, h'⟩)
    · have := congrArg List.length h; simp at this; omega
    · exact .inr h
    · cases x with
      | nil => simp at h; exact .inl ⟨h, h'⟩
      | cons d x => simp at h
  · rintro (⟨rfl, h⟩ | h)
    · exact .inr (.inr ⟨⟨[], rfl⟩, h⟩)
    · exact .inr (.inl h)

theorem shuffle_follows {u v w : List α} (h : Shuffle u v w) {a b : α} (hf : Follows w a b) :
    Follows u a b ∨ Follows v a b ∨ (a ∈ u ∧ b ∈ v) ∨ (a ∈ v ∧ b ∈ u) := by
  have head : ∀ {u v w : List α}, Shuffle u v w → ∀ b y, w = b :: y → (∃ u', u = b :: u') ∨ (∃ v', v = b :: v') := by
    intro u v w h b y hw
    cases h with
    | nil => cases hw
    | left h => cases hw; exact .inl ⟨_, rfl⟩
    | right h => cases hw; exact .inr ⟨_, rfl⟩
  induction h with
  | nil => exact (not_follows_nil hf).elim
  | @left c u v w h ih =>
    rcases follows_cons.1 hf with ⟨rfl, y, hy⟩ | hf
    · rcases head h b y hy with ⟨u', rfl⟩ | ⟨v', rfl⟩
      · exact .inl ⟨[], u', rfl⟩
      · exact .inr (.inr (.inl ⟨List.mem_cons_self, List.mem_cons_self⟩))
    · rcases ih hf with h | h | h | h
      · exact .inl (follows_cons.2 (.inr h))
      · exact .inr (.inl h)
      · exact .inr (.inr (.inl ⟨List.mem_cons_of_mem _ h.1, h.2⟩))
      · exact .inr (.inr (.inr ⟨h.1, List.mem_cons_of_mem _ h.2⟩))
  | @right c u v w h ih =>
    rcases follows_cons.1 hf with ⟨rfl, y, hy⟩ | hf
    · rcases head h b y hy with ⟨u', rfl⟩ | ⟨v', rfl⟩
      · exact .inr (.inr (.inr ⟨List.mem_cons_self, List.mem_cons_self⟩))
      · exact .inr (.inl ⟨[], v', rfl⟩)
    · rcases ih hf with h | h | h | h
      · exact .inl h
      · exact .inr (.inl (follows_cons.2 (.inr h)))
      · exact .inr (.inr (.inl ⟨h.1, List.mem_cons_of_mem _ h.2⟩))
      · exact .inr (.inr (.inr ⟨List.mem_cons_of_mem _ h.1, h.2⟩))

theorem shuffle_prefix (x : List α) {u v w : List α} (h : Shuffle u v w) : Shuffle (x ++ u) v (x ++ w) := by
  induction x with
  | nil => exact h
  | cons a x ih => exact .left ih

theorem shuffle_adjacent (u1 u2 v1 v2 : List α) (a b : α) :
    Shuffle (u1 ++ a :: u2) (v1 ++ b :: v2) (u1 ++ (v1 ++ (a :: b :: (u2 ++ v2)))) := by
  refine shuffle_prefix u1 ?_
  have := shuffle_prefix v1 (u := b :: v2) (v := a :: u2) (w := a :: b :: (u2 ++ v2)) (.right (.left (Shuffle.append u2 v2).symm))
  exact this.symm

/-! ### Concatenation -/

theorem nonempty_cat {L M : Lang α} (hL : ∃ w, L w) (hM : ∃ w, M w) : ∃ w, cat L M w := by
  obtain ⟨u, hu⟩ := hL; obtain ⟨v, hv⟩ := hM; exact ⟨_, u, v, hu, hv, rfl⟩

theorem eps_cat {L M : Lang α} : cat L M [] ↔ L [] ∧ M [] := by
  constructor
  · rintro ⟨u, v, hu, hv, h⟩
    obtain ⟨rfl, rfl⟩ := List.append_eq_nil_iff.1 h.symm
    exact ⟨hu, hv⟩
  · rintro ⟨h1, h2⟩; exact ⟨[], [], h1, h2, rfl⟩

theorem start_cat {L M : Lang α} (hM : ∃ w, M w) (a : α) : Start (cat L M) a ↔ Start L a ∨ (L [] ∧ Start M a) := by
  constructor
  · rintro ⟨w, u, v, hu, hv, h⟩
    cases u with
    | nil => simp at h; subst h; exact .inr ⟨hu, w, hv⟩
    | cons b u => simp only [List.cons_append, List.cons.injEq] at h; obtain ⟨rfl, _⟩ := h; exact .inl ⟨u, hu⟩
  · rintro (⟨w, h⟩ | ⟨h1, w, h2⟩)
    · obtain ⟨v, hv⟩ := hM; exact ⟨w ++ v, _, v, h, hv, rfl⟩
    · exact ⟨w, [], _, h1, h2, rfl⟩

theorem end_cat {L M : Lang α} (hL : ∃ w, L w) (a : α) : End (cat L M) a ↔ End M a ∨ (M [] ∧ End L a) := by
  constructor
  · rintro ⟨w, u, v, hu, hv, h⟩
    cases List.eq_nil_or_concat v with
    | inl hn => subst hn; simp at h; subst h; exact .inr ⟨hv, w, hu⟩
    | inr hc =>
      obtain ⟨v', b, rfl⟩ := hc
      rw [List.concat_eq_append, ← List.append_assoc] at h
      obtain ⟨_, h⟩ := List.append_inj' h rfl
      cases h; exact .inl ⟨v', by simpa using hv⟩
  · rintro (⟨w, h⟩ | ⟨h1, w, h2⟩)
    · obtain ⟨u, hu⟩ := hL; exact ⟨u ++ w, u, _, hu, h, by simp⟩
    · exact ⟨w, _, [], h2, h1, by simp⟩

theorem act_cat {L M : Lang α} (hL : ∃ w, L w) (hM : ∃ w, M w) (a : α) : Act (cat L M) a ↔ Act L a ∨ Act M a := by
  constructor
  · rintro ⟨w, ⟨u, v, hu, hv, rfl⟩, h⟩
    rcases List.mem_append.1 h with h | h
    · exact .inl ⟨u, hu, h⟩
    · exact .inr ⟨v, hv, h⟩
  · obtain ⟨u, hu⟩ := hL; obtain ⟨v, hv⟩ := hM
    rintro (⟨w, h, ha⟩ | ⟨w, h, ha⟩)
    · exact ⟨_, ⟨w, v, h, hv, rfl⟩, List.mem_append_left _ ha⟩
    · exact ⟨_, ⟨u, w, hu, h, rfl⟩, List.mem_append_right _ ha⟩

theorem df_cat {L M : Lang α} (hL : ∃ w, L w) (hM : ∃ w, M w) (a b : α) :
    DF (cat L M) a b ↔ DF L a b ∨ DF M a b ∨ (End L a ∧ Start M b) := by
  constructor
  · rintro ⟨w, ⟨u, v, hu, hv, rfl⟩, h⟩
    rcases follows_append.1 h with h | h | ⟨⟨x, rfl⟩, y, rfl⟩
    · exact .inl ⟨u, hu, h⟩
    · exact .inr (.inl ⟨v, hv, h⟩)
    · exact .inr (.inr ⟨⟨x, hu⟩, y, hv⟩)
  · obtain ⟨u, hu⟩ := hL; obtain ⟨v, hv⟩ := hM
    rintro (⟨w, h, ha⟩ | ⟨w, h, ha⟩ | ⟨⟨x, hx⟩, y, hy⟩)
    · exact ⟨_, ⟨w, v, h, hv, rfl⟩, follows_append.2 (.inl ha)⟩
    · exact ⟨_, ⟨u, w, hu, h, rfl⟩, follows_append.2 (.inr (.inl ha))⟩
    · exact ⟨_, ⟨_, _, hx, hy, rfl⟩, follows_append.2 (.inr (.inr ⟨⟨x, rfl⟩, y, rfl⟩))⟩

theorem always_cat {L M : Lang α} (hL : ∃ w, L w) (hM : ∃ w, M w) (a : α) : Always (cat L M) a ↔ Always L a ∨ Always M a := by
  constructor
  · intro h
    apply Classical.byContradiction
    intro hn
    rw [not_or] at hn
    obtain ⟨h1, h2⟩ := hn
    simp only [Always, Classical.not_forall] at h1 h2
    obtain ⟨u, hu, hau⟩ := h1
    obtain ⟨v, hv, hav⟩ := h2
    rcases List.mem_append.1 (h _ ⟨u, v, hu, hv, rfl⟩) with h | h
    · exact hau h
    · exact hav h
  · rintro (h | h) w ⟨u, v, hu, hv, rfl⟩
    · exact List.mem_append_left _ (h u hu)
    · exact List.mem_append_right _ (h v hv)

/-! ### Interleaving -/

theorem nonempty_shuf {L M : Lang α} (hL : ∃ w, L w) (hM : ∃ w, M w) : ∃ w, shuf L M w := by
  obtain ⟨u, hu⟩ := hL; obtain ⟨v, hv⟩ := hM; exact ⟨_, u, v, hu, hv, Shuffle.append u v⟩

theorem eps_shuf {L M : Lang α} : shuf L M [] ↔ L [] ∧ M [] := by
  constructor
  · rintro ⟨u, v, hu, hv, h⟩
    cases h; exact ⟨hu, hv⟩
  · rintro ⟨h1, h2⟩; exact ⟨[], [], h1, h2, .nil⟩

theorem start_shuf {L M : Lang α} (hL : ∃ w, L w) (hM : ∃ w, M w) (a : α) : Start (shuf L M) a ↔ Start L a ∨ Start M a := by
  constructor
  · rintro ⟨w, u, v, hu, hv, h⟩
    cases h with
    | left h => exact .inl ⟨_, hu⟩
    | right h => exact .inr ⟨_, hv⟩
  · obtain ⟨u, hu⟩ := hL; obtain ⟨v, hv⟩ := hM
    rintro (⟨w, h⟩ | ⟨w, h⟩)
    · exact ⟨w ++ v, _, v, h, hv, Shuffle.append _ _⟩
    · exact ⟨w ++ u, u, _, hu, h, (Shuffle.append _ _).symm⟩

theorem shuffle_end {u v w : List α} (h : Shuffle u v w) (a : α) (x : List α) (hw : w = x ++ [a]) :
    (∃ y, u = y ++ [a]) ∨ ∃ y, v = y ++ [a] := by
  induction h generalizing x with
  | nil => simp at hw
  | @left c u v w h ih =>
    cases x with
    | nil =>
      simp at hw
      obtain ⟨rfl, rfl⟩ := hw
      cases h; exact .inl ⟨[], rfl⟩
    | cons d x =>
      simp only [List.cons_append, List.cons.injEq] at hw
      rcases ih x hw.2 with ⟨y, rfl⟩ | h
      · exact .inl ⟨c :: y, rfl⟩
      · exact .inr h
  | @right c u v w h ih =>
    cases x with
    | nil =>
      simp at hw
      obtain ⟨rfl, rfl⟩ := hw
      cases h; exact .inr ⟨[], rfl⟩
    | cons d x =>
      simp only [List.cons_append, List.cons.injEq] at hw
      rcases ih x hw.2 with h | ⟨y, rfl⟩
      · exact .inl h
      · exact .inr ⟨c :: y, rfl⟩

theorem end_shuf {L M : Lang α} (hL : ∃ w, L w) (hM : ∃ w, M w) (a : α) : End (shuf L M) a ↔ End L a ∨ End M a := by
  constructor
  · rintro ⟨w, u, v, hu, hv, h⟩
    rcases shuffle_end h a w rfl with ⟨y, rfl⟩ | ⟨y, rfl⟩
    · exact .inl ⟨y, hu⟩
    · exact .inr ⟨y, hv⟩
  · obtain ⟨u, hu⟩ := hL; obtain ⟨v, hv⟩ := hM
    rintro (⟨w, h⟩ | ⟨w, h⟩)
    · exact ⟨v ++ w, _, v, h, hv, by rw [List.append_assoc]; exact (Shuffle.append _ _).symm⟩
    · exact ⟨u ++ w, u, _, hu, h, by rw [List.append_assoc]; exact Shuffle.append _ _⟩

theorem act_shuf {L M : Lang α} (hL : ∃ w, L w) (hM : ∃ w, M w) (a : α) : Act (shuf L M) a ↔ Act L a ∨ Act M a := by
  constructor
  · rintro ⟨w, ⟨u, v, hu, hv, hs⟩, h⟩
    rcases (hs.mem a).1 h with h | h
    · exact .inl ⟨u, hu, h⟩
    · exact .inr ⟨v, hv, h⟩
  · obtain ⟨u, hu⟩ := hL; obtain ⟨v, hv⟩ := hM
    rintro (⟨w, h, ha⟩ | ⟨w, h, ha⟩)
    · exact ⟨_, ⟨w, v, h, hv, Shuffle.append _ _⟩, List.mem_append_left _ ha⟩
    · exact ⟨_, ⟨u, w, hu, h, Shuffle.append _ _⟩, List.mem_append_right _ ha⟩

theorem df_shuf {L M : Lang α} (hL : ∃ w, L w) (hM : ∃ w, M w) (a b : α) :
    DF (shuf L M) a b ↔ DF L a b ∨ DF M a b ∨ (Act L a ∧ Act M b) ∨ (Act M a ∧ Act L b) := by
  constructor
  · rintro ⟨w, ⟨u, v, hu, hv, hs⟩, h⟩
    rcases shuffle_follows hs h with h | h | h | h
    · exact .inl ⟨u, hu, h⟩
    · exact .inr (.inl ⟨v, hv, h⟩)
    · exact .inr (.inr (.inl ⟨⟨u, hu, h.1⟩, ⟨v, hv, h.2⟩⟩))
    · exact .inr (.inr (.inr ⟨⟨v, hv, h.1⟩, ⟨u, hu, h.2⟩⟩))
  · obtain ⟨u, hu⟩ := hL; obtain ⟨v, hv⟩ := hM
    rintro (⟨w, h, ha⟩ | ⟨w, h, ha⟩ | ⟨⟨x, hx, ha⟩, y, hy, hb⟩ | ⟨⟨x, hx, ha⟩, y, hy, hb⟩)
    · exact ⟨_, ⟨w, v, h, hv, Shuffle.append _ _⟩, follows_append.2 (.inl ha)⟩
    · exact ⟨_, ⟨u, w, hu, h, Shuffle.append _ _⟩, follows_append.2 (.inr (.inl ha))⟩
    · obtain ⟨u1, u2, rfl⟩ := List.append_of_mem ha
      obtain ⟨v1, v2, rfl⟩ := List.append_of_mem hb
      exact ⟨_, ⟨_, _, hx, hy, shuffle_adjacent u1 u2 v1 v2 a b⟩, u1 ++ v1, u2 ++ v2, by simp⟩
    · obtain ⟨u1, u2, rfl⟩ := List.append_of_mem ha
      obtain ⟨v1, v2, rfl⟩ := List.append_of_mem hb
      exact ⟨_, ⟨_, _, hy, hx, (shuffle_adjacent u1 u2 v1 v2 a b).symm⟩, u1 ++ v1, u2 ++ v2, by simp⟩

theorem always_shuf {L M : Lang α} (hL : ∃ w, L w) (hM : ∃ w, M w) (a : α) : Always (shuf L M) a ↔ Always L a ∨ Always M a := by
  constructor
  · intro h
    refine (always_cat hL hM a).1 ?_
    rintro w ⟨u, v, hu, hv, rfl⟩
    exact h _ ⟨u, v, hu, hv, Shuffle.append _ _⟩
  · rintro (h | h) w ⟨u, v, hu, hv, hs⟩
    · exact (hs.mem a).2 (.inl (h u hu))
    · exact (hs.mem a).2 (.inr (h v hv))

/-! ### Loops -/

theorem eps_loop {D R : Lang α} : loopL D [R] [] ↔ D [] := by
  constructor
  · intro h
    have key : ∀ w, loopL D [R] w → w = [] → D [] := by
      intro w h hw
      cases h with
      | exit hd => exact hw ▸ hd
      | again R' hd hR hr hw' =>
        rw [List.append_eq_nil_iff, List.append_eq_nil_iff] at hw
        obtain ⟨⟨rfl, _⟩, _⟩ := hw
        exact hd
    exact key _ h rfl
  · exact fun h => .exit h

theorem loop_again {D R : Lang α} {d r w : List α} (hd : D d) (hr : R r) (hw : loopL D [R] w) : loopL D [R] (d ++ r ++ w) :=
  .again R hd (List.mem_singleton.2 rfl) hr hw

theorem nonempty_loop {D R : Lang α} (hD : ∃ w, D w) : ∃ w, loopL D [R] w := by
  obtain ⟨d, hd⟩ := hD; exact ⟨d, .exit hd⟩

theorem start_loop {D R : Lang α} (hD : ∃ w, D w) (hR : ∃ w, R w) (a : α) : Start (loopL D [R]) a ↔ Start D a ∨ (D [] ∧ Start R a) := by
  constructor
  · rintro ⟨w, h⟩
    generalize hx : a :: w = x at h
    induction h generalizing w with
    | exit hd => exact .inl ⟨w, hx ▸ hd⟩
    | @again d r w' R' hd hR' hr hw ih =>
      cases List.mem_singleton.1 hR'
      cases d with
      | cons b d => simp at hx; obtain ⟨rfl, _⟩ := hx; exact .inl ⟨d, hd⟩
      | nil =>
        cases r with
        | cons b r => simp at hx; obtain ⟨rfl, _⟩ := hx; exact .inr ⟨hd, r, hr⟩
        | nil => exact ih w (by simpa using hx)
  · obtain ⟨r, hr⟩ := hR; obtain ⟨d', hd'⟩ := hD
    rintro (⟨w, h⟩ | ⟨h0, w, h⟩)
    · exact ⟨w, .exit h⟩
    · exact ⟨w ++ d', by simpa using loop_again h0 h (.exit hd')⟩

theorem end_loop {D R : Lang α} (hD : ∃ w, D w) (a : α) : End (loopL D [R]) a ↔ End D a ∨ (D [] ∧ End R a) := by
  constructor
  · rintro ⟨w, h⟩
    generalize hx : w ++ [a] = x at h
    induction h generalizing w with
    | exit hd => exact .inl ⟨w, hx ▸ hd⟩
    | @again d r w' R' hd hR' hr hw ih =>
      cases List.mem_singleton.1 hR'
      rcases List.eq_nil_or_concat w' with rfl | ⟨v, b, rfl⟩
      · have h0 : D [] := eps_loop.1 hw
        rw [List.append_nil] at hx
        rcases List.eq_nil_or_concat r with rfl | ⟨v, b, rfl⟩
        · rw [List.append_nil] at hx; exact .inl ⟨w, hx ▸ hd⟩
        · rw [List.concat_eq_append, ← List.append_assoc] at hx
          have := (List.append_inj' hx rfl).2
          cases this
          exact .inr ⟨h0, v, by simpa using hr⟩
      · rw [List.concat_eq_append, ← List.append_assoc] at hx
        have := (List.append_inj' hx rfl).2
        cases this
        exact ih v (by simp)
  · obtain ⟨d', hd'⟩ := hD
    rintro (⟨w, h⟩ | ⟨h0, w, h⟩)
    · exact ⟨w, .exit h⟩
    · exact ⟨d' ++ w, by simpa using loop_again hd' h (.exit h0)⟩

theorem act_loop {D R : Lang α} (hD : ∃ w, D w) (a : α) : Act (loopL D [R]) a ↔ Act D a ∨ Act R a := by
  constructor
  · rintro ⟨w, h, ha⟩
    induction h with
    | exit hd => exact .inl ⟨_, hd, ha⟩
    | @again d r w' R' hd hR' hr hw ih =>
      cases List.mem_singleton.1 hR'
      rcases List.mem_append.1 ha with ha | ha
      · rcases List.mem_append.1 ha with ha | ha
        · exact .inl ⟨_, hd, ha⟩
        · exact .inr ⟨_, hr, ha⟩
      · exact ih ha
  · obtain ⟨d', hd'⟩ := hD
    rintro (⟨w, h, ha⟩ | ⟨w, h, ha⟩)
    · exact ⟨w, .exit h, ha⟩
    · exact ⟨_, loop_again hd' h (.exit hd'), by simp [ha]⟩

theorem always_loop {D R : Lang α} (a : α) : Always (loopL D [R]) a ↔ Always D a := by
  constructor
  · intro h w hw; exact h w (.exit hw)
  · intro h w hw
    cases hw with
    | exit hd => exact h _ hd
    | again R' hd _ _ _ => simp [h _ hd]

theorem df_loop {D R : Lang α} (hD : ∃ w, D w) (hR : ∃ w, R w) (a b : α) :
    DF (loopL D [R]) a b ↔ DF D a b ∨ DF R a b ∨ (End D a ∧ Start R b) ∨ (End R a ∧ Start D b) ∨
      (D [] ∧ End R a ∧ Start R b) ∨ (R [] ∧ End D a ∧ Start D b) := by
  constructor
  · rintro ⟨w, h, hf⟩
    induction h with
    | exit hd => exact .inl ⟨_, hd, hf⟩
    | @again d r w' R' hd hR' hr hw ih =>
      cases List.mem_singleton.1 hR'
      rcases follows_append.1 hf with h | h | ⟨⟨x, hx⟩, y, rfl⟩
      · rcases follows_append.1 h with h | h | ⟨⟨x, rfl⟩, y, rfl⟩
        · exact .inl ⟨d, hd, h⟩
        · exact .inr (.inl ⟨r, hr, h⟩)
        · exact .inr (.inr (.inl ⟨⟨x, hd⟩, y, hr⟩))
      · exact ih h
      · have hs := (start_loop hD hR b).1 ⟨y, hw⟩
        rcases List.eq_nil_or_concat r with rfl | ⟨v, c, rfl⟩
        · rw [List.append_nil] at hx
          have he : End D a := ⟨x, hx ▸ hd⟩
          rcases hs with hs | hs
          · exact .inr (.inr (.inr (.inr (.inr ⟨hr, he, hs⟩))))
          · exact .inr (.inr (.inl ⟨he, hs.2⟩))
        · rw [List.concat_eq_append, ← List.append_assoc] at hx
          have := (List.append_inj' hx rfl).2
          cases this
          have he : End R a := ⟨v, by simpa using hr⟩
          rcases hs with hs | hs
          · exact .inr (.inr (.inr (.inl ⟨he, hs⟩)))
          · exact .inr (.inr (.inr (.inr (.inl ⟨hs.1, he, hs.2⟩))))
  · obtain ⟨d0, hd0⟩ := hD; obtain ⟨r0, hr0⟩ := hR
    rintro (⟨w, h, hf⟩ | ⟨w, h, hf⟩ | ⟨⟨x, hx⟩, y, hy⟩ | ⟨⟨x, hx⟩, y, hy⟩ | ⟨h0, ⟨x, hx⟩, y, hy⟩ | ⟨h0, ⟨x, hx⟩, y, hy⟩)
    · exact ⟨w, .exit h, hf⟩
    · exact ⟨_, loop_again hd0 h (.exit hd0), follows_append.2 (.inl (follows_append.2 (.inr (.inl hf))))⟩
    · exact ⟨_, loop_again hx hy (.exit hd0), x, y ++ d0, by simp⟩
    · exact ⟨_, loop_again hd0 hx (.exit hy), d0 ++ x, y, by simp⟩
    · exact ⟨_, loop_again h0 hx (loop_again h0 hy (.exit hd0)), x, y ++ d0, by simp⟩
    · exact ⟨_, loop_again hx h0 (.exit hy), x, y, by simp⟩

end Foot
end Verif
