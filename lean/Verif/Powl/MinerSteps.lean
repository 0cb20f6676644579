import Verif.Inductive.Steps
import Verif.Powl.Miner
/-
C50: every cut and every fall-through of the POWL discovery splits the log correctly and makes it smaller.
-/
set_option linter.unusedSectionVars false
namespace Verif.PIM
open Verif Dict Counter Dfg IM Lang Powl BinRel
variable {α : Type} [DecidableEq α]

/-! ### eventually follows -/

theorem efTrace_iff (a b : α) (t : List α) : efTrace a b t = true ↔ [a, b].Sublist t := by
  induction t with
  | nil => simp [efTrace]
  | cons x t ih =>
    simp only [efTrace, Bool.or_eq_true, Bool.and_eq_true, decide_eq_true_eq, ih]
    constructor
    · rintro (⟨rfl, h⟩ | h)
      · exact List.Sublist.cons_cons _ (List.singleton_sublist.2 h)
      · exact List.Sublist.cons _ h
    · intro h
      cases h with
      | cons _ h => exact .inr h
      | cons_cons _ h => exact .inl ⟨rfl, List.singleton_sublist.1 h⟩

theorem efg_iff (L : UVCL α) (a b : α) : efg L a b = true ↔ ∃ t ∈ keys L, [a, b].Sublist t := by
  simp [efg, efTrace_iff]

/-! ### languages of partial orders -/

theorem seqL_po (Ms : List (Lang α)) (off : Nat) (w : List α) (h : seqL Ms w) :
    ∃ es : List (Nat × α), es.map Prod.snd = w ∧ (∀ e ∈ es, off ≤ e.1 ∧ e.1 < off + Ms.length) ∧
      (∀ (k : Nat) (M : Lang α), Ms[k]? = some M → M (proj (off + k) es)) ∧ es.Pairwise fun e f => e.1 ≤ f.1 := by
  induction Ms generalizing off w with
  | nil => exact ⟨[], by simpa [seqL, eps] using h.symm, by simp, by simp, .nil⟩
  | cons M Ms ih =>
    obtain ⟨u, v, hu, hv, rfl⟩ := h
    obtain ⟨es, h1, h2, h3, h4⟩ := ih (off + 1) v hv
    have hp0 : proj off (u.map fun x => (off, x)) = u := by
      simp [proj, List.filter_eq_self.2, Function.comp_def]
    have hp1 : proj off es = [] := by
      unfold proj
      rw [List.filter_eq_nil_iff.2, List.map_nil]
      intro e he
      have := (h2 e he).1
      simp; omega
    have hpk : ∀ k, proj (off + 1 + k) (u.map fun x => (off, x)) = [] := by
      intro k
      unfold proj
      rw [List.filter_eq_nil_iff.2, List.map_nil]
      intro e he
      obtain ⟨x, _, rfl⟩ := List.mem_map.1 he
      simp; omega
    have happ : ∀ k (a b : List (Nat × α)), proj k (a ++ b) = proj k a ++ proj k b := by intro k a b; simp [proj]
    refine ⟨u.map (fun x => (off, x)) ++ es, ?_, ?_, ?_, ?_⟩
    · simp [h1, Function.comp_def]
    · intro e he
      rcases List.mem_append.1 he with he | he
      · obtain ⟨x, _, rfl⟩ := List.mem_map.1 he
        simp only [List.length_cons]; omega
      · have := h2 e he
        simp only [List.length_cons]; omega
    · intro k M' hk
      rw [happ]
      cases k with
      | zero =>
        rw [List.getElem?_cons_zero] at hk; cases hk
        rw [Nat.add_zero, hp0, hp1, List.append_nil]; exact hu
      | succ k =>
        rw [List.getElem?_cons_succ] at hk
        have e : off + (k + 1) = off + 1 + k := by omega
        rw [e, hpk, List.nil_append]; exact h3 k M' hk
    · rw [List.pairwise_append]
      refine ⟨?_, h4, ?_⟩
      · rw [List.pairwise_map]; exact List.pairwise_of_forall (fun _ _ => Nat.le_refl _)
      · intro e he f hf
        obtain ⟨x, _, rfl⟩ := List.mem_map.1 he
        have := (h2 f hf).1
        show off ≤ f.1; omega

theorem shuffle_tag {u v w : List α} (h : Shuffle u v w) (t : Nat) : ∀ es : List (Nat × α), es.map Prod.snd = v → (∀ e ∈ es, e.1 ≠ t) →
    ∃ fs : List (Nat × α), fs.map Prod.snd = w ∧ proj t fs = u ∧ (∀ k, k ≠ t → proj k fs = proj k es) ∧ ∀ e ∈ fs, e.1 = t ∨ ∃ e' ∈ es, e'.1 = e.1 := by
  induction h with
  | nil => intro es he _; simp at he; subst he; exact ⟨[], rfl, rfl, by simp, by simp⟩
  | left h ih =>
    rename_i a u v w
    intro es he hes
    obtain ⟨fs, h1, h2, h3, h4⟩ := ih es he hes
    refine ⟨(t, a) :: fs, by simp [h1], ?_, ?_, ?_⟩
    · simpa [proj] using h2
    · intro k hk
      rw [← h3 k hk]
      simp [proj, Ne.symm hk]
    · intro e hm
      rcases List.mem_cons.1 hm with rfl | hm
      · exact .inl rfl
      · exact h4 e hm
  | right h ih =>
    rename_i a u v w
    intro es he hes
    match es, he with
    | [], he => simp at he
    | x :: es, he =>
      rw [List.map_cons, List.cons.injEq] at he
      obtain ⟨fs, h1, h2, h3, h4⟩ := ih es he.2 fun e h => hes e (by simp [h])
      have hx := hes x (by simp)
      refine ⟨x :: fs, by rw [List.map_cons, h1, he.1], ?_, ?_, ?_⟩
      · simpa [proj, hx] using h2
      · intro k hk
        have := h3 k hk
        unfold proj at this ⊢
        rw [List.filter_cons, List.filter_cons]
        split
        · simp [this]
        · exact this
      · intro e hm
        rcases List.mem_cons.1 hm with rfl | hm
        · exact .inr ⟨e, by simp, rfl⟩
        · rcases h4 e hm with h | ⟨e', h', h''⟩
          · exact .inl h
          · exact .inr ⟨e', by simp [h'], h''⟩

theorem parL_po (Ms : List (Lang α)) (off : Nat) (w : List α) (h : parL Ms w) :
    ∃ es : List (Nat × α), es.map Prod.snd = w ∧ (∀ e ∈ es, off ≤ e.1 ∧ e.1 < off + Ms.length) ∧
      (∀ (k : Nat) (M : Lang α), Ms[k]? = some M → M (proj (off + k) es)) := by
  induction Ms generalizing off w with
  | nil => exact ⟨[], by simpa [parL, eps] using h.symm, by simp, by simp⟩
  | cons M Ms ih =>
    obtain ⟨u, v, hu, hv, hs⟩ := h
    obtain ⟨es, h1, h2, h3⟩ := ih (off + 1) v hv
    obtain ⟨fs, f1, f2, f3, f4⟩ := shuffle_tag hs off es h1 (fun e he => by have := (h2 e he).1; omega)
    refine ⟨fs, f1, ?_, ?_⟩
    · intro e he
      simp only [List.length_cons]
      rcases f4 e he with h | ⟨e', h, h'⟩
      · omega
      · have := h2 e' h; omega
    · intro k M' hk
      cases k with
      | zero =>
        rw [List.getElem?_cons_zero] at hk; cases hk
        rw [Nat.add_zero, f2]; exact hu
      | succ k =>
        rw [List.getElem?_cons_succ] at hk
        have e : off + (k + 1) = off + 1 + k := by omega
        rw [e, f3 _ (by omega)]; exact h3 k M' hk

/-- the relation of a sequence -/
theorem before_seq {n : Nat} {i j : Nat} (h : Before n (fun i j => decide (i < j)) i j) : i < j := by
  induction h with
  | single h => simpa using h.2.2
  | tail _ h ih =>
    have h' := h.2.2
    simp only [decide_eq_true_eq] at h'
    omega

theorem before_none {n : Nat} {i j : Nat} : ¬ Before n (fun _ _ => false) i j := by
  intro h
  induction h with
  | single h => simp [Rel] at h
  | tail _ h => simp [Rel] at h

theorem poL_of_seqL {Ms : List (Lang α)} {w : List α} (h : seqL Ms w) : poL (Before Ms.length fun i j => decide (i < j)) Ms w := by
  obtain ⟨es, h1, h2, h3, h4⟩ := seqL_po Ms 0 w h
  refine ⟨es, h1, fun e he => by have := (h2 e he).2; omega, fun k L hk => by simpa using h3 k L hk, ?_⟩
  intro i j hij
  have := before_seq hij
  refine h4.imp ?_
  rintro e f hle ⟨rfl, rfl⟩; omega

theorem poL_of_parL {Ms : List (Lang α)} {w : List α} (h : parL Ms w) : poL (Before Ms.length fun _ _ => false) Ms w := by
  obtain ⟨es, h1, h2, h3⟩ := parL_po Ms 0 w h
  exact ⟨es, h1, fun e he => by have := (h2 e he).2; omega, fun k L hk => by simpa using h3 k L hk, fun i j hij => absurd hij before_none⟩

/-! ### the order that is copied -/

theorem rel_copy {n : Nat} {E : Edges} (h : isStrictPartialOrder n E = true) (i j : Nat) : Rel n (copyOrder E) i j ↔ Rel n E i j := by
  obtain ⟨hI, hT⟩ := (C23_is_strict_partial_order n E).1 h
  unfold Rel copyOrder
  constructor
  · rintro ⟨h1, h2, h3⟩
    refine ⟨h1, h2, ?_⟩
    split at h3
    · exact h3
    · split at h3
      · simp at h3; exact h3.2
      · cases h3
  · rintro ⟨h1, h2, h3⟩
    refine ⟨h1, h2, ?_⟩
    have hne : i ≠ j := by rintro rfl; exact hI i ⟨h1, h1, h3⟩
    split
    · exact h3
    · rw [if_pos (by omega)]
      have : E j i = false := by
        cases hc : E j i with
        | false => rfl
        | true => exact absurd (hT i j i ⟨h1, h2, h3⟩ ⟨h2, h1, hc⟩) (hI i)
      simp [this, h3]

theorem strict_copy {n : Nat} {E : Edges} (h : isStrictPartialOrder n E = true) : isStrictPartialOrder n (copyOrder E) = true := by
  have e : Rel n (copyOrder E) = Rel n E := by funext i j; exact propext (rel_copy h i j)
  rw [C23_is_strict_partial_order] at h ⊢
  rw [e]; exact h

theorem strict_seq (n : Nat) : isStrictPartialOrder n (fun i j => decide (i < j)) = true := by
  rw [C23_is_strict_partial_order]
  constructor
  · intro i h; simp [Rel] at h
  · rintro i j k ⟨h1, h2, h3⟩ ⟨_, h5, h6⟩
    simp only [decide_eq_true_eq] at h3 h6
    exact ⟨h1, h5, by simp; omega⟩

theorem strict_none (n : Nat) : isStrictPartialOrder n (fun _ _ => false) = true := by
  rw [C23_is_strict_partial_order]
  constructor
  · intro i h; simp [Rel] at h
  · rintro i j k ⟨_, _, h3⟩; simp at h3

/-! ### steps -/

/-- the language of a step, given the languages of the sublogs -/
def pLang : PStep α → List (Lang α) → Lang α
  | .xor _, Ms => xorL Ms
  | .loop _ _, Ms => PT.opLang .loop Ms
  | .po E _, Ms => poL (Before Ms.length E) Ms
  | .error, _ => fun _ => False

/-- the shape of a step -/
def Shape : PStep α → Prop
  | .xor logs => 2 ≤ logs.length
  | .loop _ _ => True
  | .po E logs => logs ≠ [] ∧ isStrictPartialOrder logs.length E = true
  | .error => False

/-- a step splits the log correctly and makes it smaller -/
structure PStepOK (L : UVCL α) (st : PStep α) : Prop where
  fit : ∀ Ms, Fits st.logs Ms → ∀ t ∈ keys L, pLang st Ms t
  cover : ∀ a, Occ L a ↔ ∃ l ∈ st.logs, Occ l a
  disj : st.logs.Pairwise fun l m => ∀ a, Occ l a → ¬ Occ m a
  nodup : ∀ l ∈ st.logs, (keys l).Nodup
  dec : ∀ l ∈ st.logs, Smaller l L
  shape : Shape st

/-- the node for a step of the inductive miner is correct unless the constructor raises -/
theorem ofStep_ok {L : UVCL α} {op : Option Op} {logs : List (UVCL α)} (h : StepOK L op logs) (he : ofStep (.node op logs) ≠ .error) :
    PStepOK L (ofStep (.node op logs)) := by
  have hne : ∀ o, op = some o → logs ≠ [] := fun o ho => h.arity.1 (by simp [ho])
  match op, logs, h, he, hne with
  | some .xor, logs, h, he, hne =>
    simp only [ofStep] at he ⊢
    split at he
    · exact absurd rfl he
    · rename_i hl
      rw [if_neg hl]
      exact ⟨h.fit, h.cover, h.disj, h.nodup, h.dec, by simp only [Shape]; omega⟩
  | some .seq, logs, h, he, hne =>
    exact ⟨fun Ms hM t ht => poL_of_seqL (h.fit Ms hM t ht), h.cover, h.disj, h.nodup, h.dec, hne _ rfl, strict_seq _⟩
  | some .par, logs, h, he, hne =>
    exact ⟨fun Ms hM t ht => poL_of_parL (h.fit Ms hM t ht), h.cover, h.disj, h.nodup, h.dec, hne _ rfl, strict_none _⟩
  | some .loop, [b, r], h, he, hne => exact ⟨h.fit, h.cover, h.disj, h.nodup, h.dec, trivial⟩
  | some .loop, [], h, he, hne => exact absurd rfl (hne _ rfl)
  | some .loop, [_], h, he, hne => exact absurd rfl he
  | some .loop, _ :: _ :: _ :: _, h, he, hne => exact absurd rfl he
  | some .or, _, h, he, hne => exact absurd rfl he
  | some .inter, _, h, he, hne => exact absurd rfl he
  | none, _, h, he, hne => exact absurd rfl he

/-! ### partial order cuts -/

theorem getD_of_getElem? {β : Type} {l : List (List β)} {i : Nat} {g : List β} (h : l[i]? = some g) : l.getD i [] = g := by
  simp [List.getD_eq_getElem?_getD, h]

/-- a partial order cut is correct if no trace violates its order -/
theorem po_ok {L : UVCL α} {gs : List (List α)} (hp : Partn (Occ L) gs) (h2 : 2 ≤ gs.length) {E : Edges}
    (hs : isStrictPartialOrder gs.length E = true)
    (ho : ∀ p q, E p q = true → ∀ a ∈ gs.getD p [], ∀ b ∈ gs.getD q [], efg L b a = false)
    (logs : List (UVCL α)) (hlen : logs.length = gs.length)
    (hkeys : ∀ (i : Nat) (l : UVCL α) (g : List α), logs[i]? = some l → gs[i]? = some g → (keys l).Nodup ∧
      ∀ w, w ∈ keys l ↔ ∃ t ∈ keys L, w = t.filter fun x => decide (x ∈ g)) :
    PStepOK L (.po (copyOrder E) logs) := by
  obtain ⟨sp, hpar⟩ := par_split hp logs hlen hkeys
  have hok := sp.ok hp (by omega) .par hpar
  refine ⟨?_, hok.cover, hok.disj, hok.nodup, hok.dec, ?_, ?_⟩
  · intro Ms hM t ht
    have hg : ∀ a ∈ t, a ∈ gs.getD (cmap gs a) [] ∧ cmap gs a < gs.length := by
      intro a ha
      obtain ⟨g, hg, hag⟩ := (hp.cover a).1 ⟨t, ht, ha⟩
      obtain ⟨i, hi⟩ := List.getElem?_of_mem hg
      have hd := getD_of_getElem? hi
      have := cmap_eq hp (x := i) (a := a) (by rw [hd]; exact hag)
      rw [this, hd]
      exact ⟨hag, (List.getElem?_eq_some_iff.1 hi).1⟩
    have hl : Ms.length = gs.length := by rw [hM.len]; exact hlen
    refine ⟨t.map fun a => (cmap gs a, a), by simp [Function.comp_def], ?_, ?_, ?_⟩
    · intro e he
      obtain ⟨a, ha, rfl⟩ := List.mem_map.1 he
      rw [hl]; exact (hg a ha).2
    · intro k M hk
      have hkl : k < gs.length := by rw [← hl]; exact (List.getElem?_eq_some_iff.1 hk).1
      have hgk := List.getElem?_eq_getElem hkl
      have hlk : k < logs.length := by omega
      have e : proj k (t.map fun a => (cmap gs a, a)) = t.filter fun x => decide (x ∈ gs[k]) := by
        unfold proj
        rw [List.filter_map, List.map_map]
        simp only [Function.comp_def]
        rw [List.map_id']
        apply List.filter_congr
        intro a ha
        obtain ⟨h1, h2⟩ := hg a ha
        have hd := getD_of_getElem? hgk
        rw [Bool.eq_iff_iff]
        simp only [beq_iff_eq, decide_eq_true_eq]
        constructor
        · rintro rfl; rw [hd] at h1; exact h1
        · intro h; exact cmap_eq hp (by rw [hd]; exact h)
      rw [e]
      exact hM.fit k _ M (List.getElem?_eq_getElem hlk) hk _ (((hkeys k _ _ (List.getElem?_eq_getElem hlk) hgk).2 _).2 ⟨t, ht, rfl⟩)
    · intro i j hij
      have hij' : Rel gs.length E i j := by
        rw [hl] at hij
        exact (rel_copy hs i j).1 ((before_of_strict (strict_copy hs) i j).1 hij)
      rw [List.pairwise_map, List.pairwise_iff_forall_sublist]
      rintro a b hab ⟨h1, h2⟩
      have ha : a ∈ t := hab.subset (by simp)
      have hb : b ∈ t := hab.subset (by simp)
      simp only at h1 h2
      have := ho i j hij'.2.2 b (by rw [← h2]; exact (hg b hb).1) a (by rw [← h1]; exact (hg a ha).1)
      rw [(efg_iff L a b).2 ⟨t, ht, hab⟩] at this
      cases this
  · intro e
    rw [e] at hlen; simp at hlen; omega
  · rw [hlen]; exact strict_copy hs

theorem projectGroups_keys {L : UVCL α} {gs : List (List α)} (i : Nat) (l : UVCL α) (g : List α) (hl : (projectGroups L gs)[i]? = some l)
    (hg : gs[i]? = some g) : (keys l).Nodup ∧ ∀ w, w ∈ keys l ↔ ∃ t ∈ keys L, w = t.filter fun x => decide (x ∈ g) := by
  unfold projectGroups at hl
  rw [List.getElem?_map, hg] at hl
  simp only [Option.map_some, Option.some.injEq] at hl
  subst hl
  refine ⟨nodup_foldl _ (fun d b h => nodup_inc h _ _) _ _ (by simp), ?_⟩
  intro w
  rw [keys_foldl _ (fun e k => k = e.1.filter fun x => decide (x ∈ g)) (fun d b k => keys_inc _ _ _ _)]
  simp only [keys_nil, List.not_mem_nil, or_false]
  constructor
  · rintro ⟨e, he, h⟩; exact ⟨e.1, List.mem_map.2 ⟨e, he, rfl⟩, h⟩
  · rintro ⟨t, ht, h⟩
    obtain ⟨e, he, rfl⟩ := List.mem_map.1 ht
    exact ⟨e, he, h⟩

theorem projectPar_keys {L : UVCL α} {gs : List (List α)} (i : Nat) (l : UVCL α) (g : List α) (hl : (projectPar L gs)[i]? = some l)
    (hg : gs[i]? = some g) : (keys l).Nodup ∧ ∀ w, w ∈ keys l ↔ ∃ t ∈ keys L, w = t.filter fun x => decide (x ∈ g) := by
  unfold projectPar at hl
  rw [List.getElem?_map, hg] at hl
  simp only [Option.map_some, Option.some.injEq] at hl
  subst hl
  refine ⟨nodup_foldl _ (fun d b h => nodup_set h _ _) _ _ (by simp), ?_⟩
  intro w
  rw [keys_foldl _ (fun e k => k = e.1.filter fun x => decide (x ∈ g)) (fun d b k => keys_set _ _ _ _)]
  simp only [keys_nil, List.not_mem_nil, or_false]
  constructor
  · rintro ⟨e, he, h⟩; exact ⟨e.1, List.mem_map.2 ⟨e, he, rfl⟩, h⟩
  · rintro ⟨t, ht, h⟩
    obtain ⟨e, he, rfl⟩ := List.mem_map.1 ht
    exact ⟨e, he, h⟩

theorem valid_two {ef : α → α → Bool} {gs : List (List α)} {E : Edges} {s e : List α} (h : isValidOrder ef gs E s e = true) :
    2 ≤ gs.length ∧ isStrictPartialOrder gs.length E = true := by
  unfold isValidOrder at h
  simp only [Bool.and_eq_true, decide_eq_true_eq] at h
  exact ⟨h.1.1.1, h.1.1.2⟩

theorem alphabetOf_mem {env : Env α} (henv : env.Lawful) (L : UVCL α) (a : α) : a ∈ alphabetOf env L ↔ Occ L a := by
  unfold alphabetOf
  rw [(henv.sorted_perm _).mem_iff, vert_iff env henv L]

theorem alphabetOf_nodup {env : Env α} (henv : env.Lawful) (L : UVCL α) : (alphabetOf env L).Nodup :=
  (henv.sorted_perm _).nodup_iff.2 (verts_nodup env henv _)

/-! #### maximal -/

theorem insertCluster_spec (same : α → α → Bool) (node : α) (hr : same node node = true) {V : α → Prop} (gs : List (List α)) (hp : Partn V gs)
    (hn : ¬ V node) (hsame : ∀ g ∈ gs, ∀ r, g.head? = some r → ∀ a ∈ g, same a r = true) :
    Partn (fun a => a = node ∨ V a) (insertCluster same node gs) ∧
    ∀ g ∈ insertCluster same node gs, ∀ r, g.head? = some r → ∀ a ∈ g, same a r = true := by
  induction gs generalizing V with
  | nil =>
    refine ⟨⟨?_, by simp [insertCluster], by simp [insertCluster]⟩, ?_⟩
    · intro a
      have := hp.cover a
      simp only [insertCluster, List.not_mem_nil, false_and, exists_false, iff_false, List.mem_singleton, exists_eq_left] at this ⊢
      simp [this]
    · intro g hg r hgr a ha
      simp only [insertCluster, List.mem_singleton] at hg
      subst hg
      simp at hgr ha; subst hgr; subst ha; exact hr
  | cons c cs ih =>
    cases c with
    | nil => exact absurd rfl (hp.ne [] (by simp))
    | cons r c =>
      have hd := List.pairwise_cons.1 hp.disj
      rw [insertCluster]
      split
      · rename_i hs
        refine ⟨⟨?_, ?_, ?_⟩, ?_⟩
        · intro a
          rw [hp.cover a]
          simp only [List.mem_cons, exists_eq_or_imp, List.mem_append, List.not_mem_nil, or_false]
          constructor
          · rintro (rfl | (rfl | h) | h)
            · exact .inl (.inr (.inr rfl))
            · exact .inl (.inl rfl)
            · exact .inl (.inr (.inl h))
            · exact .inr h
          · rintro ((rfl | h | rfl) | h)
            · exact .inr (.inl (.inl rfl))
            · exact .inr (.inl (.inr h))
            · exact .inl rfl
            · exact .inr (.inr h)
        · rw [List.pairwise_cons]
          refine ⟨?_, hd.2⟩
          intro g hg a ha hag
          simp only [List.mem_cons, List.mem_append, List.not_mem_nil, or_false] at ha
          rcases ha with rfl | ha | rfl
          · exact hd.1 g hg a (by simp) hag
          · exact hd.1 g hg a (by simp [ha]) hag
          · exact hn ((hp.cover a).2 ⟨g, by simp [hg], hag⟩)
        · intro g hg
          rcases List.mem_cons.1 hg with rfl | hg
          · simp
          · exact hp.ne g (by simp [hg])
        · intro g hg r' hgr a ha
          rcases List.mem_cons.1 hg with rfl | hg
          · simp at hgr; subst hgr
            simp only [List.mem_cons, List.mem_append, List.not_mem_nil, or_false] at ha
            rcases ha with rfl | ha | rfl
            · exact hsame _ (List.mem_cons_self) _ rfl _ (by simp)
            · exact hsame _ (List.mem_cons_self) _ rfl _ (by simp [ha])
            · exact hs
          · exact hsame g (by simp [hg]) r' hgr a ha
      · -- the rest of the clusters is a partition of its own elements
        have hp' : Partn (fun a => ∃ g ∈ cs, a ∈ g) cs := ⟨fun _ => Iff.rfl, hd.2, fun g hg => hp.ne g (by simp [hg])⟩
        obtain ⟨i1, i2⟩ := ih hp' (fun ⟨g, hg, h⟩ => hn ((hp.cover node).2 ⟨g, by simp [hg], h⟩)) (fun g hg => hsame g (by simp [hg]))
        refine ⟨⟨?_, ?_, ?_⟩, ?_⟩
        · intro a
          rw [hp.cover a]
          have := i1.cover a
          simp only [List.mem_cons, exists_eq_or_imp] at this ⊢
          rw [← this]
          constructor
          · rintro (h | h | h)
            · exact .inr (.inl h)
            · exact .inl h
            · exact .inr (.inr h)
          · rintro (h | h | h)
            · exact .inr (.inl h)
            · exact .inl h
            · exact .inr (.inr h)
        · rw [List.pairwise_cons]
          refine ⟨?_, i1.disj⟩
          intro g hg a ha hag
          rcases (i1.cover a).2 ⟨g, hg, hag⟩ with rfl | ⟨g', hg', h'⟩
          · exact hn ((hp.cover a).2 ⟨_, List.mem_cons_self, ha⟩)
          · exact hd.1 g' hg' a ha h'
        · intro g hg
          rcases List.mem_cons.1 hg with rfl | hg
          · simp
          · exact i1.ne g hg
        · intro g hg r' hgr a ha
          rcases List.mem_cons.1 hg with rfl | hg
          · exact hsame _ (by simp) r' hgr a ha
          · exact i2 g hg r' hgr a ha

theorem samePos_refl (V : List α) (o : α → α → Bool) (a : α) : samePos V o a a = true := by simp [samePos]

theorem clusters_fold (V : List α) (o : α → α → Bool) (l : List α) (hn : l.Nodup) (gs : List (List α)) {W : α → Prop} (hp : Partn W gs)
    (hW : ∀ a ∈ l, ¬ W a) (hsame : ∀ g ∈ gs, ∀ r, g.head? = some r → ∀ a ∈ g, samePos V o a r = true) :
    Partn (fun a => W a ∨ a ∈ l) (l.foldl (fun cs node => insertCluster (samePos V o) node cs) gs) ∧
    ∀ g ∈ l.foldl (fun cs node => insertCluster (samePos V o) node cs) gs, ∀ r, g.head? = some r → ∀ a ∈ g, samePos V o a r = true := by
  induction l generalizing gs W with
  | nil => exact ⟨hp.congr (by simp), hsame⟩
  | cons x l ih =>
    rw [List.nodup_cons] at hn
    obtain ⟨h1, h2⟩ := insertCluster_spec (samePos V o) x (samePos_refl V o x) gs hp (hW x (by simp)) hsame
    obtain ⟨i1, i2⟩ := ih hn.2 _ h1 (by
      rintro a ha (rfl | h)
      · exact hn.1 ha
      · exact hW a (by simp [ha]) h) h2
    refine ⟨i1.congr ?_, i2⟩
    intro a
    simp only [List.mem_cons]
    constructor
    · rintro ((h | h) | h)
      · exact .inr (.inl h)
      · exact .inl h
      · exact .inr (.inr h)
    · rintro (h | h | h)
      · exact .inl (.inr h)
      · exact .inl (.inl h)
      · exact .inr h

theorem clusters_spec (V : List α) (hn : V.Nodup) (o : α → α → Bool) : Partn (· ∈ V) (clusters V o) ∧
    ∀ g ∈ clusters V o, ∀ r, g.head? = some r → ∀ a ∈ g, samePos V o a r = true := by
  have h0 : Partn (fun _ : α => False) ([] : List (List α)) := ⟨by simp, .nil, by simp⟩
  obtain ⟨h1, h2⟩ := clusters_fold V o V hn [] h0 (by simp) (by simp)
  exact ⟨h1.congr (by simp), h2⟩

theorem maximal_ok {env : Env α} (henv : env.Lawful) {L : UVCL α} {r : List (List α) × Edges} (h : holdsMaximal env L = some r) :
    PStepOK L (.po (copyOrder r.2) (projectGroups L r.1)) := by
  unfold holdsMaximal at h
  simp only [] at h
  split at h
  case isFalse => cases h
  rename_i hv
  simp only [Option.some.injEq] at h
  subst h
  obtain ⟨h2, hs⟩ := valid_two hv
  obtain ⟨c1, c2⟩ := clusters_spec (alphabetOf env L) (alphabetOf_nodup henv L) (initialOrder (efg L))
  have hp : Partn (Occ L) (clusters (alphabetOf env L) (initialOrder (efg L))) := c1.congr fun a => alphabetOf_mem henv L a
  refine po_ok hp h2 hs ?_ _ (by simp [projectGroups]) projectGroups_keys
  intro p q hE a ha b hb
  have key : ∀ p (a : α), a ∈ (clusters (alphabetOf env L) (initialOrder (efg L))).getD p [] →
      (clusters (alphabetOf env L) (initialOrder (efg L))).getD p [] ∈ clusters (alphabetOf env L) (initialOrder (efg L)) := by
    intro p a ha
    have hl := lt_of_mem_getD ha
    rw [getD_of_getElem? (List.getElem?_eq_getElem hl)]
    exact List.getElem_mem hl
  unfold clusterEdge at hE
  split at hE
  case h_2 => cases hE
  rename_i x y hx hy
  have sa := c2 _ (key p a ha) x hx a ha
  have sb := c2 _ (key q b hb) y hy b hb
  unfold samePos at sa sb
  rw [List.all_eq_true] at sa sb
  have ha' : a ∈ alphabetOf env L := (c1.cover a).2 ⟨_, key p a ha, ha⟩
  have hy' : y ∈ alphabetOf env L := (c1.cover y).2 ⟨_, key q b hb, List.mem_of_mem_head? hy⟩
  have e1 := sa y hy'
  have e2 := sb a ha'
  simp only [Bool.and_eq_true, beq_iff_eq] at e1 e2
  have : initialOrder (efg L) a b = true := by rw [e2.1, e1.2]; exact hE
  unfold initialOrder at this
  simp only [Bool.and_eq_true, Bool.not_eq_true'] at this
  exact this.2

/-! #### brute force -/

theorem setPartitions_spec (l : List α) (hn : l.Nodup) : ∀ k, 1 ≤ k → k ≤ l.length → ∀ p ∈ setPartitions l k, Partn (· ∈ l) p := by
  induction l with
  | nil => intro k h1 h2; simp at h2; omega
  | cons e M ih =>
    intro k h1 h2 p hp
    rw [List.nodup_cons] at hn
    rw [setPartitions] at hp
    split at hp
    · simp only [List.mem_singleton] at hp
      subst hp
      exact ⟨by simp, by simp, by simp⟩
    · split at hp
      · simp only [List.mem_singleton] at hp
        subst hp
        exact Partn.singletons _ (List.nodup_cons.2 hn)
      · simp only [List.length_cons] at h2
        rcases List.mem_append.1 hp with hp | hp
        · obtain ⟨q, hq, rfl⟩ := List.mem_map.1 hp
          have i := ih hn.2 (k - 1) (by omega) (by omega) q hq
          refine ⟨?_, ?_, ?_⟩
          · intro a
            have := i.cover a
            simp only [List.mem_cons, exists_eq_or_imp, List.not_mem_nil, or_false]
            rw [this]
          · rw [List.pairwise_cons]
            refine ⟨?_, i.disj⟩
            intro g hg a ha hag
            simp at ha; subst ha
            exact hn.1 ((i.cover a).2 ⟨g, hg, hag⟩)
          · intro g hg
            rcases List.mem_cons.1 hg with rfl | hg
            · simp
            · exact i.ne g hg
        · obtain ⟨q, hq, hp⟩ := List.mem_flatMap.1 hp
          obtain ⟨j, hj, rfl⟩ := List.mem_map.1 hp
          rw [List.mem_range] at hj
          have i := ih hn.2 k h1 (by omega) q hq
          have hperm := perm_modify q j (fun g => e :: g) hj
          refine Partn.perm ?_ hperm.symm
          have i' := i.perm (perm_eraseIdx q j hj)
          have hd := List.pairwise_cons.1 i'.disj
          refine ⟨?_, ?_, ?_⟩
          · intro a
            have := i'.cover a
            simp only [List.mem_cons, exists_eq_or_imp] at this ⊢
            rw [this, or_assoc]
          · rw [List.pairwise_cons]
            refine ⟨?_, hd.2⟩
            intro g hg a ha hag
            rcases List.mem_cons.1 ha with rfl | ha
            · exact hn.1 ((i'.cover a).2 ⟨g, List.mem_cons_of_mem _ hg, hag⟩)
            · exact hd.1 g hg a ha hag
          · intro g hg
            rcases List.mem_cons.1 hg with rfl | hg
            · simp
            · exact i'.ne g (List.mem_cons_of_mem _ hg)

theorem partitions_spec (l : List α) (hn : l.Nodup) : ∀ n, n ≤ l.length → ∀ p ∈ partitions l n, Partn (· ∈ l) p := by
  intro n
  induction n with
  | zero => intro _ p hp; simp [partitions] at hp
  | succ n ih =>
    intro hl p hp
    rw [partitions] at hp
    rcases List.mem_append.1 hp with hp | hp
    · split at hp
      · exact setPartitions_spec l hn (n + 1) (by omega) hl p hp
      · cases hp
    · exact ih (by omega) p hp

theorem brute_ok {env : Env α} (henv : env.Lawful) {L : UVCL α} {r : List (List α) × Edges} (h : holdsBrute env L = some r) :
    PStepOK L (.po (copyOrder r.2) (projectPar L r.1)) := by
  unfold holdsBrute at h
  simp only [] at h
  rw [Option.map_eq_some_iff] at h
  obtain ⟨gs, hf, rfl⟩ := h
  obtain ⟨h2, hs⟩ := valid_two (show isValidOrder _ _ _ _ _ = true from List.find?_some (p := fun gs => isValidOrder (efg L) gs (bruteEdge (efg L) gs) _ _) hf)
  have c1 := partitions_spec _ (alphabetOf_nodup henv L) _ (Nat.le_refl _) gs (List.mem_of_find?_eq_some hf)
  have hp : Partn (Occ L) gs := c1.congr fun a => alphabetOf_mem henv L a
  refine po_ok hp h2 hs ?_ _ (by simp [projectPar]) projectPar_keys
  intro p q hE a ha b hb
  have key : ∀ i j, (allEf (efg L) (gs.getD i []) (gs.getD j []) && noneEf (efg L) (gs.getD j []) (gs.getD i [])) = true →
      a ∈ gs.getD i [] → b ∈ gs.getD j [] → efg L b a = false := by
    intro i j h hai hbj
    simp only [Bool.and_eq_true, noneEf, List.all_eq_true, Bool.not_eq_true'] at h
    exact h.2 b hbj a hai
  unfold bruteEdge at hE
  simp only [] at hE
  split at hE
  · exact key p q hE ha hb
  · split at hE
    · rw [Bool.and_eq_true] at hE
      exact key p q hE.2 ha hb
    · cases hE

theorem poCut_ok {v : Variant} {env : Env α} (henv : env.Lawful) {L : UVCL α} {st : PStep α} (h : poCut v env L = some st) :
    PStepOK L st := by
  unfold poCut at h
  split at h
  · cases h
  · rw [Option.map_eq_some_iff] at h
    obtain ⟨r, hr, rfl⟩ := h
    exact maximal_ok henv hr
  · rw [Option.map_eq_some_iff] at h
    obtain ⟨r, hr, rfl⟩ := h
    exact brute_ok henv hr

end Verif.PIM
