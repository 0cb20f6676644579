import Verif.Inductive.Loop
/-
Inductive miner: every cut and every fall-through splits the log correctly and makes it smaller.
-/
namespace Verif.IM
open Verif Dict Counter Dfg
variable {α : Type} [DecidableEq α]

/-- number of activities -/
def sizeA (L : UVCL α) : Nat := (alphabet (keys L)).length
/-- events that are not the first of their variant -/
def sizeS (L : UVCL α) : Nat := ((keys L).map fun t => t.length - 1).sum
/-- is the empty trace in the log? -/
def sizeE (L : UVCL α) : Nat := if [] ∈ keys L then 1 else 0

/-- the lexicographic order -/
def Smaller (l L : UVCL α) : Prop :=
  sizeA l < sizeA L ∨ (sizeA l = sizeA L ∧ (sizeS l < sizeS L ∨ (sizeS l = sizeS L ∧ sizeE l < sizeE L)))

theorem Smaller.le {l L : UVCL α} (h : Smaller l L) : sizeA l ≤ sizeA L := by
  unfold Smaller at h; omega

theorem smaller_wf : WellFounded (Smaller (α := α)) := by
  have hwf : WellFounded (fun x y : Nat × Nat × Nat =>
      Prod.Lex (· < ·) (Prod.Lex (· < ·) (· < ·)) x y) :=
    (Prod.lex ⟨_, Nat.lt_wfRel.wf⟩ (Prod.lex ⟨_, Nat.lt_wfRel.wf⟩ ⟨_, Nat.lt_wfRel.wf⟩)).wf
  refine Subrelation.wf ?_ (InvImage.wf (fun L : UVCL α => (sizeA L, sizeS L, sizeE L)) hwf)
  intro l L h
  unfold InvImage
  rcases h with h | ⟨h1, h | ⟨h2, h⟩⟩
  · exact Prod.Lex.left _ _ h
  · show Prod.Lex _ _ (sizeA l, sizeS l, sizeE l) (sizeA L, sizeS L, sizeE L)
    rw [h1]; exact Prod.Lex.right _ (Prod.Lex.left _ _ h)
  · show Prod.Lex _ _ (sizeA l, sizeS l, sizeE l) (sizeA L, sizeS L, sizeE L)
    rw [h1, h2]; exact Prod.Lex.right _ (Prod.Lex.right _ h)

theorem mem_alph (L : UVCL α) (a : α) : a ∈ alphabet (keys L) ↔ Occ L a := mem_alphabet _ _

theorem nodup_alph (L : UVCL α) : (alphabet (keys L)).Nodup := nodup_dedup _

theorem sizeA_le {l L : UVCL α} (h : ∀ a, Occ l a → Occ L a) : sizeA l ≤ sizeA L :=
  length_le_of_subset (nodup_alph l) fun a ha => (mem_alph L a).2 (h a ((mem_alph l a).1 ha))

theorem sizeA_lt {l L : UVCL α} (h : ∀ a, Occ l a → Occ L a) (b : α) (hb : Occ L b) (hb' : ¬ Occ l b) : sizeA l < sizeA L := by
  have : (b :: alphabet (keys l)).Nodup := List.nodup_cons.2 ⟨fun hm => hb' ((mem_alph l b).1 hm), nodup_alph l⟩
  have := length_le_of_subset this (m := alphabet (keys L)) (by
    intro a ha
    rcases List.mem_cons.1 ha with rfl | ha
    · exact (mem_alph L a).2 hb
    · exact (mem_alph L a).2 (h a ((mem_alph l a).1 ha)))
  simp only [List.length_cons] at this; unfold sizeA; omega

theorem not_occ_nil (a : α) : ¬ Occ ([] : UVCL α) a := by rintro ⟨t, ht, _⟩; simp at ht

/-- the language of a step: a node with an operator, or a silent leaf -/
def stepLang : Option Op → List (Lang α) → Lang α
  | some o, Ms => PT.opLang o Ms
  | none, _ => Lang.eps

/-- a step splits the log correctly and makes it smaller -/
structure StepOK (L : UVCL α) (op : Option Op) (logs : List (UVCL α)) : Prop where
  fit : ∀ Ms, Fits logs Ms → ∀ t ∈ keys L, stepLang op Ms t
  cover : ∀ a, Occ L a ↔ ∃ l ∈ logs, Occ l a
  disj : logs.Pairwise fun l m => ∀ a, Occ l a → ¬ Occ m a
  nodup : ∀ l ∈ logs, (keys l).Nodup
  dec : ∀ l ∈ logs, Smaller l L
  arity : op.isSome = true ↔ logs ≠ []

theorem Split.ok {L : UVCL α} {gs : List (List α)} {logs : List (UVCL α)} (hs : Split L gs logs) (hp : Partn (Occ L) gs)
    (h1 : 1 < gs.length) (o : Op) (hf : ∀ Ms, Fits logs Ms → ∀ t ∈ keys L, PT.opLang o Ms t) :
    StepOK L (some o) logs := by
  have hocc : ∀ (i : Nat) (l : UVCL α) (g : List α), logs[i]? = some l → gs[i]? = some g → ∀ a, Occ l a → a ∈ g := by
    rintro i l g hl hg a ⟨t, ht, ha⟩
    exact hs.sub i l g hl hg t ht a ha
  have hg : ∀ (i : Nat) (l : UVCL α), logs[i]? = some l → ∃ g, gs[i]? = some g := by
    intro i l hl
    have : i < gs.length := by rw [← hs.len]; exact (List.getElem?_eq_some_iff.1 hl).1
    exact ⟨_, List.getElem?_eq_getElem this⟩
  refine ⟨hf, ?_, ?_, hs.nodup, ?_, ?_⟩
  · intro a
    refine ⟨hs.cover a, ?_⟩
    rintro ⟨l, hl, ha⟩
    obtain ⟨i, hi⟩ := List.getElem?_of_mem hl
    obtain ⟨g, hgi⟩ := hg i l hi
    exact (hp.cover a).2 ⟨g, List.mem_of_getElem? hgi, hocc i l g hi hgi a ha⟩
  · rw [List.pairwise_iff_getElem]
    intro i j hi hj hij a ha ha'
    obtain ⟨g, hgi⟩ := hg i _ (List.getElem?_eq_getElem hi)
    obtain ⟨g', hgj⟩ := hg j _ (List.getElem?_eq_getElem hj)
    have := hp.unique hgi hgj (hocc i _ g (List.getElem?_eq_getElem hi) hgi a ha)
      (hocc j _ g' (List.getElem?_eq_getElem hj) hgj a ha')
    omega
  · intro l hl
    left
    obtain ⟨i, hi⟩ := List.getElem?_of_mem hl
    obtain ⟨g, hgi⟩ := hg i l hi
    -- another group
    let j := if i = 0 then 1 else 0
    have hij : j ≠ i := by simp only [j]; split <;> omega
    have hj : j < gs.length := by simp only [j]; split <;> omega
    obtain ⟨b, hb⟩ := hp.pos (List.getElem_mem hj)
    refine sizeA_lt ?_ b ((hp.cover b).2 ⟨_, List.getElem_mem hj, hb⟩) ?_
    · intro a ha
      exact (hp.cover a).2 ⟨g, List.mem_of_getElem? hgi, hocc i l g hi hgi a ha⟩
    · intro hb'
      exact hij (hp.unique (List.getElem?_eq_getElem hj) hgi hb (hocc i l g hi hgi b hb'))
  · simp only [Option.isSome_some, true_iff]
    intro e
    have := hs.len
    rw [e] at this; simp at this; omega

/-! ### cuts -/

theorem findCut_ok {env : Env α} (henv : env.Lawful) {L : UVCL α} (hsz : (sizeA L : Int) ≤ maxsize) (hne : [] ∉ keys L)
    {st : Step α} (h : findCut env L = some st) : ∃ op logs, st = .node op logs ∧ StepOK L op logs := by
  unfold findCut at h
  simp only [] at h
  split at h
  · rename_i gs hgs
    cases h
    obtain ⟨h1, h2, h3⟩ := holdsXor_spec henv hgs
    obtain ⟨s, f⟩ := xor_ok h1 h3 hne
    exact ⟨_, _, rfl, s.ok h1 h2 .xor f⟩
  · split at h
    · rename_i gs hgs
      cases h
      have hspec : Partn (Occ L) gs ∧ 1 < gs.length ∧ Ordered L gs := by
        split at hgs
        · exact holdsStrict_spec henv hsz hgs
        · exact holdsSeq_ordered henv hgs
      obtain ⟨s, f⟩ := seq_ok hspec.1 hspec.2.2
      exact ⟨_, _, rfl, s.ok hspec.1 hspec.2.1 .seq f⟩
    · split at h
      · rename_i gs hgs
        cases h
        obtain ⟨h1, h2⟩ := holdsPar_spec henv hgs
        obtain ⟨s, f⟩ := par_ok h1
        exact ⟨_, _, rfl, s.ok h1 h2 .par f⟩
      · split at h
        · rename_i gs hgs
          obtain ⟨h1, h2⟩ := holdsLoop_spec henv hgs
          obtain ⟨logs, e, s, f⟩ := loop_ok h1 hne
          rw [e] at h
          cases h
          exact ⟨_, _, rfl, s.ok h1.part h2 .loop f⟩
        · cases h

theorem Partn.occ {L : UVCL α} {gs : List (List α)} (hp : Partn (Occ L) gs) (h : 1 < gs.length) : ∃ a, Occ L a := by
  obtain ⟨a, ha⟩ := hp.pos (List.getElem_mem (show 0 < gs.length by omega))
  exact ⟨a, (hp.cover a).2 ⟨_, List.getElem_mem _, ha⟩⟩

/-- a log with a cut has activities -/
theorem findCut_occ {env : Env α} (henv : env.Lawful) {L : UVCL α} (h : (findCut env L).isSome = true) : ∃ a, Occ L a := by
  unfold findCut at h
  simp only [] at h
  split at h
  · rename_i gs hgs
    obtain ⟨h1, h2, _⟩ := holdsXor_spec henv hgs
    exact h1.occ h2
  · split at h
    · rename_i gs hgs
      split at hgs
      · unfold holdsStrict at hgs
        split at hgs
        · cases hgs
        · rename_i c hc
          obtain ⟨h1, h2, _⟩ := holdsSeq_spec henv hc
          exact h1.occ h2
      · obtain ⟨h1, h2, _⟩ := holdsSeq_spec henv hgs
        exact h1.occ h2
    · split at h
      · rename_i gs hgs
        obtain ⟨h1, h2⟩ := holdsPar_spec henv hgs
        exact h1.occ h2
      · split at h
        · rename_i gs hgs
          obtain ⟨h1, h2⟩ := holdsLoop_spec henv hgs
          exact h1.part.occ h2
        · simp at h

/-! ### empty traces -/

theorem keys_length {κ ν : Type} (d : Dict κ ν) : (keys d).length = d.length := by simp [keys]

theorem emptyTraces_ok {L : UVCL α} (hn : (keys L).Nodup) {st : Step α} (h : emptyTraces L = some st) :
    ∃ op logs, st = .node op logs ∧ StepOK L op logs := by
  unfold emptyTraces at h
  simp only [] at h
  split at h
  case isFalse => cases h
  rename_i hmem
  have hocc : ∀ a, Occ (Dict.del L []) a ↔ Occ L a := by
    intro a
    constructor
    · rintro ⟨t, ht, ha⟩; exact ⟨t, ((keys_del _ _ _).1 ht).2, ha⟩
    · rintro ⟨t, ht, ha⟩
      refine ⟨t, (keys_del _ _ _).2 ⟨?_, ht⟩, ha⟩
      rintro rfl; simp at ha
  split at h
  · rename_i hl
    cases h
    obtain ⟨a, ha⟩ : ∃ a, Occ L a := by
      have hk : 0 < (keys (Dict.del L [])).length := by rw [keys_length]; exact hl
      obtain ⟨t, ht⟩ := List.exists_mem_of_length_pos hk
      have := (keys_del _ _ _).1 ht
      cases t with
      | nil => exact absurd rfl this.1
      | cons a t => exact ⟨a, _, this.2, by simp⟩
    refine ⟨_, _, rfl, ?_, ?_, ?_, ?_, ?_, by simp⟩
    · intro Ms hM t ht
      match Ms, hM with
      | [], hM => have := hM.len; simp at this
      | [_], hM => have := hM.len; simp at this
      | M0 :: M1 :: Ms, hM =>
        simp only [stepLang, PT.opLang]
        by_cases hte : t = []
        · subst hte
          exact ⟨M0, by simp, hM.empty 0 M0 (by simp) (by simp)⟩
        · exact ⟨M1, by simp, hM.fit 1 _ M1 (by simp) (by simp) t ((keys_del _ _ _).2 ⟨hte, ht⟩)⟩
    · intro a
      simp [not_occ_nil, hocc]
    · simp [not_occ_nil]
    · simp only [List.mem_cons, List.not_mem_nil, or_false, forall_eq_or_imp, forall_eq]
      exact ⟨by simp, nodup_del hn _⟩
    · simp only [List.mem_cons, List.not_mem_nil, or_false, forall_eq_or_imp, forall_eq]
      refine ⟨.inl (sizeA_lt (fun a h => absurd h (not_occ_nil a)) a ha (not_occ_nil a)), .inr ⟨?_, .inr ⟨?_, ?_⟩⟩⟩
      · have := sizeA_le (fun a => (hocc a).1)
        have := sizeA_le (fun a => (hocc a).2)
        omega
      · unfold sizeS Dict.del keys
        clear hl hocc ha hmem hn
        induction L with
        | nil => rfl
        | cons e L ih =>
          rw [List.filter_cons]
          by_cases he : e.1 = []
          · rw [if_neg (by simpa using he)]
            simp only [List.map_cons, List.sum_cons, he]
            simpa using ih
          · rw [if_pos (by simpa using he)]
            simp only [List.map_cons, List.sum_cons]
            rw [ih]
      · unfold sizeE
        rw [if_neg (fun h => ((keys_del _ _ _).1 h).1 rfl), if_pos hmem]; omega
  · rename_i hl
    cases h
    have hall : ∀ t ∈ keys L, t = [] := by
      intro t ht
      by_cases hte : t = []
      · exact hte
      · have : t ∈ keys (Dict.del L []) := (keys_del _ _ _).2 ⟨hte, ht⟩
        have := List.length_pos_of_mem this
        rw [keys_length] at this; omega
    refine ⟨_, _, rfl, ?_, ?_, by simp, by simp, by simp, by simp⟩
    · intro Ms _ t ht; exact hall t ht
    · intro a
      simp only [List.not_mem_nil, false_and, exists_false, iff_false]
      rintro ⟨t, ht, ha⟩
      rw [hall t ht] at ha; simp at ha

/-! ### concurrent activities -/

theorem splitOff_ok {L : UVCL α} (c b : α) (hc : Occ L c) (hb : Occ L b) (hbc : b ≠ c) :
    ∃ op logs, splitOff L c = .node op logs ∧ StepOK L op logs := by
  let gs : List (List α) := [[c], (alphabet (keys L)).filter fun x => decide (x ≠ c)]
  have hp : Partn (Occ L) gs := by
    refine ⟨?_, ?_, ?_⟩
    · intro a
      simp only [gs, List.mem_cons, List.not_mem_nil, or_false, exists_eq_or_imp, exists_eq_left, List.mem_filter, mem_alph,
        decide_eq_true_iff]
      by_cases hac : a = c
      · subst hac; simp [hc]
      · simp [hac]
    · simp only [gs, List.pairwise_cons, List.mem_singleton, forall_eq, List.mem_filter, decide_eq_true_iff]
      refine ⟨?_, by simp⟩
      grind
    · simp only [gs, List.mem_cons, List.not_mem_nil, or_false, forall_eq_or_imp, forall_eq]
      refine ⟨by simp, ?_⟩
      intro e
      have : b ∈ (alphabet (keys L)).filter fun x => decide (x ≠ c) := by
        rw [List.mem_filter, mem_alph]; exact ⟨hb, by simpa using hbc⟩
      rw [e] at this; simp at this
  refine ⟨_, _, rfl, ?_⟩
  have hk : ∀ (p : α → Bool) (w : List α),
      (keys (L.foldl (fun d e => inc d (e.1.filter p) e.2) [])).Nodup ∧
      (w ∈ keys (L.foldl (fun d e => inc d (e.1.filter p) e.2) []) ↔ ∃ t ∈ keys L, w = t.filter p) := by
    intro p w
    refine ⟨nodup_foldl _ (fun d b h => nodup_inc h _ _) _ _ (by simp), ?_⟩
    rw [keys_foldl _ (fun e k => k = e.1.filter p) (fun d b k => keys_inc _ _ _ _)]
    simp only [keys_nil, List.not_mem_nil, or_false]
    constructor
    · rintro ⟨e, he, h⟩; exact ⟨e.1, List.mem_map.2 ⟨e, he, rfl⟩, h⟩
    · rintro ⟨t, ht, h⟩
      obtain ⟨e, he, rfl⟩ := List.mem_map.1 ht
      exact ⟨e, he, h⟩
  obtain ⟨s, f⟩ := par_split hp [L.foldl (fun d e => inc d (e.1.filter fun x => decide (x = c)) e.2) [],
    L.foldl (fun d e => inc d (e.1.filter fun x => decide (x ≠ c)) e.2) []] (by simp [gs]) (by
    intro i l g hl hg
    match i with
    | 0 =>
      simp only [gs, List.getElem?_cons_zero, Option.some.injEq] at hl hg
      subst hl; subst hg
      refine ⟨(hk _ []).1, fun w => ?_⟩
      rw [(hk _ w).2]
      simp only [List.mem_singleton]
    | 1 =>
      simp only [gs, List.getElem?_cons_succ, List.getElem?_cons_zero, Option.some.injEq] at hl hg
      subst hl; subst hg
      refine ⟨(hk _ []).1, fun w => ?_⟩
      rw [(hk _ w).2]
      have hfe : ∀ t ∈ keys L, (t.filter fun x => decide (x ≠ c)) =
          t.filter fun x => decide (x ∈ (alphabet (keys L)).filter fun x => decide (x ≠ c)) := by
        intro t ht
        apply List.filter_congr
        intro x hx
        rw [Bool.eq_iff_iff, decide_eq_true_iff, decide_eq_true_iff, List.mem_filter, mem_alph, decide_eq_true_iff]
        exact ⟨fun h => ⟨⟨t, ht, hx⟩, h⟩, fun h => h.2⟩
      constructor
      · rintro ⟨t, ht, rfl⟩; exact ⟨t, ht, hfe t ht⟩
      · rintro ⟨t, ht, rfl⟩; exact ⟨t, ht, (hfe t ht).symm⟩
    | i + 2 => simp [gs] at hg)
  exact s.ok hp (by simp [gs]) .par f

theorem onceCandidate_spec {env : Env α} (henv : env.Lawful) {L : UVCL α} {c : α} (h : onceCandidate env L = some c) :
    Occ L c ∧ ∀ t ∈ keys L, (t.filter fun x => decide (x = c)).length = 1 := by
  unfold onceCandidate at h
  have hm := List.mem_of_mem_head? h
  have key : ∀ (l : List (List α)) (cs : List α), c ∈ l.foldl (fun cs t => cs.filter fun c =>
      decide ((t.filter fun x => decide (x = c)).length = 1)) cs →
      c ∈ cs ∧ ∀ t ∈ l, (t.filter fun x => decide (x = c)).length = 1 := by
    intro l
    induction l with
    | nil => intro cs h; exact ⟨h, by simp⟩
    | cons t l ih =>
      intro cs h
      rw [List.foldl_cons] at h
      obtain ⟨h1, h2⟩ := ih _ h
      rw [List.mem_filter] at h1
      refine ⟨h1.1, ?_⟩
      intro t' ht'
      rcases List.mem_cons.1 ht' with rfl | ht'
      · simpa using h1.2
      · exact h2 t' ht'
  obtain ⟨h1, h2⟩ := key _ _ hm
  rw [(henv.sorted_perm _).mem_iff, mem_alph] at h1
  exact ⟨h1, h2⟩

theorem nodup_all_eq {β : Type} (l : List β) (hn : l.Nodup) (x : β) (h : ∀ y ∈ l, y = x) : l = [] ∨ l = [x] := by
  match l with
  | [] => exact .inl rfl
  | [y] => exact .inr (by rw [h y (by simp)])
  | y :: z :: l =>
    rw [List.nodup_cons] at hn
    exact absurd (by rw [h y (by simp), h z (by simp)]; simp) hn.1

theorem baseCase_none {L : UVCL α} (h : baseCase L = none) : keys L ≠ [] ∧ keys L ≠ [[]] ∧ ∀ a, keys L ≠ [[a]] := by
  unfold baseCase at h
  refine ⟨?_, ?_, ?_⟩
  · intro e; rw [e] at h; simp at h
  · intro e; rw [e] at h; simp at h
  · intro a e; rw [e] at h; simp at h

theorem once_ok {env : Env α} (henv : env.Lawful) {L : UVCL α} (hn : (keys L).Nodup) (hb : baseCase L = none) {c : α}
    (h : onceCandidate env L = some c) : ∃ op logs, splitOff L c = .node op logs ∧ StepOK L op logs := by
  obtain ⟨h1, h2⟩ := onceCandidate_spec henv h
  have hex : ∃ b, Occ L b ∧ b ≠ c := by
    apply Classical.byContradiction
    intro hno
    have hall : ∀ t ∈ keys L, t = [c] := by
      intro t ht
      have hc : ∀ x ∈ t, x = c := by
        intro x hx
        apply Classical.byContradiction
        intro hxc
        exact hno ⟨x, ⟨t, ht, hx⟩, hxc⟩
      have := h2 t ht
      rw [List.filter_eq_self.2 (by intro x hx; simpa using hc x hx)] at this
      match t, this with
      | [x], _ => rw [hc x (by simp)]
    rcases nodup_all_eq (keys L) hn [c] hall with e | e
    · exact (baseCase_none hb).1 e
    · exact (baseCase_none hb).2.2 c e
  obtain ⟨b, hb1, hb2⟩ := hex
  exact splitOff_ok c b h1 hb1 hb2

theorem conc_ok {env : Env α} (henv : env.Lawful) {L : UVCL α} {c : α}
    (h : concCandidate env L = some c) : ∃ op logs, splitOff L c = .node op logs ∧ StepOK L op logs := by
  unfold concCandidate at h
  have hm := henv.pick_mem _ _ h
  rw [List.mem_filter, (henv.sorted_perm _).mem_iff, mem_alph] at hm
  obtain ⟨b, t, ht, hbt⟩ := findCut_occ henv hm.2
  unfold without at ht
  rw [keys_foldl _ (fun e k => k = e.1.filter fun x => decide (x ≠ c)) (fun d b k => keys_set _ _ _ _)] at ht
  simp only [keys_nil, List.not_mem_nil, or_false] at ht
  obtain ⟨e, he, rfl⟩ := ht
  rw [List.mem_filter] at hbt
  exact splitOff_ok c b hm.1 ⟨e.1, List.mem_map.2 ⟨e, he, rfl⟩, hbt.1⟩ (by simpa using hbt.2)

/-! ### tau loops and flower -/

theorem loop_of_segments (D R : Lang α) (hR : R []) (ws : List (List α)) (hne : ws ≠ []) (h : ∀ w ∈ ws, D w) :
    Lang.loopL D [R] ws.flatten := by
  induction ws with
  | nil => exact absurd rfl hne
  | cons w ws ih =>
    cases ws with
    | nil => simp; exact .exit (h w (by simp))
    | cons v ws =>
      rw [List.flatten_cons]
      have := Lang.loopL.again (D := D) (Rs := [R]) R (h w (by simp)) (by simp) hR (ih (by simp) fun x hx => h x (by simp [hx]))
      simpa using this

theorem segLoop_spec (cut : α → α → Bool) (rest : List α) : ∀ (cur : List α) (prev : α), cur ≠ [] →
    (segLoop cut cur prev rest).flatten = cur ++ rest ∧ (∀ w ∈ segLoop cut cur prev rest, w ≠ []) ∧
      segLoop cut cur prev rest ≠ [] := by
  induction rest with
  | nil => intro cur prev h; simp [segLoop, h]
  | cons b rest ih =>
    intro cur prev h
    rw [segLoop]
    split
    · obtain ⟨h1, h2, h3⟩ := ih [b] b (by simp)
      refine ⟨by rw [List.flatten_cons, h1]; simp, ?_, by simp⟩
      intro w hw
      rcases List.mem_cons.1 hw with rfl | hw
      · exact h
      · exact h2 w hw
    · obtain ⟨h1, h2, h3⟩ := ih (cur ++ [b]) b (by simp)
      exact ⟨by rw [h1]; simp, h2, h3⟩

theorem segments_spec (cut : α → α → Bool) (t : List α) (ht : t ≠ []) :
    (segments cut t).flatten = t ∧ (∀ w ∈ segments cut t, w ≠ []) ∧ segments cut t ≠ [] := by
  cases t with
  | nil => exact absurd rfl ht
  | cons a t =>
    rw [segments]
    exact segLoop_spec cut t [a] a (by simp)

theorem sumValues_inc (d : UVCL α) (hn : (keys d).Nodup) (w : List α) (n : Int) : sumValues (inc d w n) = sumValues d + n := by
  have h := total_inc d hn w n (fun _ => true)
  have e : ∀ d : UVCL α, total d (fun _ => true) = sumValues d := by
    intro d; unfold total sumValues; rw [List.filter_eq_self.2 (by simp)]
  rw [e, e] at h
  simpa using h

theorem tauProject_sum (cut : α → α → Bool) (L : UVCL α) (h : ∀ e ∈ L, (segments cut e.1).length = 1) (d : UVCL α)
    (hn : (keys d).Nodup) :
    sumValues (L.foldl (fun d e => (segments cut e.1).foldl (fun d w => inc d w e.2) d) d) = sumValues d + sumValues L ∧
    (keys (L.foldl (fun d e => (segments cut e.1).foldl (fun d w => inc d w e.2) d) d)).Nodup := by
  induction L generalizing d with
  | nil => simp [sumValues, hn]
  | cons e L ih =>
    rw [List.foldl_cons]
    have he := h e (by simp)
    match hs : segments cut e.1, he with
    | [w], _ =>
      simp only [List.foldl_cons, List.foldl_nil]
      obtain ⟨h1, h2⟩ := ih (fun e he => h e (by simp [he])) (inc d w e.2) (nodup_inc hn _ _)
      refine ⟨?_, h2⟩
      rw [h1, sumValues_inc d hn]
      simp [sumValues]; omega

theorem sum_le_of_subset {β : Type} [DecidableEq β] (f : β → Nat) (l m : List β) (hl : l.Nodup) (h : ∀ a ∈ l, a ∈ m) :
    (l.map f).sum ≤ (m.map f).sum := by
  induction l generalizing m with
  | nil => simp
  | cons x l ih =>
    rw [List.nodup_cons] at hl
    have hx := h x (by simp)
    have h1 := ih (m := m.erase x) hl.2 (fun a ha => by
      have hne : a ≠ x := fun e => hl.1 (e ▸ ha)
      exact (List.mem_erase_of_ne hne).2 (h a (by simp [ha])))
    have h2 := ((List.perm_cons_erase hx).map f).sum_nat
    rw [h2]
    simp only [List.map_cons, List.sum_cons]; omega

theorem sum_segments (ws : List (List α)) (h : ∀ w ∈ ws, w ≠ []) :
    (ws.map fun w => w.length - 1).sum + ws.length = ws.flatten.length := by
  induction ws with
  | nil => rfl
  | cons w ws ih =>
    have := ih fun x hx => h x (by simp [hx])
    have := List.length_pos_iff.2 (h w (by simp))
    simp only [List.map_cons, List.sum_cons, List.length_cons, List.flatten_cons, List.length_append]; omega

theorem keys_tauProject (cut : α → α → Bool) (L : UVCL α) (w : List α) :
    w ∈ keys (tauProject cut L) ↔ ∃ t ∈ keys L, w ∈ segments cut t := by
  unfold tauProject
  rw [keys_foldl _ (fun e k => k ∈ segments cut e.1)]
  · simp only [keys_nil, List.not_mem_nil, or_false]
    constructor
    · rintro ⟨e, he, h⟩; exact ⟨e.1, List.mem_map.2 ⟨e, he, rfl⟩, h⟩
    · rintro ⟨t, ht, h⟩
      obtain ⟨e, he, rfl⟩ := List.mem_map.1 ht
      exact ⟨e, he, h⟩
  · intro d e k
    rw [keys_foldl _ (fun w k => k = w) (fun d b k => keys_inc _ _ _ _)]
    simp

theorem sum_lt {β : Type} (f g : β → Nat) (l : List β) (h : ∀ x ∈ l, f x ≤ g x) (x : β) (hx : x ∈ l) (hlt : f x < g x) :
    (l.map f).sum < (l.map g).sum := by
  induction l with
  | nil => simp at hx
  | cons y l ih =>
    have hle : ∀ l : List β, (∀ x ∈ l, f x ≤ g x) → (l.map f).sum ≤ (l.map g).sum := by
      intro l
      induction l with
      | nil => simp
      | cons z l ih =>
        intro h
        have := ih fun x hx => h x (by simp [hx])
        have := h z (by simp)
        simp only [List.map_cons, List.sum_cons]; omega
    simp only [List.map_cons, List.sum_cons]
    rcases List.mem_cons.1 hx with rfl | hx
    · have := hle l fun x hx => h x (by simp [hx]); omega
    · have := ih (fun x hx => h x (by simp [hx])) hx
      have := h y (by simp)
      omega

theorem tauLoop_ok (cut : α → α → Bool) {L : UVCL α} (hne : [] ∉ keys L) {st : Step α}
    (h : tauLoop cut L = some st) : ∃ op logs, st = .node op logs ∧ StepOK L op logs := by
  unfold tauLoop at h
  simp only [] at h
  split at h
  case isFalse => cases h
  rename_i hgt
  cases h
  have hseg : ∀ t ∈ keys L, (segments cut t).flatten = t ∧ (∀ w ∈ segments cut t, w ≠ []) ∧ segments cut t ≠ [] :=
    fun t ht => segments_spec cut t (fun e => hne (e ▸ ht))
  -- some trace is split
  obtain ⟨e0, he0, hlen0⟩ : ∃ e ∈ L, 1 < (segments cut e.1).length := by
    apply Classical.byContradiction
    intro hno
    have hone : ∀ e ∈ L, (segments cut e.1).length = 1 := by
      intro e he
      have h1 := (hseg e.1 (List.mem_map.2 ⟨e, he, rfl⟩)).2.2
      have h1 := List.length_pos_iff.2 h1
      rcases Nat.lt_or_ge 1 (segments cut e.1).length with h2 | h2
      · exact absurd ⟨e, he, h2⟩ hno
      · omega
    have := (tauProject_sum cut L hone [] (by simp)).1
    unfold tauProject at hgt
    rw [this] at hgt
    simp [sumValues] at hgt
  have hnd : (keys (tauProject cut L)).Nodup :=
    nodup_foldl _ (fun d e h => nodup_foldl _ (fun d b h => nodup_inc h _ _) _ _ h) _ _ (by simp)
  have hocc : ∀ a, Occ (tauProject cut L) a ↔ Occ L a := by
    intro a
    constructor
    · rintro ⟨w, hw, ha⟩
      obtain ⟨t, ht, hwt⟩ := (keys_tauProject cut L w).1 hw
      refine ⟨t, ht, ?_⟩
      rw [← (hseg t ht).1]; exact List.mem_flatten.2 ⟨w, hwt, ha⟩
    · rintro ⟨t, ht, ha⟩
      rw [← (hseg t ht).1] at ha
      obtain ⟨w, hwt, ha⟩ := List.mem_flatten.1 ha
      exact ⟨w, (keys_tauProject cut L w).2 ⟨t, ht, hwt⟩, ha⟩
  have hex : ∃ a, Occ L a := by
    have ht : e0.1 ∈ keys L := List.mem_map.2 ⟨e0, he0, rfl⟩
    cases he : e0.1 with
    | nil => rw [he] at ht; exact absurd ht hne
    | cons a t => exact ⟨a, e0.1, ht, by rw [he]; simp⟩
  obtain ⟨a, ha⟩ := hex
  refine ⟨_, _, rfl, ?_, ?_, ?_, ?_, ?_, by simp⟩
  · intro Ms hM t ht
    match Ms, hM with
    | [], hM => have := hM.len; simp at this
    | [_], hM => have := hM.len; simp at this
    | _ :: _ :: _ :: _, hM => have := hM.len; simp at this
    | [D, R], hM =>
      simp only [stepLang, PT.opLang]
      have hR : R [] := hM.empty 1 R (by simp) (by simp)
      rw [← (hseg t ht).1]
      exact loop_of_segments D R hR _ (hseg t ht).2.2 fun w hw =>
        hM.fit 0 _ D (by simp) (by simp) w ((keys_tauProject cut L w).2 ⟨t, ht, hw⟩)
  · intro a; simp [not_occ_nil, hocc]
  · simp [not_occ_nil]
  · simp only [List.mem_cons, List.not_mem_nil, or_false, forall_eq_or_imp, forall_eq]
    exact ⟨hnd, by simp⟩
  · simp only [List.mem_cons, List.not_mem_nil, or_false, forall_eq_or_imp, forall_eq]
    refine ⟨.inr ⟨?_, .inl ?_⟩, .inl (sizeA_lt (fun a h => absurd h (not_occ_nil a)) a ha (not_occ_nil a))⟩
    · have := sizeA_le (fun a => (hocc a).1)
      have := sizeA_le (fun a => (hocc a).2)
      omega
    · unfold sizeS
      have h1 := sum_le_of_subset (fun w : List α => w.length - 1) (keys (tauProject cut L)) ((keys L).flatMap (segments cut)) hnd
        (fun w hw => by
          obtain ⟨t, ht, hwt⟩ := (keys_tauProject cut L w).1 hw
          exact List.mem_flatMap.2 ⟨t, ht, hwt⟩)
      have h2 : (((keys L).flatMap (segments cut)).map fun w => w.length - 1).sum =
          ((keys L).map fun t => ((segments cut t).map fun w => w.length - 1).sum).sum := by
        generalize keys L = l
        induction l with
        | nil => rfl
        | cons t l ih => simp [List.flatMap_cons, ih]
      have hsum : ∀ t ∈ keys L, ((segments cut t).map fun w => w.length - 1).sum + (segments cut t).length = t.length := by
        intro t ht
        rw [sum_segments _ (hseg t ht).2.1, (hseg t ht).1]
      have h3 := sum_lt (fun t => ((segments cut t).map fun w => w.length - 1).sum) (fun t => t.length - 1) (keys L) (by
        intro t ht
        have := hsum t ht
        have := List.length_pos_iff.2 (hseg t ht).2.2
        omega) e0.1 (List.mem_map.2 ⟨e0, he0, rfl⟩) (by
        have := hsum e0.1 (List.mem_map.2 ⟨e0, he0, rfl⟩)
        omega)
      omega

/-- without a cut and without a base case, some trace has two events -/
theorem long_trace {env : Env α} (henv : env.Lawful) {L : UVCL α} (hn : (keys L).Nodup) (hne : [] ∉ keys L)
    (hb : baseCase L = none) (hx : holdsXor env (discoverUvcl L) = none) : ∃ t ∈ keys L, 2 ≤ t.length := by
  apply Classical.byContradiction
  intro hno
  have hone : ∀ t ∈ keys L, ∃ a, t = [a] := by
    intro t ht
    match t with
    | [] => exact absurd ht hne
    | [a] => exact ⟨a, rfl⟩
    | _ :: _ :: _ => exact absurd ⟨_, ht, by simp⟩ hno
  obtain ⟨h1, _, h3⟩ := baseCase_none hb
  -- two different singletons
  obtain ⟨a, b, ha, hb', hab⟩ : ∃ a b, [a] ∈ keys L ∧ [b] ∈ keys L ∧ a ≠ b := by
    cases hk : keys L with
    | nil => exact absurd hk h1
    | cons t l =>
      obtain ⟨a, rfl⟩ := hone t (by rw [hk]; simp)
      cases l with
      | nil => exact absurd hk (h3 a)
      | cons u l =>
        obtain ⟨b, rfl⟩ := hone u (by rw [hk]; simp)
        refine ⟨a, b, by simp, by simp, ?_⟩
        rintro rfl
        rw [hk, List.nodup_cons] at hn
        exact hn.1 (by simp)
  unfold holdsXor at hx
  simp only [] at hx
  split at hx
  · cases hx
  rename_i hl
  obtain ⟨c1, _, c3⟩ := components_spec (verts env (discoverUvcl L)) (edge (discoverUvcl L))
  have hnoe : ∀ x y, edge (discoverUvcl L) x y = false := by
    intro x y
    rw [Bool.eq_false_iff]
    intro h
    obtain ⟨t, ht, u, v, rfl⟩ := (edge_iff L x y).1 h
    obtain ⟨z, hz⟩ := hone _ ht
    have := congrArg List.length hz
    simp at this
    omega
  obtain ⟨g, hg, hag⟩ := (c1.cover a).1 ((vert_iff env henv L a).2 ⟨_, ha, by simp⟩)
  obtain ⟨g', hg', hbg⟩ := (c1.cover b).1 ((vert_iff env henv L b).2 ⟨_, hb', by simp⟩)
  have hgg : g = g' := by
    match hc : components (verts env (discoverUvcl L)) (edge (discoverUvcl L)), hl with
    | [], _ => rw [hc] at hg; simp at hg
    | [x], _ => rw [hc] at hg hg'; simp at hg hg'; rw [hg, hg']
    | x :: y :: l, hl => simp at hl
  subst hgg
  obtain ⟨v, hv, rfl⟩ := c3 g hg
  rw [mem_reach _ _ _ hv] at hag hbg
  have hp : ∀ x, Path (verts env (discoverUvcl L)) (fun a b => edge (discoverUvcl L) a b || edge (discoverUvcl L) b a) v x → x = v := by
    intro x hx
    cases hx with
    | refl => rfl
    | step _ h _ => simp [hnoe] at h
  exact hab ((hp a hag).trans (hp b hbg).symm)

theorem flower_ok {env : Env α} (henv : env.Lawful) {L : UVCL α} (hne : [] ∉ keys L) (hlong : ∃ t ∈ keys L, 2 ≤ t.length) :
    ∃ op logs, flower env L = .node op logs ∧ StepOK L op logs := by
  obtain ⟨t0, ht0, hl0⟩ := hlong
  let d : UVCL α := (env.sorted (alphabet (keys L))).foldl (fun d a => Dict.set d [a] 1) []
  have hk : ∀ w, w ∈ keys d ↔ ∃ a, Occ L a ∧ w = [a] := by
    intro w
    simp only [d]
    rw [keys_foldl _ (fun a k => k = [a]) (fun d b k => keys_set _ _ _ _)]
    simp only [keys_nil, List.not_mem_nil, or_false, (henv.sorted_perm _).mem_iff, mem_alph]
  have hnd : (keys d).Nodup := nodup_foldl _ (fun d b h => nodup_set h _ _) _ _ (by simp)
  have hocc : ∀ a, Occ d a ↔ Occ L a := by
    intro a
    constructor
    · rintro ⟨w, hw, ha⟩
      obtain ⟨b, hb, rfl⟩ := (hk w).1 hw
      rw [List.mem_singleton.1 ha]; exact hb
    · intro h; exact ⟨[a], (hk _).2 ⟨a, h, rfl⟩, by simp⟩
  obtain ⟨a, ha⟩ : ∃ a, Occ L a := by
    cases t0 with
    | nil => simp at hl0
    | cons a t => exact ⟨a, _, ht0, by simp⟩
  refine ⟨_, [d, []], rfl, ?_, ?_, ?_, ?_, ?_, by simp⟩
  · intro Ms hM t ht
    match Ms, hM with
    | [], hM => have := hM.len; simp at this
    | [_], hM => have := hM.len; simp at this
    | _ :: _ :: _ :: _, hM => have := hM.len; simp at this
    | [D, R], hM =>
      simp only [stepLang, PT.opLang]
      have hR : R [] := hM.empty 1 R (by simp) (by simp)
      have hfl : t = (t.map fun a => [a]).flatten := by
        clear ht
        induction t with
        | nil => rfl
        | cons x t ih => simp [← ih]
      rw [hfl]
      refine loop_of_segments D R hR _ ?_ ?_
      · intro e
        simp at e
        exact hne (e ▸ ht)
      · intro w hw
        obtain ⟨x, hx, rfl⟩ := List.mem_map.1 hw
        exact hM.fit 0 d D (by simp) (by simp) _ ((hk _).2 ⟨x, ⟨t, ht, hx⟩, rfl⟩)
  · intro a; simp [not_occ_nil, hocc]
  · simp [not_occ_nil]
  · simp only [List.mem_cons, List.not_mem_nil, or_false, forall_eq_or_imp, forall_eq]
    exact ⟨hnd, by simp⟩
  · simp only [List.mem_cons, List.not_mem_nil, or_false, forall_eq_or_imp, forall_eq]
    refine ⟨.inr ⟨?_, .inl ?_⟩, .inl (sizeA_lt (fun a h => absurd h (not_occ_nil a)) a ha (not_occ_nil a))⟩
    · have := sizeA_le (fun a => (hocc a).1)
      have := sizeA_le (fun a => (hocc a).2)
      omega
    · have h0 : sizeS d = 0 := by
        unfold sizeS
        have : ∀ l : List (List α), (∀ w ∈ l, w.length = 1) → (l.map fun t => t.length - 1).sum = 0 := by
          intro l
          induction l with
          | nil => simp
          | cons w l ih => intro h; simp [h w (by simp), ih fun x hx => h x (by simp [hx])]
        apply this
        intro w hw
        obtain ⟨b, _, rfl⟩ := (hk w).1 hw
        rfl
      rw [h0]
      unfold sizeS
      have := sum_lt (fun _ => 0) (fun t : List α => t.length - 1) (keys L) (by simp) t0 ht0 (by omega)
      have h00 : ((keys L).map fun _ => 0).sum = 0 := by
        generalize keys L = l
        induction l with
        | nil => rfl
        | cons _ _ ih => simpa using ih
      omega

theorem cutOrFall_ok {env : Env α} (henv : env.Lawful) {L : UVCL α} (hn : (keys L).Nodup)
    (hsz : (sizeA L : Int) ≤ maxsize) (he : emptyTraces L = none) (hb : baseCase L = none) :
    ∃ op logs, cutOrFall env L = .node op logs ∧ StepOK L op logs := by
  have hne : [] ∉ keys L := by
    intro h
    unfold emptyTraces at he
    rw [if_pos h] at he
    simp only [] at he
    split at he <;> cases he
  unfold cutOrFall
  split
  · rename_i r hr
    exact findCut_ok henv hsz hne hr
  · rename_i hf
    have hx : holdsXor env (discoverUvcl L) = none := by
      unfold findCut at hf
      simp only [] at hf
      split at hf
      · cases hf
      · assumption
    have hlong := long_trace henv hn hne hb hx
    unfold fallThrough
    rw [he]
    simp only []
    split
    · split
      · rename_i c hc; exact once_ok henv hn hb hc
      · split
        · rename_i c hc; exact conc_ok henv hc
        · split
          · rename_i r hr; exact tauLoop_ok _ hne hr
          · split
            · rename_i r hr; exact tauLoop_ok _ hne hr
            · exact flower_ok henv hne hlong
    · exact flower_ok henv hne hlong

end Verif.IM
