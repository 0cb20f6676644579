import Verif.Powl.MinerSteps
import Verif.Inductive.Theorems
import Verif.Powl.SimplifyTheorems
/-
C50: the recursion of the POWL discovery.
-/
set_option linter.unusedSectionVars false
namespace Verif.PIM
open Verif Dict Counter Dfg IM Lang Powl BinRel
variable {α : Type} [DecidableEq α]

/-- The log is split by a loop cut of the inductive miner with three or more groups: it has no empty trace, no exclusive choice cut, no
sequence cut and no concurrency cut, and its loop cut has one body and two or more redo groups. -/
def LoopCut3 (env : Env α) (L : UVCL α) : Prop :=
  [] ∉ keys L ∧ holdsXor env (discoverUvcl L) = none ∧ holdsStrict env (discoverUvcl L) = none ∧
    holdsPar env (discoverUvcl L) = none ∧ ∃ gs, holdsLoop env (discoverUvcl L) = some gs ∧ 3 ≤ gs.length

/-- the sublogs to which `apply` is applied for the log `L` -/
def subLogs (v : Variant) (env : Env α) (L : UVCL α) : List (UVCL α) :=
  match emptyP L with
  | some st => st.logs
  | none =>
    match baseP L with
    | some _ => []
    | none => (cutOrFallP v env L).logs

/-- the sublogs that the recursion meets, starting with `L` -/
inductive Visited (v : Variant) (env : Env α) : UVCL α → UVCL α → Prop
  | refl (L) : Visited v env L L
  | step (L l m) : l ∈ subLogs v env L → Visited v env l m → Visited v env L m

/-! ### cuts and fall-throughs -/

theorem strictEnv_lawful {env : Env α} (henv : env.Lawful) : ({ env with strict := true } : Env α).Lawful :=
  ⟨henv.iter_mem, henv.iter_nodup, henv.sorted_perm, henv.pick_mem, henv.pick_none⟩

theorem fallEnv_lawful {env : Env α} (henv : env.Lawful) : ({ env with fallthroughs := true } : Env α).Lawful :=
  ⟨henv.iter_mem, henv.iter_nodup, henv.sorted_perm, henv.pick_mem, henv.pick_none⟩

theorem findCut_split {env : Env α} (henv : env.Lawful) {L : UVCL α} (hsz : (sizeA L : Int) ≤ maxsize) (hne : [] ∉ keys L) {st : Step α}
    (h : findCut { env with strict := true } L = some st) :
    (PStepOK L (ofStep st) ∧ ¬ LoopCut3 env L) ∨ (ofStep st = .error ∧ LoopCut3 env L) := by
  obtain ⟨op, logs, rfl, hs⟩ := findCut_ok (strictEnv_lawful henv) hsz hne h
  have key : ofStep (.node op logs) ≠ .error ∧ ¬ LoopCut3 env L ∨ ofStep (.node op logs) = .error ∧ LoopCut3 env L := by
    unfold findCut at h
    simp only [if_true] at h
    split at h
    · rename_i gs hgs
      replace hgs : holdsXor env (discoverUvcl L) = some gs := hgs
      obtain ⟨h1, h2, h3⟩ := holdsXor_spec henv hgs
      obtain ⟨s, _⟩ := xor_ok h1 h3 hne
      simp only [Option.some.injEq, Step.node.injEq] at h
      obtain ⟨rfl, rfl⟩ := h
      left
      refine ⟨?_, fun h => ?_⟩
      · simp only [ofStep]
        rw [if_neg (by rw [s.len]; omega)]
        intro e; cases e
      · rw [h.2.1] at hgs; cases hgs
    · rename_i hx
      split at h
      · rename_i gs hgs
        replace hgs : holdsStrict env (discoverUvcl L) = some gs := hgs
        simp only [Option.some.injEq, Step.node.injEq] at h
        obtain ⟨rfl, rfl⟩ := h
        left
        refine ⟨(by unfold ofStep; intro e; cases e), fun h => ?_⟩
        rw [h.2.2.1] at hgs; cases hgs
      · rename_i hq
        split at h
        · rename_i gs hgs
          replace hgs : holdsPar env (discoverUvcl L) = some gs := hgs
          simp only [Option.some.injEq, Step.node.injEq] at h
          obtain ⟨rfl, rfl⟩ := h
          left
          refine ⟨(by unfold ofStep; intro e; cases e), fun h => ?_⟩
          rw [h.2.2.2.1] at hgs; cases hgs
        · rename_i hp
          split at h
          · rename_i gs hgs
            replace hgs : holdsLoop env (discoverUvcl L) = some gs := hgs
            obtain ⟨h1, h2⟩ := holdsLoop_spec henv hgs
            obtain ⟨ls, e, s, _⟩ := loop_ok h1 hne
            rw [e] at h
            simp only [Option.some.injEq, Step.node.injEq] at h
            obtain ⟨rfl, rfl⟩ := h
            have hl := s.len
            rcases Nat.lt_or_ge gs.length 3 with h3 | h3
            · left
              refine ⟨?_, fun h => ?_⟩
              · match ls, hl with
                | [], hl => simp at hl; omega
                | [_], hl => simp at hl; omega
                | [b, r], hl => unfold ofStep; intro e; cases e
                | _ :: _ :: _ :: _, hl => simp at hl; omega
              · obtain ⟨gs', hg', h3'⟩ := h.2.2.2.2
                rw [hgs] at hg'; cases hg'; omega
            · right
              refine ⟨?_, hne, hx, hq, hp, gs, hgs, h3⟩
              match ls, hl with
              | [], hl => simp at hl; omega
              | [_], hl => simp at hl; omega
              | [b, r], hl => simp at hl; omega
              | _ :: _ :: _ :: _, hl => rfl
          · cases h
  rcases key with ⟨k1, k2⟩ | k
  · exact .inl ⟨ofStep_ok hs k1, k2⟩
  · exact .inr k

theorem findCut_none_loop {env : Env α} {L : UVCL α} (h : findCut { env with strict := true } L = none) :
    holdsXor env (discoverUvcl L) = none ∧ ¬ LoopCut3 env L := by
  unfold findCut at h
  simp only [if_true] at h
  split at h
  · cases h
  · rename_i hx
    refine ⟨hx, ?_⟩
    rintro ⟨_, _, h2, h3, gs, hgs, _⟩
    replace h2 : holdsStrict { env with strict := true } (discoverUvcl L) = none := h2
    replace h3 : holdsPar { env with strict := true } (discoverUvcl L) = none := h3
    replace hgs : holdsLoop { env with strict := true } (discoverUvcl L) = some gs := hgs
    rw [h2, h3, hgs] at h
    simp only [] at h
    split at h <;> cases h

theorem few_groups {env : Env α} (henv : env.Lawful) {L : UVCL α} {gs : List (List α)} (hp : Partn (Occ L) gs) :
    gs.length ≤ (alphabetOf env L).length :=
  hp.length_le _ fun a ha => (alphabetOf_mem henv L a).2 ha

theorem findCutP_spec {v : Variant} {env : Env α} (henv : env.Lawful) {L : UVCL α} (hsz : (sizeA L : Int) ≤ maxsize) (hne : [] ∉ keys L) :
    (∃ st, findCutP v env L = some st ∧ ((PStepOK L st ∧ ¬ LoopCut3 env L) ∨ (st = .error ∧ LoopCut3 env L))) ∨
    (findCutP v env L = none ∧ holdsXor env (discoverUvcl L) = none ∧ ¬ LoopCut3 env L) := by
  unfold findCutP
  split
  · rename_i hv
    right
    refine ⟨rfl, ?_, ?_⟩
    · cases hx : holdsXor env (discoverUvcl L) with
      | none => rfl
      | some gs =>
        obtain ⟨h1, h2, _⟩ := holdsXor_spec henv hx
        have := few_groups henv h1
        omega
    · rintro ⟨_, _, _, _, gs, hgs, h3⟩
      have := few_groups henv (holdsLoop_spec henv hgs).1.part
      omega
  · cases hf : findCut { env with strict := true } L with
    | some st => exact .inl ⟨_, rfl, findCut_split henv hsz hne hf⟩
    | none =>
      obtain ⟨hx, h3⟩ := findCut_none_loop hf
      cases hpo : poCut v env L with
      | some st => exact .inl ⟨st, rfl, .inl ⟨poCut_ok henv hpo, h3⟩⟩
      | none => exact .inr ⟨rfl, hx, h3⟩

theorem splitOff_ok {L : UVCL α} {c : α} (h : ∃ op logs, splitOff L c = .node op logs ∧ StepOK L op logs) :
    PStepOK L (ofStep (splitOff L c)) := by
  obtain ⟨op, logs, e, hs⟩ := h
  have := e
  unfold splitOff at this
  simp only [Step.node.injEq] at this
  rw [e]
  refine ofStep_ok hs ?_
  rw [← this.1]; intro e; cases e

theorem tauLoop_node (cut : α → α → Bool) {L : UVCL α} (hne : [] ∉ keys L) {st : Step α} (h : tauLoop cut L = some st) :
    PStepOK L (ofStep st) := by
  obtain ⟨op, logs, e, hs⟩ := tauLoop_ok cut hne h
  unfold tauLoop at h
  simp only [] at h
  split at h
  · subst e
    simp only [Option.some.injEq, Step.node.injEq] at h
    refine ofStep_ok hs ?_
    rw [← h.1, ← h.2]; intro e; cases e
  · cases h

theorem fallP_ok {env : Env α} (henv : env.Lawful) {L : UVCL α} (hn : (keys L).Nodup) (hne : [] ∉ keys L) (hb : baseCase L = none)
    (hx : holdsXor env (discoverUvcl L) = none) : PStepOK L (fallP env L) := by
  have henv' := fallEnv_lawful henv
  have hlong := long_trace henv hn hne hb hx
  have he : emptyTraces L = none := by unfold emptyTraces; rw [if_neg hne]
  unfold fallP emptyP
  rw [if_neg hne]
  simp only []
  unfold fallThrough
  rw [he]
  simp only [if_true]
  split
  · rename_i c hc; exact splitOff_ok (once_ok henv' hn hb hc)
  · split
    · rename_i c hc; exact splitOff_ok (conc_ok henv' hc)
    · split
      · rename_i r hr; exact tauLoop_node _ hne hr
      · split
        · rename_i r hr; exact tauLoop_node _ hne hr
        · obtain ⟨op, logs, e, hs⟩ := flower_ok henv' hne hlong
          have := e
          unfold flower at this
          simp only [Step.node.injEq] at this
          rw [e]
          refine ofStep_ok hs ?_
          rw [← this.1, ← this.2]; intro e; cases e

theorem cutOrFallP_spec {v : Variant} {env : Env α} (henv : env.Lawful) {L : UVCL α} (hn : (keys L).Nodup)
    (hsz : (sizeA L : Int) ≤ maxsize) (hne : [] ∉ keys L) (hb : baseCase L = none) :
    (PStepOK L (cutOrFallP v env L) ∧ ¬ LoopCut3 env L) ∨ (cutOrFallP v env L = .error ∧ LoopCut3 env L) := by
  unfold cutOrFallP
  rcases findCutP_spec (v := v) henv hsz hne with ⟨st, h, h'⟩ | ⟨h, hx, h'⟩
  · rw [h]; exact h'
  · rw [h]; exact .inl ⟨fallP_ok henv hn hne hb hx, h'⟩

theorem emptyP_ok {L : UVCL α} (hn : (keys L).Nodup) {st : PStep α} (h : emptyP L = some st) : PStepOK L st := by
  unfold emptyP at h
  split at h
  case isFalse => cases h
  rename_i hm
  cases h
  by_cases hl : 0 < (Dict.del L []).length
  · have he : emptyTraces L = some (.node (some .xor) [[], Dict.del L []]) := by
      unfold emptyTraces; rw [if_pos hm]; simp only [if_pos hl]
    obtain ⟨op, logs, e, hs⟩ := emptyTraces_ok hn he
    simp only [Step.node.injEq] at e
    obtain ⟨rfl, rfl⟩ := e
    exact ofStep_ok hs (by unfold ofStep; intro e; cases e)
  · have hd : Dict.del L [] = [] := List.eq_nil_of_length_eq_zero (by omega)
    have hall : ∀ t ∈ keys L, t = [] := by
      intro t ht
      by_cases hte : t = []
      · exact hte
      · have : t ∈ keys (Dict.del L []) := (keys_del _ _ _).2 ⟨hte, ht⟩
        rw [hd] at this; cases this
    have hocc : ∀ a, ¬ Occ L a := by
      rintro a ⟨t, ht, ha⟩
      rw [hall t ht] at ha; cases ha
    rw [hd]
    refine ⟨?_, ?_, ?_, ?_, ?_, by simp [Shape]⟩
    · intro Ms hM t ht
      rw [hall t ht]
      have hlen := hM.len
      match Ms, hM, hlen with
      | [], _, hlen => simp [PStep.logs] at hlen
      | M :: Ms, hM, _ => exact ⟨M, by simp, hM.empty 0 M (by simp [PStep.logs]) (by simp)⟩
    · intro a; simp [PStep.logs, hocc, not_occ_nil]
    · simp [PStep.logs, not_occ_nil]
    · simp [PStep.logs]
    · intro l hl
      have : l = [] := by simpa [PStep.logs] using hl
      subst this
      refine .inr ⟨?_, .inr ⟨?_, ?_⟩⟩
      · have h1 := sizeA_le (l := L) (L := []) fun a h => absurd h (hocc a)
        have h2 : sizeA ([] : UVCL α) = 0 := rfl
        omega
      · have : sizeS L = 0 := by
          unfold sizeS
          have : ∀ l : List (List α), (∀ t ∈ l, t = []) → (l.map fun t => t.length - 1).sum = 0 := by
            intro l
            induction l with
            | nil => simp
            | cons x l ih =>
              intro h
              rw [List.map_cons, List.sum_cons, ih fun t ht => h t (by simp [ht]), h x (by simp)]; rfl
          exact this _ hall
        rw [this]; rfl
      · unfold sizeE
        rw [if_pos hm, if_neg (by simp)]; omega

/-! ### the recursion -/

theorem recurseP_mono {f f' : UVCL α → Option (Option (Powl α))} (h : ∀ b c, f b = some c → f' b = some c) (st : PStep α) (t)
    (ht : recurseP f st = some t) : recurseP f' st = some t := by
  cases st with
  | error => exact ht
  | _ =>
    unfold recurseP at ht ⊢
    simp only [] at ht ⊢
    rw [Option.map_eq_some_iff] at ht ⊢
    obtain ⟨cs, h1, h2⟩ := ht
    exact ⟨cs, mapAll_mono h _ _ h1, h2⟩

theorem pim_mono (v : Variant) (env : Env α) (n : Nat) : ∀ L t, pim v env n L = some t → pim v env (n + 1) L = some t := by
  induction n with
  | zero => intro L t h; cases h
  | succ n ih =>
    intro L t h
    unfold pim at h ⊢
    split
    · rename_i r hr
      rw [hr] at h
      exact recurseP_mono ih _ _ h
    · rename_i hr
      rw [hr] at h
      simp only [] at h
      split
      · rename_i t' ht'
        rw [ht'] at h; exact h
      · rename_i hb
        rw [hb] at h
        exact recurseP_mono ih _ _ h

theorem pim_mono_le (v : Variant) (env : Env α) {n m : Nat} (hnm : n ≤ m) {L : UVCL α} {t} (h : pim v env n L = some t) :
    pim v env m L = some t := by
  induction hnm with
  | refl => exact h
  | step _ ih => exact pim_mono v env _ _ _ ih

/-- what the result of the recursion satisfies -/
structure PGood (L : UVCL α) (t : Powl α) : Prop where
  fit : ∀ w ∈ keys L, t.lang w
  empty : L = [] → t.lang []
  nodup : t.labels.Nodup
  labels : ∀ a, a ∈ t.labels ↔ Occ L a
  valid : t.Valid

/-- the result for a log: a good model, or an exception, in which case a sublog has a loop cut with three groups -/
structure Res (v : Variant) (env : Env α) (L : UVCL α) (r : Option (Powl α)) : Prop where
  good : ∀ t, r = some t → PGood L t
  err : r = none ↔ ∃ l, Visited v env L l ∧ LoopCut3 env l

theorem mapAll_res (v : Variant) (env : Env α) (logs : List (UVCL α)) (h : ∀ l ∈ logs, ∃ n r, pim v env n l = some r ∧ Res v env l r) :
    ∃ n rs, mapAll (pim v env n) logs = some rs ∧ rs.length = logs.length ∧
      ∀ (i : Nat) (l : UVCL α) (r : Option (Powl α)), logs[i]? = some l → rs[i]? = some r → Res v env l r := by
  induction logs with
  | nil => exact ⟨0, [], rfl, rfl, by simp⟩
  | cons l logs ih =>
    obtain ⟨n1, t, h1, hg⟩ := h l (by simp)
    obtain ⟨n2, ts, h2, hlen, hgs⟩ := ih fun l hl => h l (by simp [hl])
    refine ⟨max n1 n2, t :: ts, ?_, by simp [hlen], ?_⟩
    · unfold mapAll
      rw [pim_mono_le v env (Nat.le_max_left n1 n2) h1,
        mapAll_mono (fun b c hc => pim_mono_le v env (Nat.le_max_right n1 n2) hc) _ _ h2]
    · intro i l' t' hl ht
      cases i with
      | zero =>
        rw [List.getElem?_cons_zero] at hl ht
        cases hl; cases ht; exact hg
      | succ i =>
        rw [List.getElem?_cons_succ] at hl ht
        exact hgs i l' t' hl ht

theorem allSome_some {β : Type} (rs : List (Option β)) (ts : List β) (h : allSome rs = some ts) : rs = ts.map some := by
  induction rs generalizing ts with
  | nil => simp [allSome] at h; subst h; rfl
  | cons r rs ih =>
    cases r with
    | none => cases h
    | some b =>
      rw [allSome, Option.map_eq_some_iff] at h
      obtain ⟨bs, h1, rfl⟩ := h
      rw [ih bs h1]; rfl

theorem allSome_none {β : Type} (rs : List (Option β)) : allSome rs = none ↔ none ∈ rs := by
  induction rs with
  | nil => simp [allSome]
  | cons r rs ih =>
    cases r with
    | none => simp [allSome]
    | some b => simp [allSome, ih]

theorem labelsL_step (logs : List (UVCL α)) : ∀ (ts : List (Powl α)), ts.length = logs.length →
    (∀ (i : Nat) (l : UVCL α) (t : Powl α), logs[i]? = some l → ts[i]? = some t → PGood l t) →
    (logs.Pairwise fun l m => ∀ a, Occ l a → ¬ Occ m a) →
    (labelsL ts).Nodup ∧ ∀ a, a ∈ labelsL ts ↔ ∃ l ∈ logs, Occ l a := by
  induction logs with
  | nil =>
    intro ts h _ _
    rw [List.eq_nil_of_length_eq_zero h]
    simp [labelsL]
  | cons l logs ih =>
    intro ts hlen hg hd
    match ts, hlen, hg with
    | [], hlen, _ => simp at hlen
    | t :: ts, hlen, hg =>
      have hgl : PGood l t := hg 0 l t (by simp) (by simp)
      rw [List.pairwise_cons] at hd
      obtain ⟨h1, h2⟩ := ih ts (by simpa using hlen) (fun i l' t' hl ht => hg (i + 1) l' t' (by simpa using hl) (by simpa using ht)) hd.2
      refine ⟨?_, ?_⟩
      · rw [labelsL, List.nodup_append]
        refine ⟨hgl.nodup, h1, ?_⟩
        intro a ha b hb e
        subst e
        obtain ⟨m, hm, hm'⟩ := (h2 a).1 hb
        exact hd.1 m hm a ((hgl.labels a).1 ha) hm'
      · intro a
        rw [labelsL, List.mem_append, hgl.labels, h2]
        simp

/-- the new node is good if the models of the sublogs are -/
theorem make_good {L : UVCL α} (hL : L ≠ []) {st : PStep α} (hs : PStepOK L st) (ts : List (Powl α)) (hlen : ts.length = st.logs.length)
    (hg : ∀ (i : Nat) (l : UVCL α) (t : Powl α), st.logs[i]? = some l → ts[i]? = some t → PGood l t) :
    ∃ t, st.make ts = some t ∧ PGood L t := by
  obtain ⟨hnd, hlab⟩ := labelsL_step st.logs ts hlen hg hs.disj
  have hfits : Fits st.logs (ts.map Powl.lang) := by
    refine ⟨by simp [hlen], ?_, ?_⟩
    · intro i l M hl hM w hw
      rw [List.getElem?_map, Option.map_eq_some_iff] at hM
      obtain ⟨t, ht, rfl⟩ := hM
      exact (hg i l t hl ht).fit w hw
    · intro i M hl hM
      rw [List.getElem?_map, Option.map_eq_some_iff] at hM
      obtain ⟨t, ht, rfl⟩ := hM
      exact (hg i [] t hl ht).empty rfl
  have hfit := hs.fit _ hfits
  have hval : ∀ c ∈ ts, c.Valid := by
    intro c hc
    obtain ⟨i, hi⟩ := List.getElem?_of_mem hc
    have : i < st.logs.length := by rw [← hlen]; exact (List.getElem?_eq_some_iff.1 hi).1
    exact (hg i _ c (List.getElem?_eq_getElem this) hi).valid
  have hmem : ∀ a, a ∈ labelsL ts ↔ Occ L a := fun a => by rw [hlab, hs.cover]
  cases st with
  | error => exact absurd hs.shape (by simp [Shape])
  | xor logs =>
    have h2 : 2 ≤ logs.length := hs.shape
    replace hlen : ts.length = logs.length := hlen
    refine ⟨.xor ts, by simp only [PStep.make]; rw [if_neg (by omega)], ?_, fun e => absurd e hL, by simpa [Powl.labels] using hnd,
      fun a => by simpa [Powl.labels] using hmem a, .xor _ (by omega) hval⟩
    intro w hw
    have := hfit w hw
    simpa [pLang, Powl.lang, langs_eq_map] using this
  | loop b r =>
    replace hlen : ts.length = 2 := hlen
    match ts, hlen with
    | [x, y], _ =>
      refine ⟨.loop x y, rfl, ?_, fun e => absurd e hL, ?_, ?_, .loop _ _ (hval x (by simp)) (hval y (by simp))⟩
      · intro w hw
        have := hfit w hw
        simpa [pLang, Powl.lang, PT.opLang] using this
      · simpa [Powl.labels, labelsL] using hnd
      · intro a; simpa [Powl.labels, labelsL] using hmem a
  | po E logs =>
    obtain ⟨h1, h2⟩ : logs ≠ [] ∧ isStrictPartialOrder logs.length E = true := hs.shape
    replace hlen : ts.length = logs.length := hlen
    rw [← hlen] at h2
    refine ⟨.po ts (copyOrder E), rfl, ?_, fun e => absurd e hL, by simpa [Powl.labels] using hnd,
      fun a => by simpa [Powl.labels] using hmem a, .po _ _ ?_ ?_ hval⟩
    · intro w hw
      have := hfit w hw
      simp only [pLang, List.length_map] at this
      simp only [Powl.lang, langs_eq_map]
      obtain ⟨es, e1, e2, e3, e4⟩ := this
      refine ⟨es, e1, e2, e3, ?_⟩
      intro i j hij
      refine e4 i j ?_
      rw [before_of_strict h2]
      exact (rel_copy h2 i j).1 ((before_of_strict (strict_copy h2) i j).1 hij)
    · rintro rfl; exact h1 (List.eq_nil_of_length_eq_zero (by simpa using hlen.symm))
    · intro i hi
      rw [before_of_strict (strict_copy h2)] at hi
      exact ((C23_is_strict_partial_order _ _).1 (strict_copy h2)).1 i hi

/-- one step of the recursion -/
theorem recurseP_res {v : Variant} {env : Env α} {L : UVCL α} (hL : L ≠ []) {st : PStep α} (hs : PStepOK L st) (hsub : subLogs v env L = st.logs)
    (h3 : ¬ LoopCut3 env L) (h : ∀ l ∈ st.logs, ∃ n r, pim v env n l = some r ∧ Res v env l r) :
    ∃ n r, recurseP (pim v env n) st = some r ∧ Res v env L r := by
  obtain ⟨n, rs, h1, hlen, hr⟩ := mapAll_res v env st.logs h
  have he : recurseP (pim v env n) st = some ((allSome rs).bind st.make) := by
    cases st with
    | error => exact absurd hs.shape (by simp [Shape])
    | _ => unfold recurseP; simp only []; rw [h1]; rfl
  refine ⟨n, _, he, ?_⟩
  have hres : ∀ l ∈ st.logs, ∃ r ∈ rs, Res v env l r := by
    intro l hl
    obtain ⟨i, hi⟩ := List.getElem?_of_mem hl
    have hir : i < rs.length := by rw [hlen]; exact (List.getElem?_eq_some_iff.1 hi).1
    exact ⟨rs[i], List.getElem_mem hir, hr i l _ hi (List.getElem?_eq_getElem hir)⟩
  have hres' : ∀ r ∈ rs, ∃ l ∈ st.logs, Res v env l r := by
    intro r hr'
    obtain ⟨i, hi⟩ := List.getElem?_of_mem hr'
    have hil : i < st.logs.length := by rw [← hlen]; exact (List.getElem?_eq_some_iff.1 hi).1
    exact ⟨st.logs[i], List.getElem_mem hil, hr i _ r (List.getElem?_eq_getElem hil) hi⟩
  have hvis : (∃ l, Visited v env L l ∧ LoopCut3 env l) ↔ none ∈ rs := by
    constructor
    · rintro ⟨l, hv, hl3⟩
      cases hv with
      | refl => exact absurd hl3 h3
      | step _ m _ hm hv =>
        rw [hsub] at hm
        obtain ⟨r, hr1, hr2⟩ := hres m hm
        have := hr2.err.2 ⟨l, hv, hl3⟩
        rw [this] at hr1; exact hr1
    · intro hn
      obtain ⟨m, hm, hr2⟩ := hres' none hn
      obtain ⟨l, hv, hl3⟩ := hr2.err.1 rfl
      exact ⟨l, .step L m l (by rw [hsub]; exact hm) hv, hl3⟩
  cases ha : allSome rs with
  | none =>
    refine ⟨fun t ht => (by simp at ht), ?_⟩
    rw [hvis]
    simp [(allSome_none rs).1 ha]
  | some ts =>
    have hrs := allSome_some rs ts ha
    obtain ⟨t, ht, hg⟩ := make_good hL hs ts (by rw [← hlen, hrs, List.length_map]) (by
      intro i l t hl hti
      refine (hr i l (some t) hl ?_).good t rfl
      rw [hrs, List.getElem?_map, hti]; rfl)
    simp only [Option.bind_some, ht]
    refine ⟨fun t' ht' => (by cases ht'; exact hg), ?_⟩
    rw [hvis, hrs]
    simp

theorem baseP_good {L : UVCL α} {t : Powl α} (h : baseP L = some t) : PGood L t := by
  unfold baseP at h
  split at h
  · rename_i hk
    cases h
    refine ⟨by simp [hk], by simp [Powl.lang, eps], by simp [Powl.labels], by simp [Powl.labels, Occ, hk], .leaf _⟩
  · rename_i a hk
    cases h
    refine ⟨by simp [hk, Powl.lang], ?_, by simp [Powl.labels], by simp [Powl.labels, Occ, hk], .leaf _⟩
    intro e; subst e; simp [keys] at hk
  · cases h

theorem baseP_single {L : UVCL α} {t : Powl α} (h : baseP L = some t) : ∃ l : List α, l.length ≤ 1 ∧ ∀ a, Occ L a → a ∈ l := by
  unfold baseP at h
  split at h
  · rename_i hk
    exact ⟨[], by simp, by simp [Occ, hk]⟩
  · rename_i a hk
    exact ⟨[a], by simp, by simp [Occ, hk]⟩
  · cases h

theorem pim_res {v : Variant} {env : Env α} (henv : env.Lawful) (L : UVCL α) :
    (keys L).Nodup → (sizeA L : Int) ≤ maxsize → ∃ n r, pim v env n L = some r ∧ Res v env L r := by
  refine smaller_wf.induction (C := fun L => (keys L).Nodup → (sizeA L : Int) ≤ maxsize →
    ∃ n r, pim v env n L = some r ∧ Res v env L r) L ?_
  intro L ih hn hsz
  have hrec : ∀ st, PStepOK L st → L ≠ [] → subLogs v env L = st.logs → ¬ LoopCut3 env L →
      ∃ n r, recurseP (pim v env n) st = some r ∧ Res v env L r := by
    intro st hs hL hsub h3
    refine recurseP_res hL hs hsub h3 fun l hl => ih l (hs.dec l hl) (hs.nodup l hl) ?_
    have := (hs.dec l hl).le
    omega
  cases he : emptyP L with
  | some st =>
    have hm : [] ∈ keys L := by
      unfold emptyP at he
      split at he
      · assumption
      · cases he
    obtain ⟨n, r, h1, h2⟩ := hrec st (emptyP_ok hn he) (by rintro rfl; simp at hm) (by unfold subLogs; rw [he])
      (fun h => h.1 hm)
    refine ⟨n + 1, r, ?_, h2⟩
    unfold pim; rw [he]; exact h1
  | none =>
    have hne : [] ∉ keys L := by
      intro h; unfold emptyP at he; rw [if_pos h] at he; cases he
    cases hb : baseP L with
    | some t =>
      refine ⟨1, some t, ?_, fun t' ht' => (by cases ht'; exact baseP_good hb), ?_⟩
      · unfold pim; rw [he]; simp only []; rw [hb]
      · refine ⟨fun h => (by cases h), ?_⟩
        rintro ⟨l, hv, h3⟩
        cases hv with
        | refl =>
          obtain ⟨_, _, _, _, gs, hgs, h3⟩ := h3
          obtain ⟨m, hm, hm'⟩ := baseP_single hb
          have := (holdsLoop_spec henv hgs).1.part.length_le m hm'
          omega
        | step _ m _ hm _ =>
          unfold subLogs at hm
          rw [he, hb] at hm; cases hm
    | none =>
      have hL : L ≠ [] := by
        rintro rfl; simp [baseP] at hb
      have hbc : baseCase L = none := by
        unfold baseCase
        unfold baseP at hb
        split at hb
        · cases hb
        · cases hb
        · rename_i h1 h2
          split
          · rename_i hk; exact absurd hk h1
          · rename_i hk; exact absurd (by rw [hk]; simp) hne
          · rename_i a hk; exact absurd hk (h2 a)
          · rfl
      have hsub : subLogs v env L = (cutOrFallP v env L).logs := by unfold subLogs; rw [he, hb]
      rcases cutOrFallP_spec (v := v) henv hn hsz hne hbc with ⟨hs, h3⟩ | ⟨hs, h3⟩
      · obtain ⟨n, r, h1, h2⟩ := hrec _ hs hL hsub h3
        refine ⟨n + 1, r, ?_, h2⟩
        unfold pim; rw [he]; simp only []; rw [hb]; exact h1
      · refine ⟨1, none, ?_, fun t ht => (by cases ht), ?_⟩
        · unfold pim; rw [he]; simp only []; rw [hb]; simp only []; rw [hs]; rfl
        · simp only [true_iff]; exact ⟨L, .refl L, h3⟩

end Verif.PIM
