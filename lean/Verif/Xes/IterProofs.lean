import Verif.Xes.IterModel
import Verif.Xes.Proofs2
set_option linter.unusedSectionVars false
/-
Proofs about the importer `iterparse`.
-/
namespace Verif.Xes
open Verif Verif.DfgFile
variable {δ φ : Type}

/-- The events one after the other. -/
def irun (C : Codec δ φ) (max : Nat) (s : ISt δ φ) (evs : List Ev) : Option (ISt δ φ) := evs.foldlM (iterStep C max) s

theorem irun_nil (C : Codec δ φ) (max : Nat) (s : ISt δ φ) : irun C max s [] = some s := rfl

theorem irun_cons (C : Codec δ φ) (max : Nat) (s : ISt δ φ) (e : Ev) (l : List Ev) :
    irun C max s (e :: l) = (iterStep C max s e).bind fun s' => irun C max s' l := rfl

theorem irun_append (C : Codec δ φ) (max : Nat) (s : ISt δ φ) (l l' : List Ev) :
    irun C max s (l ++ l') = (irun C max s l).bind fun s' => irun C max s' l' := by
  unfold irun; rw [List.foldlM_append]; rfl

theorem irun_stop (C : Codec δ φ) (max : Nat) (s : ISt δ φ) (h : s.stop = true) (l : List Ev) : irun C max s l = some s := by
  induction l with
  | nil => rfl
  | cons e l ih =>
    rw [irun_cons]
    have : iterStep C max s e = some s := by unfold iterStep; rw [if_pos h]
    rw [this]; exact ih

theorem storeAt_stack (s : ISt δ φ) (st : List (Option (Base × List Str))) (b : Base) (ps : List Str) (k : Str) (a : Attr δ φ) :
    storeAt { s with stack := st } b ps k a = { storeAt s b ps k a with stack := st } := by
  cases b <;> rfl

theorem storeAt_keep (s : ISt δ φ) (b : Base) (ps : List Str) (k : Str) (a : Attr δ φ) :
    (storeAt s b ps k a).stack = s.stack ∧ (storeAt s b ps k a).stop = s.stop := by
  cases b <;> exact ⟨rfl, rfl⟩

/-- A state as a function of one of its dictionaries. -/
structure Ctx (G : List (Str × Attr δ φ) → ISt δ φ) (b : Base) (ps : List Str) (st : List (Option (Base × List Str))) : Prop where
  stack : ∀ d, (G d).stack = some (b, ps) :: st
  stop : ∀ d, (G d).stop = false
  store : ∀ d qs k a, storeAt (G d) b (ps ++ qs) k a = G (setAt qs k a d)

theorem setAt_last {d0 : List (Str × Attr δ φ)} {key : Str} (hk : key ∉ Dict.keys d0) (v : Val δ φ) (cs : List (Str × Attr δ φ))
    (qs : List Str) (k : Str) (a : Attr δ φ) :
    setAt (key :: qs) k a (d0 ++ [(key, .nested v cs)]) = d0 ++ [(key, .nested v (setAt qs k a cs))] := by
  simp only [setAt, List.map_append, List.map_cons, List.map_nil, if_pos]
  congr 1
  conv => rhs; rw [← List.map_id d0]
  apply List.map_congr_left
  intro e he
  obtain ⟨x, y⟩ := e
  cases y with
  | none => rfl
  | atom => rfl
  | nested v' cs' =>
    simp only [id]
    rw [if_neg]
    intro hx
    exact hk (by rw [← hx]; exact List.mem_map.2 ⟨_, he, rfl⟩)

/-- The context of a nested attribute. -/
theorem Ctx.nest {G : List (Str × Attr δ φ) → ISt δ φ} {b : Base} {ps : List Str} {st : List (Option (Base × List Str))}
    (h : Ctx G b ps st) {d0 : List (Str × Attr δ φ)} {key : Str} (hk : key ∉ Dict.keys d0) (v : Val δ φ) :
    Ctx (fun cs => { G (d0 ++ [(key, .nested v cs)]) with stack := some (b, ps ++ [key]) :: some (b, ps) :: st })
      b (ps ++ [key]) (some (b, ps) :: st) := by
  refine ⟨fun _ => rfl, fun d => h.stop _, ?_⟩
  intro d qs k a
  rw [storeAt_stack]
  have := h.store (d0 ++ [(key, .nested v d)]) (key :: qs) k a
  rw [List.append_assoc, List.singleton_append, this, setAt_last hk]

theorem iterVal_value {C : Codec δ φ} {key : Str} {v : Val δ φ} (h : ValRead C key v) :
    iterVal C (typeTag key v) (valueStr C v (typeTag key v)) = some (readBackVal C key v) := by
  unfold ValRead at h
  by_cases hk : key = "concept:name".toList
  · have ht : typeTag key v = "string".toList := by unfold typeTag; rw [if_pos hk]
    rw [ht]
    unfold iterVal readBackVal
    rw [if_pos rfl, if_pos hk]
    cases v <;> rfl
  · rw [if_neg hk] at h
    unfold typeTag readBackVal
    rw [if_neg hk, if_neg hk]
    cases v with
    | str s => rfl
    | int n =>
      show (intOf? (showInt n)).map Val.int = _
      rw [intOf_showInt]; rfl
    | bool b => cases b <;> rfl
    | date d =>
      show (C.parseD (C.iso d)).map Val.date = _
      rw [h]; rfl
    | float f =>
      show (C.parseF (C.strF f)).map Val.float = _
      rw [h]; rfl

mutual
theorem attrEvs_isEmpty (C : Codec δ φ) (vis : List Nat → Bool) (pos : List Nat) (key : Str) :
    ∀ a : Attr δ φ, (attrEvs C vis pos key a).isEmpty = (seenAttr C vis pos key a).isNone
  | .none => by simp [attrEvs, seenAttr]
  | .atom v => by simp [attrEvs, seenAttr]
  | .nested v cs => by
    simp only [attrEvs, seenAttr]
    split <;> simp
theorem attrsEvs_isEmpty (C : Codec δ φ) (vis : List Nat → Bool) (pos : List Nat) (i : Nat) :
    ∀ as : List (Str × Attr δ φ), (attrsEvs C vis pos i as).isEmpty = (seenAttrs C vis pos i as).isEmpty
  | [] => by simp [attrsEvs, seenAttrs]
  | (k, a) :: as => by
    have h1 := attrEvs_isEmpty C vis (i :: pos) k a
    have h2 := attrsEvs_isEmpty C vis pos (i + 1) as
    have h3 : ∀ {α : Type} (l l' : List α), (l ++ l').isEmpty = (l.isEmpty && l'.isEmpty) := by
      intro α l l'; cases l <;> rfl
    simp only [attrsEvs, seenAttrs, h3, h1, h2]
    cases seenAttr C vis (i :: pos) k a <;> rfl
end

mutual
theorem skip_attr (C : Codec δ φ) (max : Nat) (vis : List Nat → Bool) (pos : List Nat) (key : Str) :
    ∀ (a : Attr δ φ) (s : ISt δ φ), s.stack.head? = some none → irun C max s (attrEvs C vis pos key a) = some s
  | .none, s, _ => by simp [attrEvs, irun_nil]
  | .atom v, s, h => by
    simp only [attrEvs, irun_cons, irun_nil]
    by_cases hs : s.stop = true
    · unfold iterStep; simp [hs]
    · have hs' : s.stop = false := by simpa using hs
      obtain ⟨l, t, e, stk, sp⟩ := s
      simp only at h hs'
      subst hs'
      unfold iterStep
      simp [h]
  | .nested v cs, s, h => by
    by_cases hs : s.stop = true
    · exact irun_stop C max s hs _
    simp only [attrEvs, irun_cons, irun_append, irun_nil]
    have e1 : ∀ tag x b, iterStep C max s (.attr tag key x b) = some { s with stack := none :: s.stack } := by
      intro tag x b
      unfold iterStep
      simp [hs, h]
    rw [e1]
    simp only [Option.bind_some]
    rw [skip_attrs C max vis pos 0 cs _ rfl]
    simp only [Option.bind_some]
    have hs' : s.stop = false := by simpa using hs
    obtain ⟨l, t, e, stk, sp⟩ := s
    simp only at hs'
    subst hs'
    unfold iterStep
    simp
theorem skip_attrs (C : Codec δ φ) (max : Nat) (vis : List Nat → Bool) (pos : List Nat) (i : Nat) :
    ∀ (as : List (Str × Attr δ φ)) (s : ISt δ φ), s.stack.head? = some none →
      irun C max s (attrsEvs C vis pos i as) = some s
  | [], s, _ => by simp [attrsEvs, irun_nil]
  | (k, a) :: as, s, h => by
    simp only [attrsEvs, irun_append]
    rw [skip_attr C max vis (i :: pos) k a s h]
    simp only [Option.bind_some]
    exact skip_attrs C max vis pos (i + 1) as s h
end

theorem step_end (C : Codec δ φ) (max : Nat) (s : ISt δ φ) (h : s.stop = false) :
    iterStep C max s .endOther = some { s with stack := s.stack.tail } := by
  unfold iterStep; simp [h]

theorem step_attr (C : Codec δ φ) (max : Nat) {G : List (Str × Attr δ φ) → ISt δ φ} {b : Base} {ps : List Str}
    {st : List (Option (Base × List Str))} (hG : Ctx G b ps st) (d : List (Str × Attr δ φ)) {tag key x : Str} {v : Val δ φ}
    (hv : iterVal C tag x = some v) (vis : Bool) :
    iterStep C max (G d) (.attr tag key x vis) = some (parseAttr (G d) b ps key v vis) := by
  unfold iterStep
  simp only [hG.stop, Bool.false_eq_true, if_false, hG.stack, List.head?_cons, Option.join_some, hv]

theorem parse_hidden {G : List (Str × Attr δ φ) → ISt δ φ} {b : Base} {ps : List Str}
    {st : List (Option (Base × List Str))} (hG : Ctx G b ps st) (d : List (Str × Attr δ φ)) (key : Str) (v : Val δ φ)
    (hk : key ∉ Dict.keys d) :
    parseAttr (G d) b ps key v false = { G (d ++ [(key, .atom v)]) with stack := none :: some (b, ps) :: st } := by
  have h := hG.store d [] key (.atom v)
  simp only [List.append_nil, setAt] at h
  unfold parseAttr
  simp only [Bool.false_eq_true, if_false]
  rw [h, set_new hk, hG.stack]

theorem parse_seen {G : List (Str × Attr δ φ) → ISt δ φ} {b : Base} {ps : List Str}
    {st : List (Option (Base × List Str))} (hG : Ctx G b ps st) (d : List (Str × Attr δ φ)) (key : Str) (v : Val δ φ)
    (hk : key ∉ Dict.keys d) :
    parseAttr (G d) b ps key v true =
      { G (d ++ [(key, .nested v [])]) with stack := some (b, ps ++ [key]) :: some (b, ps) :: st } := by
  have h := hG.store d [] key (.nested v [])
  simp only [List.append_nil, setAt] at h
  unfold parseAttr
  simp only [if_true]
  rw [h, set_new hk, hG.stack]

theorem pop_ctx {G : List (Str × Attr δ φ) → ISt δ φ} {b : Base} {ps : List Str}
    {st : List (Option (Base × List Str))} (hG : Ctx G b ps st) (d : List (Str × Attr δ φ)) (x : Option (Base × List Str)) :
    ({ ({ G d with stack := x :: some (b, ps) :: st } : ISt δ φ) with
      stack := ({ G d with stack := x :: some (b, ps) :: st } : ISt δ φ).stack.tail }) = G d := by
  have := hG.stack d
  cases hd : G d with
  | mk l t e stk sp =>
    rw [hd] at this
    simp only at this
    simp [this]

mutual
theorem irun_attr (C : Codec δ φ) (max : Nat) (vis : List Nat → Bool) (pos : List Nat) (key : Str) :
    ∀ (a : Attr δ φ), AttrWf C key a → ∀ {G : List (Str × Attr δ φ) → ISt δ φ} {b : Base} {ps : List Str}
      {st : List (Option (Base × List Str))}, Ctx G b ps st → ∀ d, key ∉ Dict.keys d →
      irun C max (G d) (attrEvs C vis pos key a) =
        some (G (d ++ ((seenAttr C vis pos key a).map fun x => (key, x)).toList))
  | .none, _, G, b, ps, st, _, d, _ => by simp [attrEvs, seenAttr, irun_nil]
  | .atom v, h, G, b, ps, st, hG, d, hk => by
    simp only [AttrWf] at h
    simp only [attrEvs, seenAttr, irun_cons, irun_nil]
    rw [step_attr C max hG d (iterVal_value h) false, parse_hidden hG d key _ hk]
    simp only [Option.bind_some]
    rw [step_end C max _ (by exact hG.stop _), pop_ctx hG]
    rfl
  | .nested v cs, h, G, b, ps, st, hG, d, hk => by
    simp only [AttrWf] at h
    simp only [attrEvs, seenAttr, irun_cons, irun_append, irun_nil, attrsEvs_isEmpty]
    rw [step_attr C max hG d (iterVal_value h.1)]
    simp only [Option.bind_some]
    by_cases hv : (vis pos && !(seenAttrs C vis pos 0 cs).isEmpty) = true
    · rw [hv, parse_seen hG d key _ hk, if_pos rfl]
      have hn := hG.nest hk (readBackVal C key v)
      have := irun_attrs C max vis pos 0 cs h.2.2 h.2.1 hn [] (by simp [Dict.keys])
      simp only [List.nil_append] at this
      rw [this]
      simp only [Option.bind_some]
      rw [step_end C max _ (by exact hG.stop _), pop_ctx hG]
      rfl
    · have hv' : (vis pos && !(seenAttrs C vis pos 0 cs).isEmpty) = false := by simpa using hv
      rw [hv', parse_hidden hG d key _ hk, if_neg (by simp), skip_attrs C max vis pos 0 cs _ rfl]
      simp only [Option.bind_some]
      rw [step_end C max _ (by exact hG.stop _), pop_ctx hG]
      rfl
theorem irun_attrs (C : Codec δ φ) (max : Nat) (vis : List Nat → Bool) (pos : List Nat) (i : Nat) :
    ∀ (as : List (Str × Attr δ φ)), AttrsWf C as → (Dict.keys as).Nodup →
      ∀ {G : List (Str × Attr δ φ) → ISt δ φ} {b : Base} {ps : List Str}
      {st : List (Option (Base × List Str))}, Ctx G b ps st → ∀ d, (∀ k ∈ Dict.keys as, k ∉ Dict.keys d) →
      irun C max (G d) (attrsEvs C vis pos i as) = some (G (d ++ seenAttrs C vis pos i as))
  | [], _, _, G, b, ps, st, _, d, _ => by simp [attrsEvs, seenAttrs, irun_nil]
  | (k, a) :: as, h, hn, G, b, ps, st, hG, d, hd => by
    simp only [AttrsWf] at h
    have hn' : k ∉ Dict.keys as ∧ (Dict.keys as).Nodup := by simpa [Dict.keys] using hn
    simp only [attrsEvs, seenAttrs, irun_append]
    rw [irun_attr C max vis (i :: pos) k a h.1 hG d (hd k (by simp [Dict.keys]))]
    simp only [Option.bind_some]
    rw [irun_attrs C max vis pos (i + 1) as h.2 hn'.2 hG]
    · rw [List.append_assoc]
    · intro x hx hm
      have hxk : x ≠ k := fun e => hn'.1 (e ▸ hx)
      have hxd : x ∉ Dict.keys d := hd x (by simp only [Dict.keys, List.map_cons, List.mem_cons]; exact Or.inr hx)
      simp only [Dict.keys, List.map_append, List.mem_append] at hm
      rcases hm with hm | hm
      · exact hxd hm
      · cases hs : seenAttr C vis (i :: pos) k a with
        | none => rw [hs] at hm; simp at hm
        | some y => rw [hs] at hm; simp at hm; exact hxk hm
end

end Verif.Xes
