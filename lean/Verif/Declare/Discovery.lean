import Verif.Declare.Theorems
import Mathlib.Tactic.FieldSimp
import Mathlib.Tactic.Linarith
/-
C25: Declare discovery: the values of the table, support, confidence and the selection of the rules.
-/
namespace Verif
open Declare Declare.Spec Dict Counter
variable {α : Type} [DecidableEq α]

namespace Declare

theorem lookup_mem {es : List (Rule α × Int)} {r : Rule α} {v : Int} (h : es.lookup r = some v) : (r, v) ∈ es := by
  induction es with
  | nil => simp at h
  | cons e es ih =>
    obtain ⟨r', v'⟩ := e
    simp only [List.lookup] at h
    split at h
    · rename_i hb
      have := beq_iff_eq.1 hb
      cases h
      simp [this]
    · exact List.mem_cons_of_mem _ (ih h)

theorem lookup_none {es : List (Rule α × Int)} {r : Rule α} (h : es.lookup r = none) (v : Int) : (r, v) ∉ es := by
  induction es with
  | nil => simp
  | cons e es ih =>
    obtain ⟨r', v'⟩ := e
    simp only [List.lookup] at h
    split at h
    · cases h
    · rename_i hb
      have : r ≠ r' := by simpa using hb
      simp [this, ih h]

theorem entry_eq {es : List (Rule α × Int)} {r : Rule α} {v : Int} (h1 : ∀ v', (r, v') ∈ es → v' = v)
    (h2 : v ≠ 0 → (r, v) ∈ es) : entry es r = v := by
  unfold entry
  cases h : es.lookup r with
  | some v' => exact h1 v' (lookup_mem h)
  | none =>
    by_contra hne
    exact lookup_none h v (h2 (fun h => hne (by simp [h])))

theorem has_ofList (tr : List α) (a : α) : has (ofList tr) a = true ↔ a ∈ tr := by
  rw [has_iff, ofList, keys_update]; simp

theorem mem_loop2 {acts tr : List α} {f : α → α → List (Rule α × Int)} {e : Rule α × Int} :
    e ∈ loop2 acts tr f ↔ ∃ x ∈ tr, ∃ y ∈ acts, y ≠ x ∧ e ∈ f x y := by
  unfold loop2
  simp only [List.mem_flatMap]
  constructor
  · rintro ⟨x, hx, y, hy, h⟩
    split at h
    · rename_i hne
      exact ⟨x, by simpa [ofList, keys_update] using hx, y, hy, hne, h⟩
    · simp at h
  · rintro ⟨x, hx, y, hy, hne, h⟩
    exact ⟨x, by simpa [ofList, keys_update] using hx, y, hy, by simp [hne, h]⟩

open Classical in
/-- 1 if the constraint is activated and met, -1 if it is activated and not met, 0 otherwise -/
noncomputable def val (act ok : Prop) : Int := if act then (if ok then 1 else -1) else 0

theorem sgn_val {b : Bool} {act ok : Prop} (ha : act) (h : b = true ↔ ok) : sgn b = val act ok := by
  unfold val sgn
  rw [if_pos ha]
  by_cases hb : b = true
  · rw [if_pos hb, if_pos (h.1 hb)]
  · rw [if_neg hb, if_neg (fun h' => hb (h.2 h'))]

theorem neg_val {act ok : Prop} (ha : act) (h : ¬ ok) : -1 = val act ok := by
  unfold val; rw [if_pos ha, if_neg h]

theorem zero_val {act ok : Prop} (ha : ¬ act) : 0 = val act ok := by
  unfold val; rw [if_neg ha]

/-- entries of a template whose loop writes at the key `(act, act2)` -/
theorem entry_fwd {acts tr : List α} {t : BT} {a b : α} (hab : a ≠ b) (hb : b ∈ acts) (g : α → α → Int) :
    entry (loop2 acts tr fun x y => [(Rule.bi t x y, g x y)]) (.bi t a b) = if a ∈ tr then g a b else 0 := by
  apply entry_eq
  · intro v' h
    obtain ⟨x, hx, y, hy, hne, he⟩ := mem_loop2.1 h
    simp only [List.mem_singleton, Prod.mk.injEq, Rule.bi.injEq, true_and] at he
    obtain ⟨⟨rfl, rfl⟩, rfl⟩ := he
    simp [hx]
  · intro hv
    by_cases ha : a ∈ tr
    · exact mem_loop2.2 ⟨a, ha, b, hb, Ne.symm hab, by simp [ha]⟩
    · simp [ha] at hv

/-- entries of a template whose loop writes at the key `(act2, act)`, when `act2` occurs -/
theorem entry_bwd {acts tr : List α} {t : BT} {a b : α} (hab : a ≠ b) (ha : a ∈ acts) (g : α → α → Int) :
    entry (loop2 acts tr fun x y => if has (ofList tr) y = true then [(Rule.bi t y x, g x y)] else []) (.bi t a b) =
      if b ∈ tr ∧ a ∈ tr then g b a else 0 := by
  apply entry_eq
  · intro v' h
    obtain ⟨x, hx, y, hy, hne, he⟩ := mem_loop2.1 h
    split at he
    · rename_i hh
      rw [has_ofList] at hh
      simp only [List.mem_singleton, Prod.mk.injEq, Rule.bi.injEq, true_and] at he
      obtain ⟨⟨rfl, rfl⟩, rfl⟩ := he
      simp [hx, hh]
    · simp at he
  · intro hv
    by_cases hc : b ∈ tr ∧ a ∈ tr
    · exact mem_loop2.2 ⟨b, hc.1, a, ha, hab, by simp [(has_ofList tr a).2 hc.2, hc]⟩
    · simp [hc] at hv

theorem loop2_ite (acts tr : List α) (t : BT) (g : α → α → Int) :
    (loop2 acts tr fun x y => if has (ofList tr) y = true then [(Rule.bi t x y, g x y)] else [(Rule.bi t x y, -1)]) =
    loop2 acts tr fun x y => [(Rule.bi t x y, if has (ofList tr) y = true then g x y else -1)] := by
  congr 1
  funext x y
  split <;> rfl

theorem altSucc_mem {a b : α} {t : List α} (h : AltSuccession a b t) (ha : a ∈ t) : b ∈ t := by
  obtain ⟨u, v, rfl⟩ := List.append_of_mem ha
  obtain ⟨x, y, rfl, -⟩ := h.1 u v rfl
  simp
theorem chainSucc_mem {a b : α} {t : List α} (h : ChainSuccession a b t) (ha : a ∈ t) : b ∈ t := by
  obtain ⟨u, v, rfl⟩ := List.append_of_mem ha
  obtain ⟨y, rfl⟩ := h.1 u v rfl
  simp

theorem altOk_iff {a b : α} (hab : a ≠ b) (tr : List α) : altOk (idxs tr a) (idxs tr b) = true ↔ AltSuccession a b tr := by
  rw [← au_alt hab, ← (ok_au hab false tr 0).1]; rfl
theorem chainOk_iff {a b : α} (hab : a ≠ b) (tr : List α) : chainOk (idxs tr a) (idxs tr b) = true ↔ ChainSuccession a b tr := by
  rw [← au_chain hab, ← (ok_au hab true tr 0).1]; rfl

theorem ite_val {c act ok : Prop} [Decidable c] {x : Int} (hc : c ↔ act) (hx : c → x = val act ok) :
    (if c then x else 0) = val act ok := by
  split
  · rename_i h; exact hx h
  · rename_i h; exact zero_val (fun h' => h (hc.2 h'))

theorem re_val {acts tr : List α} {a b : α} (hab : a ≠ b) (hb : b ∈ acts) :
    entry (biEntries acts tr .respondedExistence) (.bi .respondedExistence a b) = val (a ∈ tr) (a ∈ tr → b ∈ tr) := by
  simp only [biEntries]
  rw [entry_fwd hab hb (fun x y => sgn (has (ofList tr) y))]
  exact ite_val Iff.rfl fun ha => sgn_val ha (by rw [has_ofList]; simp [ha])

theorem resp_val {acts tr : List α} {a b : α} (hab : a ≠ b) (hb : b ∈ acts) :
    entry (biEntries acts tr .response) (.bi .response a b) = val (a ∈ tr) (Response a b tr) := by
  simp only [biEntries]
  rw [loop2_ite acts tr .response, entry_fwd hab hb]
  refine ite_val Iff.rfl fun ha => ?_
  by_cases hbt : b ∈ tr
  · rw [if_pos ((has_ofList tr b).2 hbt)]
    exact sgn_val ha (by rw [response_last hab (getLast_last ha) (getLast_last hbt)]; simp)
  · rw [if_neg (fun h => hbt ((has_ofList tr b).1 h))]
    exact neg_val ha (fun h => hbt (response_mem h ha))

theorem prec_val {acts tr : List α} {a b : α} (hab : a ≠ b) (ha : a ∈ acts) :
    entry (biEntries acts tr .precedence) (.bi .precedence a b) = val (a ∈ tr ∧ b ∈ tr) (Precedence a b tr) := by
  simp only [biEntries]
  rw [entry_bwd hab ha (fun x y => sgn (decide ((idxs tr y)[0]?.getD 0 < (idxs tr x)[0]?.getD 0)))]
  refine ite_val and_comm fun h => ?_
  exact sgn_val ⟨h.2, h.1⟩ (by rw [precedence_first hab (head_first h.2) (head_first h.1)]; simp)

theorem altResp_val {acts tr : List α} {a b : α} (hab : a ≠ b) (hb : b ∈ acts) :
    entry (biEntries acts tr .altResponse) (.bi .altResponse a b) = val (a ∈ tr) (AltSuccession a b tr) := by
  simp only [biEntries]
  rw [loop2_ite acts tr .altResponse, entry_fwd hab hb]
  refine ite_val Iff.rfl fun ha => ?_
  by_cases hbt : b ∈ tr
  · rw [if_pos ((has_ofList tr b).2 hbt)]
    exact sgn_val ha (altOk_iff hab tr)
  · rw [if_neg (fun h => hbt ((has_ofList tr b).1 h))]
    exact neg_val ha (fun h => hbt (altSucc_mem h ha))

theorem chainResp_val {acts tr : List α} {a b : α} (hab : a ≠ b) (hb : b ∈ acts) :
    entry (biEntries acts tr .chainResponse) (.bi .chainResponse a b) = val (a ∈ tr) (ChainSuccession a b tr) := by
  simp only [biEntries]
  rw [loop2_ite acts tr .chainResponse, entry_fwd hab hb]
  refine ite_val Iff.rfl fun ha => ?_
  by_cases hbt : b ∈ tr
  · rw [if_pos ((has_ofList tr b).2 hbt)]
    exact sgn_val ha (chainOk_iff hab tr)
  · rw [if_neg (fun h => hbt ((has_ofList tr b).1 h))]
    exact neg_val ha (fun h => hbt (chainSucc_mem h ha))

theorem altPrec_val {acts tr : List α} {a b : α} (hab : a ≠ b) (ha : a ∈ acts) :
    entry (biEntries acts tr .altPrecedence) (.bi .altPrecedence a b) = val (a ∈ tr ∧ b ∈ tr) (AltSuccession a b tr) := by
  simp only [biEntries]
  rw [entry_bwd hab ha (fun x y => sgn (altOk (idxs tr y) (idxs tr x)))]
  exact ite_val and_comm fun h => sgn_val ⟨h.2, h.1⟩ (altOk_iff hab tr)

theorem chainPrec_val {acts tr : List α} {a b : α} (hab : a ≠ b) (ha : a ∈ acts) :
    entry (biEntries acts tr .chainPrecedence) (.bi .chainPrecedence a b) = val (a ∈ tr ∧ b ∈ tr) (ChainSuccession a b tr) := by
  simp only [biEntries]
  rw [entry_bwd hab ha (fun x y => sgn (chainOk (idxs tr y) (idxs tr x)))]
  exact ite_val and_comm fun h => sgn_val ⟨h.2, h.1⟩ (chainOk_iff hab tr)

theorem min_val {p q r s act ok : Prop} (h : val act ok = min (val p r) (val q s)) : min (val p r) (val q s) = val act ok := h.symm

theorem min_succ {A B R P S : Prop} (hR : A → R → B) (hS : S ↔ R ∧ P) : min (val A R) (val (A ∧ B) P) = val A S := by
  unfold val
  by_cases hA : A <;> by_cases hB : B <;> by_cases hR' : R <;> by_cases hP : P <;> simp [hA, hB, hR', hP, hS] <;> exact absurd (hR hA hR') hB

theorem min_succ' {A B S : Prop} (hR : A → S → B) : min (val A S) (val (A ∧ B) S) = val A S := by
  unfold val
  by_cases hA : A <;> by_cases hB : B <;> by_cases hS : S <;> simp [hA, hB, hS] <;> exact absurd (hR hA hS) hB

theorem min_coex {A B : Prop} : min (val A (A → B)) (val B (B → A)) = val (A ∨ B) (A ↔ B) := by
  unfold val
  by_cases hA : A <;> by_cases hB : B <;> simp [hA, hB]

theorem neg_val' {A S : Prop} : -1 * val A S = val A (¬ S) := by
  unfold val
  by_cases hA : A <;> by_cases hS : S <;> simp [hA, hS]

theorem val_congr {A A' S S' : Prop} (h1 : A ↔ A') (h2 : A → (S ↔ S')) : val A S = val A' S' := by
  unfold val
  by_cases hA : A
  · have := h2 hA
    by_cases hS : S
    · simp [hA, hS, h1.1 hA, this.1 hS]
    · have : ¬ S' := fun h => hS (this.2 h)
      simp [hA, hS, h1.1 hA, this]
  · have : ¬ A' := fun h => hA (h1.2 h)
    simp [hA, this]

theorem unEntry {acts : List α} (t : UT) (f : α → Int) (p : α → Bool) (a : α) :
    entry ((acts.filter p).map fun a => (Rule.un t a, f a)) (.un t a) = if a ∈ acts ∧ p a = true then f a else 0 := by
  apply entry_eq
  · intro v' h
    simp only [List.mem_map, List.mem_filter, Prod.mk.injEq, Rule.un.injEq, true_and] at h
    obtain ⟨x, h, rfl, rfl⟩ := h
    simp [h]
  · intro hv
    by_cases h : a ∈ acts ∧ p a = true
    · simp only [h, and_self, if_true, List.mem_map, List.mem_filter, Prod.mk.injEq, Rule.un.injEq, true_and]
      exact ⟨a, h, rfl, rfl⟩
    · simp [h] at hv

theorem unEntry' {acts : List α} (t : UT) (f : α → Int) (a : α) (ha : a ∈ acts) :
    entry (acts.map fun a => (Rule.un t a, f a)) (.un t a) = f a := by
  have := unEntry (acts := acts) t f (fun _ => true) a
  simpa [ha] using this

/-- the activities of the constraint are considered -/
def Over (acts : List α) : Rule α → Prop
  | .un _ a => a ∈ acts
  | .bi _ a b => a ∈ acts ∧ b ∈ acts

end Declare

open Classical in
/-- C25: the entry of the table of rules for a constraint and a trace: 1 when the constraint is activated and measured as met,
-1 when it is activated and not met, 0 otherwise. -/
theorem C25_values (acts tr : List α) (r : Rule α) (ho : Over acts r) (hd : Distinct r) :
    value acts tr r = if Activated tr r then (if Measured tr r then 1 else -1) else 0 := by
  show value acts tr r = val (Activated tr r) (Measured tr r)
  cases r with
  | un t a =>
    cases t
    · simp only [value, unEntries]
      rw [unEntry' _ (fun a => sgn (has (ofList tr) a)) a ho]
      exact sgn_val trivial (has_ofList tr a)
    · simp only [value, unEntries]
      rw [unEntry _ (fun a => sgn (decide (count (ofList tr) a = 1)))]
      refine ite_val ?_ fun h => sgn_val ((has_ofList tr a).1 h.2) ?_
      · rw [has_ofList]
        exact ⟨fun h => h.2, fun h => ⟨ho, h⟩⟩
      · show _ ↔ ∃ u v, tr = u ++ a :: v ∧ a ∉ u ∧ a ∉ v
        rw [exactlyOne_iff, ofList, count_update]
        simp
    · simp only [value, unEntries]
      rw [unEntry' _ (fun a => sgn (decide (tr[0]? = some a))) a ho]
      refine sgn_val trivial ?_
      show _ ↔ ∃ v, tr = a :: v
      cases tr <;> simp
    · simp only [value, unEntries]
      rw [unEntry' _ (fun a => sgn (has (ofList tr) a)) a ho, sgn_val (act := True) (ok := a ∈ tr) trivial (has_ofList tr a), neg_val']
      rfl
  | bi t a b =>
    obtain ⟨ha, hb⟩ := ho
    have hd : a ≠ b := hd
    cases t
    · simp only [value, re_val hd hb]; rfl
    · simp only [value, resp_val hd hb]; rfl
    · simp only [value, prec_val hd ha]; rfl
    · simp only [value, resp_val hd hb, prec_val hd ha]
      exact min_succ (fun h1 h2 => response_mem h2 h1) Iff.rfl
    · simp only [value, altResp_val hd hb]; rfl
    · simp only [value, altPrec_val hd ha]; rfl
    · simp only [value, altResp_val hd hb, altPrec_val hd ha]
      exact min_succ' (fun h1 h2 => altSucc_mem h2 h1)
    · simp only [value, chainResp_val hd hb]; rfl
    · simp only [value, chainPrec_val hd ha]; rfl
    · simp only [value, chainResp_val hd hb, chainPrec_val hd ha]
      exact min_succ' (fun h1 h2 => chainSucc_mem h2 h1)
    · simp only [value, re_val hd hb, re_val (Ne.symm hd) ha]
      exact min_coex
    · simp only [value, re_val hd hb, re_val (Ne.symm hd) ha]
      rw [min_coex, neg_val']
      refine val_congr Iff.rfl fun h => ?_
      simp only [Measured, Holds]
      grind
    · simp only [value, resp_val hd hb, prec_val hd ha]
      rw [min_succ (fun h1 h2 => response_mem h2 h1) (Iff.refl (Response a b tr ∧ Precedence a b tr)), neg_val']
      rfl
    · simp only [value, chainResp_val hd hb, chainPrec_val hd ha]
      rw [min_succ' (fun h1 h2 => chainSucc_mem h2 h1), neg_val']
      rfl

namespace Declare

/-- the trace restricted to the considered activities -/
def restrict (acts tr : List α) : List α := tr.filter fun y => decide (y ∈ acts)

theorem countP_replicates {β : Type} [DecidableEq β] (d : Dict β Int) (hd : ∀ e ∈ d, 0 ≤ e.2) (p : β → Bool) :
    ((d.flatMap fun e => List.replicate e.2.toNat e.1).countP p : Int) = total d p := by
  induction d with
  | nil => simp [total]
  | cons e d ih =>
    rw [List.flatMap_cons, List.countP_append]
    have := ih (fun e he => hd e (by simp [he]))
    have h0 := hd e (by simp)
    unfold total at this ⊢
    rw [Nat.cast_add, this]
    by_cases hp : p e.1 = true
    · simp [hp, List.countP_replicate]
      omega
    · simp [hp, List.countP_replicate]

theorem ofList_nonneg {β : Type} [DecidableEq β] (l : List β) : ∀ e ∈ (ofList l : Dict β Int), 0 ≤ e.2 := by
  intro e he
  have h := get?_of_mem_nodup (nodup_ofList l) (k := e.1) (v := e.2) he
  have h2 : count (ofList l) e.1 = e.2 := by simp [count, h]
  rw [← h2, ofList, count_update]
  simp

theorem rows_countP (acts : List α) (log : List (List α)) (p : List α → Bool) :
    (rows acts log).countP p = log.countP fun t => p (restrict acts t) := by
  have h := countP_replicates (ofList (log.map fun t => t.filter fun y => decide (y ∈ acts))) (ofList_nonneg _) p
  rw [total_ofList] at h
  have h' := Int.ofNat.inj h
  rw [rows, h', List.countP_map]
  rfl

theorem rows_length (acts : List α) (log : List (List α)) : (rows acts log).length = log.length := by
  have := rows_countP acts log (fun _ => true)
  simpa using this

theorem mem_rows (acts : List α) (log : List (List α)) (t : List α) : t ∈ rows acts log ↔ ∃ t' ∈ log, restrict acts t' = t := by
  have := rows_countP acts log (fun x => decide (x = t))
  constructor
  · intro h
    have h1 : 0 < (rows acts log).countP (fun x => decide (x = t)) := List.countP_pos_iff.2 ⟨t, h, by simp⟩
    rw [this] at h1
    obtain ⟨t', ht', he⟩ := List.countP_pos_iff.1 h1
    exact ⟨t', ht', by simpa using he⟩
  · rintro ⟨t', ht', he⟩
    have h1 : 0 < log.countP (fun x => decide (restrict acts x = t)) := List.countP_pos_iff.2 ⟨t', ht', by simp [he]⟩
    rw [← this] at h1
    obtain ⟨x, hx, he⟩ := List.countP_pos_iff.1 h1
    have : x = t := by simpa using he
    exact this ▸ hx

/-- the constraints discovery considers: the template has columns, the activities are considered, and a couple consists of two
different activities -/
def Selectable (al : Allowed) (acts : List α) (r : Rule α) : Prop :=
  (match r with | .un t _ => al.colUn t = true | .bi t _ _ => al.colBi t = true) ∧ Over acts r ∧ Distinct r

theorem mem_allUT (t : UT) : t ∈ allUT := by cases t <;> simp [allUT]
theorem mem_allBT (t : BT) : t ∈ allBT := by cases t <;> simp [allBT]

theorem mem_columns (al : Allowed) (acts : List α) (r : Rule α) : r ∈ columns al acts ↔ Selectable al acts r := by
  unfold columns Selectable
  cases r with
  | un t a =>
    simp only [List.mem_append, List.mem_flatMap, List.mem_filter, List.mem_map, Over, Distinct]
    constructor
    · rintro (⟨t', ⟨-, h⟩, a', ha, he⟩ | ⟨t', -, a', -, b', -, he⟩)
      · cases he; exact ⟨h, ha, trivial⟩
      · cases he
    · rintro ⟨h, ha, -⟩
      exact .inl ⟨t, ⟨mem_allUT t, h⟩, a, ha, rfl⟩
  | bi t a b =>
    simp only [List.mem_append, List.mem_flatMap, List.mem_filter, List.mem_map, Over, Distinct]
    constructor
    · rintro (⟨t', ⟨-, h⟩, a', ha, he⟩ | ⟨t', ⟨-, h⟩, a', ha, b', ⟨hb, hne⟩, he⟩)
      · cases he
      · cases he
        exact ⟨h, ⟨ha, hb⟩, Ne.symm (of_decide_eq_true hne)⟩
    · rintro ⟨h, ⟨ha, hb⟩, hne⟩
      exact .inr ⟨t, ⟨mem_allBT t, h⟩, a, ha, b, ⟨hb, decide_eq_true (Ne.symm hne)⟩, rfl⟩

open Classical in
/-- number of traces of the log that activate the constraint, and that moreover are measured as meeting it -/
noncomputable def suppOf (acts : List α) (log : List (List α)) (r : Rule α) : Nat :=
  log.countP fun t => decide (Activated (restrict acts t) r)
open Classical in
noncomputable def confOf (acts : List α) (log : List (List α)) (r : Rule α) : Nat :=
  log.countP fun t => decide (Activated (restrict acts t) r ∧ Measured (restrict acts t) r)

theorem support_col (acts : List α) (log : List (List α)) (r : Rule α) (ho : Over acts r) (hd : Distinct r) :
    support ((rows acts log).map fun t => value acts t r) = suppOf acts log r := by
  classical
  unfold support suppOf
  rw [← List.countP_eq_length_filter, List.countP_map, rows_countP]
  apply List.countP_congr
  intro t _
  simp only [Function.comp, C25_values acts _ r ho hd, decide_eq_true_eq]
  split
  · split <;> simp [*]
  · simp [*]

theorem confidence_col (acts : List α) (log : List (List α)) (r : Rule α) (ho : Over acts r) (hd : Distinct r) :
    confidence ((rows acts log).map fun t => value acts t r) = confOf acts log r := by
  classical
  unfold confidence confOf
  rw [← List.countP_eq_length_filter, List.countP_map, rows_countP]
  apply List.countP_congr
  intro t _
  simp only [Function.comp, C25_values acts _ r ho hd, decide_eq_true_eq]
  split
  · split <;> simp [*]
  · simp [*]

theorem mem_table {al : Allowed} {acts : List α} {log : List (List α)} {e : Rule α × List Int}
    (h : e ∈ (columns al acts).map fun r => (r, (rows acts log).map fun t => value acts t r)) :
    Selectable al acts e.1 ∧ support e.2 = suppOf acts log e.1 ∧ confidence e.2 = confOf acts log e.1 := by
  obtain ⟨r, hr, rfl⟩ := List.mem_map.1 h
  have hs := (mem_columns al acts r).1 hr
  exact ⟨hs, support_col acts log r hs.2.1 hs.2.2, confidence_col acts log r hs.2.1 hs.2.2⟩

theorem mem_select {al : Allowed} {acts : List α} {log : List (List α)} {n : Nat} {th : Rat × Rat} (f : Found α) :
    f ∈ selectRules n ((columns al acts).map fun r => (r, (rows acts log).map fun t => value acts t r)) th ↔
      Selectable al acts f.rule ∧ f.support = suppOf acts log f.rule ∧ f.confidence = confOf acts log f.rule ∧
      (f.support : Rat) > n * th.1 ∧ (f.confidence : Rat) > f.support * th.2 := by
  unfold selectRules
  rw [List.mem_filterMap]
  constructor
  · rintro ⟨e, he, h⟩
    obtain ⟨h1, h2, h3⟩ := mem_table he
    split at h
    · split at h
      · cases h
        exact ⟨h1, h2, h3, by assumption, by assumption⟩
      · cases h
    · cases h
  · rintro ⟨h1, h2, h3, h4, h5⟩
    refine ⟨_, List.mem_map.2 ⟨f.rule, (mem_columns al acts _).2 h1, rfl⟩, ?_⟩
    simp only [support_col acts log _ h1.2.1 h1.2.2, confidence_col acts log _ h1.2.1 h1.2.2, ← h2, ← h3]
    rw [if_pos h4, if_pos h5]

end Declare

/-- Specification: the templates whose values are needed for a template with one / two activities (itself included) -/
def Declare.needsUn : UT → List UT
  | .absence => [.absence, .existence]
  | t => [t]
def Declare.needsBi : BT → List BT
  | .succession => [.succession, .response, .precedence]
  | .altSuccession => [.altSuccession, .altResponse, .altPrecedence]
  | .chainSuccession => [.chainSuccession, .chainResponse, .chainPrecedence]
  | .coexistence => [.coexistence, .respondedExistence]
  | .nonCoexistence => [.nonCoexistence, .coexistence, .respondedExistence]
  | .nonSuccession => [.nonSuccession, .succession, .response, .precedence]
  | .nonChainSuccession => [.nonChainSuccession, .chainSuccession, .chainResponse, .chainPrecedence]
  | t => [t]

/-- C25: the constraints that discovery looks at: the template and those it is computed from are allowed, and the activities are
considered and different. -/
theorem C25_selectable (al : Allowed) (acts : List α) :
    (∀ t a, Selectable al acts (.un t a) ↔ (∀ u ∈ needsUn t, al.un u = true) ∧ a ∈ acts) ∧
    (∀ t a b, Selectable al acts (.bi t a b) ↔ (∀ u ∈ needsBi t, al.bi u = true) ∧ a ∈ acts ∧ b ∈ acts ∧ a ≠ b) := by
  constructor
  · intro t a
    cases t <;> simp [Selectable, Over, Distinct, Allowed.colUn, needsUn]
  · intro t a b
    cases t <;> simp [Selectable, Over, Distinct, Allowed.colBi, needsBi, and_assoc]

/-- C25: the activities considered are the given ones, by default all activities of the log. -/
theorem C25_considered (l : List α) (log : List (List α)) (a : α) :
    (a ∈ activities (some l) log ↔ a ∈ l) ∧ (a ∈ activities none log ↔ ∃ t ∈ log, a ∈ t) := by
  simp [activities]

/-- C25: discovery with given thresholds.  It fails only when init is allowed, some activity is considered and a trace has none of them; otherwise a
constraint is returned exactly when its template is enabled, its activities are considered (and different), and the traces that activate it
are more than the fraction `s` of the log, and those that meet it more than the fraction `c` of them; its support and its confidence are the
numbers of those traces. -/
theorem C25_discover (later : Rule α → Rule α → Bool) (al : Allowed) (considered : Option (List α)) (s c mult : Rat)
    (log : List (List α)) :
    let acts := activities considered log
    (discover later al considered (some (s, c)) mult log = none ↔
      (al.un .init = true ∧ acts ≠ [] ∧ ∃ t ∈ log, ∀ x ∈ t, x ∉ acts)) ∧
    ∀ fs, discover later al considered (some (s, c)) mult log = some fs → ∀ f : Found α, f ∈ fs ↔
      (Selectable al acts f.rule ∧ f.support = suppOf acts log f.rule ∧ f.confidence = confOf acts log f.rule ∧
        (f.support : Rat) > log.length * s ∧ (f.confidence : Rat) > f.support * c) := by
  intro acts
  have hmem : ([] ∈ rows acts log) ↔ ∃ t ∈ log, ∀ x ∈ t, x ∉ acts := by
    rw [mem_rows]
    constructor
    · rintro ⟨t, ht, he⟩
      refine ⟨t, ht, fun x hx hxa => ?_⟩
      have : x ∈ restrict acts t := List.mem_filter.2 ⟨hx, decide_eq_true hxa⟩
      rw [he] at this; simp at this
    · rintro ⟨t, ht, h⟩
      refine ⟨t, ht, List.eq_nil_iff_forall_not_mem.2 fun x hx => ?_⟩
      have := List.mem_filter.1 hx
      exact h x this.1 (of_decide_eq_true this.2)
  constructor
  · rw [← hmem]
    simp only [discover, rulesTable, thresholds]
    split <;> rename_i h
    · simpa using h
    · simpa using h
  · intro fs h f
    simp only [discover, rulesTable, thresholds] at h
    split at h
    · simp at h
    · simp at h
      subst h
      have := mem_select (al := al) (acts := acts) (log := log) (n := (rows acts log).length) (th := (s, c)) f
      rw [rows_length] at this
      rw [← this, rows_length]

namespace Declare

theorem best_some {later : Rule α → Rule α → Bool} {n : Nat} {tab : List (Rule α × List Int)} {c : Rule α × List Int}
    (hn : 0 < n) (h : bestColumn later n tab = some c) :
    c ∈ tab ∧ 0 < support c.2 ∧ ∀ d ∈ tab, 0 < support d.2 → confidence d.2 ≤ confidence c.2 := by
  have hprod : ∀ x : Rule α × List Int, 0 < support x.2 →
      ((support x.2 : Rat) / n) * ((confidence x.2 : Rat) / support x.2) = (confidence x.2 : Rat) / n := by
    intro x hx
    have h1 : (support x.2 : Rat) ≠ 0 := by exact_mod_cast (by omega : support x.2 ≠ 0)
    have h2 : (n : Rat) ≠ 0 := by exact_mod_cast (by omega : n ≠ 0)
    field_simp
  have hpos : (0 : Rat) < n := by exact_mod_cast hn
  induction tab generalizing c with
  | nil => simp [bestColumn] at h
  | cons e tab ih =>
    simp only [bestColumn] at h
    split at h
    · rename_i h0
      obtain ⟨h1, h2, h3⟩ := ih h
      refine ⟨List.mem_cons_of_mem _ h1, h2, fun d hd hs => ?_⟩
      rcases List.mem_cons.1 hd with rfl | hd
      · omega
      · exact h3 d hd hs
    · rename_i h0
      have he : 0 < support e.2 := by omega
      cases hb : bestColumn later n tab with
      | none =>
        simp only [hb, Option.some.injEq] at h
        subst h
        have hno : ∀ d ∈ tab, ¬ 0 < support d.2 := by
          clear ih
          induction tab with
          | nil => simp
          | cons d tab ih2 =>
            simp only [bestColumn] at hb
            split at hb
            · rename_i h0'
              intro d' hd'
              rcases List.mem_cons.1 hd' with rfl | hd'
              · omega
              · exact ih2 hb d' hd'
            · cases hb2 : bestColumn later n tab with
              | none => simp [hb2] at hb
              | some x => simp only [hb2] at hb; split at hb <;> cases hb
        refine ⟨by simp, he, fun d hd hs => ?_⟩
        rcases List.mem_cons.1 hd with rfl | hd
        · exact Nat.le_refl _
        · exact absurd hs (hno d hd)
      | some x =>
        obtain ⟨h1, h2, h3⟩ := ih hb
        simp only [hb] at h
        split at h
        · rename_i hc
          rw [hprod x h2, hprod e he] at hc
          cases h
          have hle : confidence e.2 ≤ confidence c.2 := by
            have : (confidence e.2 : Rat) / n ≤ (confidence c.2 : Rat) / n := by
              rcases hc with hc | hc
              · exact le_of_lt hc
              · exact le_of_eq hc.1.symm
            have := (div_le_div_iff_of_pos_right hpos).1 this
            exact_mod_cast this
          refine ⟨List.mem_cons_of_mem _ h1, h2, fun d hd hs => ?_⟩
          rcases List.mem_cons.1 hd with rfl | hd
          · exact hle
          · exact h3 d hd hs
        · rename_i hc
          rw [hprod x h2, hprod e he] at hc
          cases h
          have hle : confidence x.2 ≤ confidence e.2 := by
            have : (confidence x.2 : Rat) / n ≤ (confidence e.2 : Rat) / n := by
              by_contra hlt
              exact hc (.inl (not_le.1 hlt))
            have := (div_le_div_iff_of_pos_right hpos).1 this
            exact_mod_cast this
          refine ⟨by simp, he, fun d hd hs => ?_⟩
          rcases List.mem_cons.1 hd with rfl | hd
          · exact Nat.le_refl _
          · exact Nat.le_trans (h3 d hd hs) hle

end Declare

/-- C25: discovery with automatic thresholds (non-empty log): there is an activated constraint `best` that the greatest number of
traces meets; the thresholds are its support ratio and its confidence ratio times the multiplier, and the constraints above them are returned.  For a
multiplier in `[0, 1)` `best` itself is returned, if some trace meets it. -/
theorem C25_discover_auto (later : Rule α → Rule α → Bool) (al : Allowed) (considered : Option (List α)) (mult : Rat)
    (log : List (List α)) (hlog : log ≠ []) (fs : List (Found α)) :
    let acts := activities considered log
    discover later al considered none mult log = some fs →
    ∃ best, Selectable al acts best ∧ 0 < suppOf acts log best ∧
      (∀ r, Selectable al acts r → confOf acts log r ≤ confOf acts log best) ∧
      (∀ f : Found α, f ∈ fs ↔ (Selectable al acts f.rule ∧ f.support = suppOf acts log f.rule ∧ f.confidence = confOf acts log f.rule ∧
        (f.support : Rat) > log.length * ((suppOf acts log best : Rat) / log.length * mult) ∧
        (f.confidence : Rat) > f.support * ((confOf acts log best : Rat) / suppOf acts log best * mult))) ∧
      (0 ≤ mult → mult < 1 → 0 < confOf acts log best → ⟨best, suppOf acts log best, confOf acts log best⟩ ∈ fs) := by
  intro acts h
  simp only [discover, rulesTable, thresholds] at h
  split at h
  · simp at h
  · simp only [Option.bind_eq_bind, Option.bind_some] at h
    rw [Option.bind_eq_some_iff] at h
    obtain ⟨th, hth, hsel⟩ := h
    simp only [Option.map_eq_some_iff] at hth
    obtain ⟨c, hc, rfl⟩ := hth
    simp only [Option.pure_def, Option.some.injEq] at hsel
    subst hsel
    have hn : 0 < (rows (activities considered log) log).length := by
      rw [rows_length]; exact List.length_pos_iff.2 hlog
    obtain ⟨h1, h2, h3⟩ := best_some hn hc
    obtain ⟨g1, g2, g3⟩ := mem_table h1
    have hmem : ∀ f : Found α, f ∈ selectRules (rows (activities considered log) log).length
        ((columns al (activities considered log)).map fun r => (r, (rows (activities considered log) log).map fun t => value (activities considered log) t r))
        ((support c.2 : Rat) / (rows (activities considered log) log).length * mult, (confidence c.2 : Rat) / support c.2 * mult) ↔ _ :=
      fun f => mem_select f
    rw [rows_length] at hmem
    rw [g2, g3] at hmem
    refine ⟨c.1, g1, g2 ▸ h2, ?_, ?_, ?_⟩
    · intro r hr
      by_cases hs : 0 < suppOf acts log r
      · have := h3 _ (List.mem_map.2 ⟨r, (mem_columns al acts r).2 hr, rfl⟩)
          (by simp only; rw [support_col acts log r hr.2.1 hr.2.2]; exact hs)
        rw [confidence_col acts log r hr.2.1 hr.2.2, g3] at this
        exact this
      · have hle : confOf acts log r ≤ suppOf acts log r := by
          unfold confOf suppOf
          exact List.countP_mono_left (fun t _ h => by simp at h ⊢; exact h.1)
        omega
    · intro f
      rw [rows_length, g2, g3]
      exact hmem f
    · intro m0 m1 hpos
      rw [rows_length, g2, g3]
      refine (hmem _).2 ⟨g1, rfl, rfl, ?_, ?_⟩
      · have hs : (0 : Rat) < (suppOf acts log c.1 : Rat) := by exact_mod_cast (g2 ▸ h2)
        have hl : (log.length : Rat) ≠ 0 := by
          have := List.length_pos_iff.2 hlog
          exact_mod_cast (by omega : log.length ≠ 0)
        have : (log.length : Rat) * ((suppOf acts log c.1 : Rat) / log.length * mult) = suppOf acts log c.1 * mult := by
          field_simp
        show (suppOf acts log c.1 : Rat) > log.length * ((suppOf acts log c.1 : Rat) / log.length * mult)
        rw [this]
        nlinarith
      · have hs : (suppOf acts log c.1 : Rat) ≠ 0 := by
          have : suppOf acts log c.1 ≠ 0 := Nat.pos_iff_ne_zero.1 (g2 ▸ h2)
          exact_mod_cast this
        have hcp : (0 : Rat) < (confOf acts log c.1 : Rat) := by exact_mod_cast hpos
        have : (suppOf acts log c.1 : Rat) * ((confOf acts log c.1 : Rat) / suppOf acts log c.1 * mult) = confOf acts log c.1 * mult := by
          field_simp
        show (confOf acts log c.1 : Rat) > suppOf acts log c.1 * ((confOf acts log c.1 : Rat) / suppOf acts log c.1 * mult)
        rw [this]
        nlinarith

end Verif
