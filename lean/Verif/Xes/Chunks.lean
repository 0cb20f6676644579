import Verif.Xes.Model
import Verif.DfgFile.Proofs
set_option linter.unusedSectionVars false
/-
Proofs: reading the file in chunks gives the same elements as reading it at once.
-/
namespace Verif.Xes
open Verif Verif.DfgFile

/-- No angle bracket. -/
def NoBr (s : Str) : Prop := '<' ∉ s ∧ '>' ∉ s

/-- A piece on which chunk boundaries have no effect: blank, or starting with a character that is not white space. -/
def GoodPiece (p : Str) : Prop := blank p = true ∨ ∃ c, p.head? = some c ∧ isSpace c = false

/-- The pieces that are processed. -/
def keep (p : Str) : Bool := !blank p && !decide (p = ['<']) && !decide (p = ['>'])

def glue (a : Str) : List Str → List Str
  | [] => [a]
  | p :: ps => (a ++ p) :: ps

/-- A list of pieces followed by more text. -/
def joinL : List Str → Str → List Str
  | [], t => rexSplit t
  | [a], t => glue a (rexSplit t)
  | a :: b :: l, t => a :: joinL (b :: l) t

theorem rexSplit_ne (s : Str) : rexSplit s ≠ [] := by
  cases s with
  | nil => simp [rexSplit]
  | cons c s =>
    simp only [rexSplit]
    split
    · simp
    · split <;> simp

theorem glue_nil (l : List Str) (h : l ≠ []) : glue [] l = l := by
  cases l with
  | nil => exact absurd rfl h
  | cons => rfl

theorem joinL_cons (a : Str) (l : List Str) (h : l ≠ []) (t : Str) : joinL (a :: l) t = a :: joinL l t := by
  cases l with
  | nil => exact absurd rfl h
  | cons => rfl

theorem rexSplit_cons {c : Char} (h : ¬ (c = '<' ∨ c = '>')) (s : Str) : rexSplit (c :: s) = glue [c] (rexSplit s) := by
  simp only [rexSplit, if_neg h]
  cases rexSplit s <;> rfl

theorem glue_glue (a b : Str) (l : List Str) : glue a (glue b l) = glue (a ++ b) l := by
  cases l <;> simp [glue]

theorem glue_join (a : Str) (l : List Str) (h : l ≠ []) (t : Str) : joinL (glue a l) t = glue a (joinL l t) := by
  cases l with
  | nil => exact absurd rfl h
  | cons p l =>
    cases l with
    | nil => simp only [joinL, glue_glue]; rfl
    | cons q l => rfl

theorem rexSplit_append (a b : Str) : rexSplit (a ++ b) = joinL (rexSplit a) b := by
  induction a with
  | nil => simp [rexSplit, joinL, glue_nil _ (rexSplit_ne b)]
  | cons c a ih =>
    by_cases hc : c = '<' ∨ c = '>'
    · simp only [List.cons_append, rexSplit, if_pos hc, ih]
      rw [joinL_cons _ _ (by simp), joinL_cons _ _ (rexSplit_ne a)]
    · rw [List.cons_append, rexSplit_cons hc, rexSplit_cons hc, ih, glue_join _ _ (rexSplit_ne a)]

theorem rexSplit_noBr {a : Str} (h : NoBr a) : rexSplit a = [a] := by
  induction a with
  | nil => rfl
  | cons c a ih =>
    rw [rexSplit_cons, ih ⟨fun hh => h.1 (List.mem_cons_of_mem _ hh), fun hh => h.2 (List.mem_cons_of_mem _ hh)⟩]
    · rfl
    · intro hc
      rcases hc with rfl | rfl
      · exact h.1 (List.mem_cons_self)
      · exact h.2 (List.mem_cons_self)

/-- The invariant of the list of the current chunk: its last element has no bracket. -/
def LastOk (l : List Str) : Prop := ∀ a, l.getLast? = some a → NoBr a

theorem lastOk_tail {a : Str} {l : List Str} (h : LastOk (a :: l)) : LastOk l := by
  cases l with
  | nil => intro x hx; simp at hx
  | cons b l => intro x hx; exact h x (by rw [List.getLast?_cons_cons]; exact hx)

theorem lastOk_rexSplit (s : Str) : LastOk (rexSplit s) := by
  induction s with
  | nil => intro a ha; simp [rexSplit] at ha; subst ha; exact ⟨by simp, by simp⟩
  | cons c s ih =>
    by_cases hc : c = '<' ∨ c = '>'
    · simp only [rexSplit, if_pos hc]
      intro a ha
      apply ih
      revert ha
      cases hs : rexSplit s with
      | nil => exact absurd hs (rexSplit_ne s)
      | cons p ps => simp
    · rw [rexSplit_cons hc]
      revert ih
      cases rexSplit s with
      | nil =>
        intro _ a ha; simp [glue] at ha; subst ha
        refine ⟨?_, ?_⟩ <;> simp <;> rintro rfl <;> simp at hc
      | cons p ps =>
        intro ih
        cases ps with
        | nil =>
          intro a ha; simp [glue] at ha; subst ha
          have := ih p rfl
          refine ⟨?_, ?_⟩
          · simp only [List.mem_cons, not_or]; exact ⟨fun h => hc (Or.inl h.symm), this.1⟩
          · simp only [List.mem_cons, not_or]; exact ⟨fun h => hc (Or.inr h.symm), this.2⟩
        | cons q ps => intro a ha; exact ih a (by simpa [glue] using ha)

theorem blank_append (a b : Str) : blank (a ++ b) = (blank a && blank b) := by simp [blank]

theorem extend_spec (el : Str) (cs : List Str) :
    glue el (rexSplit cs.flatten) = (extend el cs).1 ::
      (if (extend el cs).2.1 = [] then [] else joinL (extend el cs).2.1 (extend el cs).2.2.flatten) ∧
    ((extend el cs).2.1 = [] → (extend el cs).2.2 = []) ∧ LastOk (extend el cs).2.1 := by
  induction cs generalizing el with
  | nil => simp [extend, rexSplit, glue, LastOk]
  | cons c cs ih =>
    unfold extend
    rw [List.flatten_cons, rexSplit_append]
    have hl := lastOk_rexSplit c
    split
    · next h => exact absurd h (rexSplit_ne c)
    · next p h =>
      rw [h]
      simp only [joinL, glue_glue]
      exact ih (el ++ p)
    · next p q ps h =>
      rw [h] at hl ⊢
      exact ⟨by simp [joinL, glue], by simp, lastOk_tail hl⟩

/-- The elements are those between the brackets of the whole text. -/
theorem pieces_eq (lst : List Str) (cs : List Str) (hl : LastOk lst)
    (hg : ∀ p ∈ joinL lst cs.flatten, GoodPiece p) : pieces lst cs = (joinL lst cs.flatten).filter keep := by
  fun_induction pieces lst cs with
  | case1 => simp [joinL, rexSplit, keep, blank]
  | case2 c cs ih =>
    rw [ih (lastOk_rexSplit c)]
    · simp only [joinL, List.flatten_cons, rexSplit_append]
    · simpa only [joinL, List.flatten_cons, rexSplit_append] using hg
  | case3 el lst cs hb ih =>
    cases lst with
    | cons b l =>
      rw [ih (lastOk_tail hl) (fun p hp => hg p (by simp [joinL, hp]))]
      simp [joinL, keep, hb]
    | nil =>
      simp only [joinL] at hg ⊢
      cases hs : rexSplit cs.flatten with
      | nil => exact absurd hs (rexSplit_ne _)
      | cons p ps =>
        rw [hs] at hg
        have h1 := hg (el ++ p) (by simp [glue])
        rw [ih (lastOk_tail hl)]
        · simp only [joinL, hs, glue]
          by_cases he : el = []
          · simp [he]
          · obtain ⟨x, el', rfl⟩ := List.exists_cons_of_ne_nil he
            have hx : isSpace x = true := by simp only [blank, List.all_cons, Bool.and_eq_true] at hb; exact hb.1
            rcases h1 with h1 | ⟨c, hc, hcs⟩
            · have hp : blank p = true := by rw [blank_append, hb] at h1; simpa using h1
              rw [List.filter_cons_of_neg (by simp [keep, hp]), List.filter_cons_of_neg (by rw [keep, h1]; simp)]
            · simp only [List.cons_append, List.head?_cons, Option.some.injEq] at hc
              subst hc; rw [hx] at hcs; cases hcs
        · intro q hq
          simp only [joinL, hs] at hq
          rcases List.mem_cons.1 hq with rfl | hq
          · by_cases he : el = []
            · simpa [he] using h1
            · obtain ⟨x, el', rfl⟩ := List.exists_cons_of_ne_nil he
              have hx : isSpace x = true := by simp only [blank, List.all_cons, Bool.and_eq_true] at hb; exact hb.1
              rcases h1 with h1 | ⟨c, hc, hcs⟩
              · left; rw [blank_append, hb] at h1; simpa using h1
              · simp only [List.cons_append, List.head?_cons, Option.some.injEq] at hc
                subst hc; rw [hx] at hcs; cases hcs
          · exact hg q (by simp [glue, hq])
  | case4 lst cs hb ih =>
    cases lst with
    | nil => exact absurd (hl _ rfl).1 (by simp)
    | cons b l =>
      rw [ih (lastOk_tail hl) (fun p hp => hg p (by simp [joinL, hp]))]
      simp [joinL, keep]
  | case5 lst cs hb h1 ih =>
    cases lst with
    | nil => exact absurd (hl _ rfl).2 (by simp)
    | cons b l =>
      rw [ih (lastOk_tail hl) (fun p hp => hg p (by simp [joinL, hp]))]
      simp [joinL, keep]
  | case6 el hb h1 h2 x lst cs ih =>
    rw [ih (lastOk_tail hl) (fun p hp => hg p (by simp [joinL, hp]))]
    rw [joinL_cons el (x :: lst) (by simp), List.filter_cons_of_pos (a := el) (by simp [keep, hb, h1, h2])]
  | case7 el hb h1 h2 =>
    simp [joinL, rexSplit, glue, keep, hb, h1, h2]
  | case8 el hb h1 h2 c cs ih =>
    obtain ⟨e1, e2, e3⟩ := extend_spec el (c :: cs)
    have hne : keep (extend el (c :: cs)).1 = true := by
      have hmem : ∃ p, (extend el (c :: cs)).1 = el ++ p := by
        cases hs : rexSplit (c :: cs).flatten with
        | nil => exact absurd hs (rexSplit_ne _)
        | cons p ps => rw [hs] at e1; simp only [glue, List.cons.injEq] at e1; exact ⟨p, e1.1.symm⟩
      obtain ⟨p, hp⟩ := hmem
      have hn := hl el rfl
      rw [hp]
      simp only [keep, blank_append, Bool.and_eq_true, Bool.not_eq_true', Bool.and_eq_false_iff, decide_eq_false_iff_not]
      refine ⟨⟨Or.inl (by simpa using hb), ?_⟩, ?_⟩
      · intro hh
        cases el with
        | nil => simp [blank] at hb
        | cons x el => simp only [List.cons_append, List.cons.injEq] at hh; exact hn.1 (by simp [hh.1])
      · intro hh
        cases el with
        | nil => simp [blank] at hb
        | cons x el => simp only [List.cons_append, List.cons.injEq] at hh; exact hn.2 (by simp [hh.1])
    simp only [joinL] at hg ⊢
    rw [e1] at hg ⊢
    rw [List.filter_cons_of_pos hne]
    congr 1
    by_cases h0 : (extend el (c :: cs)).2.1 = []
    · rw [if_pos h0, h0, e2 h0]; simp [pieces]
    · rw [if_neg h0] at hg ⊢
      exact ih e3 (fun p hp => hg p (List.mem_cons_of_mem _ hp))

/-- The elements of a file do not depend on the chunks. -/
theorem pieces_text (cs : List Str) (hg : ∀ p ∈ rexSplit cs.flatten, GoodPiece p) :
    pieces [] cs = (rexSplit cs.flatten).filter keep :=
  pieces_eq [] cs (fun a ha => by simp at ha) hg

end Verif.Xes
