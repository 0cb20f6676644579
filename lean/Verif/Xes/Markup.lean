import Verif.Xes.Theorems
set_option linter.unusedSectionVars false
/-
C60: the exported file is well-formed for an XML parser: attribute values contain no markup and are recovered by decoding the
entities.
-/
namespace Verif.Xes
open Verif Verif.DfgFile

/-- Specification: the decoding of the predefined entities and character references in an XML attribute value. -/
def decode : Str → Str
  | [] => []
  | '&' :: 'a' :: 'm' :: 'p' :: ';' :: s => '&' :: decode s
  | '&' :: 'l' :: 't' :: ';' :: s => '<' :: decode s
  | '&' :: 'g' :: 't' :: ';' :: s => '>' :: decode s
  | '&' :: 'q' :: 'u' :: 'o' :: 't' :: ';' :: s => '"' :: decode s
  | '&' :: '#' :: '1' :: '0' :: ';' :: s => '\n' :: decode s
  | '&' :: '#' :: '1' :: '3' :: ';' :: s => '\r' :: decode s
  | '&' :: '#' :: '9' :: ';' :: s => '\t' :: decode s
  | c :: s => c :: decode s

theorem decode_ord {c : Char} (h : c ≠ '&') (s : Str) : decode (c :: s) = c :: decode s := by
  rw [decode] <;> (intros; simp_all)

theorem decode_esc (c : Char) (s : Str) : decode (escChar c ++ s) = c :: decode s := by
  unfold escChar
  split
  all_goals try rfl
  rename_i h1 _ _ _ _ _
  exact decode_ord (by intro h; exact h1 h) s

theorem decode_quot (c : Char) (s : Str) :
    decode ((escChar c).flatMap (fun c => if c = '"' then "&quot;".toList else [c]) ++ s) = c :: decode s := by
  unfold escChar
  split
  all_goals try rfl
  rename_i h1 _ _ _ _ _
  by_cases h : c = '"'
  · subst h; rfl
  · simp only [List.flatMap_cons, List.flatMap_nil, if_neg h, List.append_nil, List.singleton_append]
    exact decode_ord (by intro h; exact h1 h) s

theorem not_mem_esc (s : Str) : '<' ∉ s.flatMap escChar ∧ '>' ∉ s.flatMap escChar := by
  constructor <;>
  · intro h
    obtain ⟨c, _, hc⟩ := List.mem_flatMap.1 h
    revert hc
    unfold escChar
    split
    all_goals first | decide | skip
    rename_i h1 h2 h3 _ _ _
    intro hc
    simp only [List.mem_singleton] at hc
    first | exact h2 hc.symm | exact h3 hc.symm

end Verif.Xes

namespace Verif
open Verif.Xes Verif.DfgFile
variable {δ φ : Type}

/-- **C60** A quoted string is a text between two equal quotes that does not contain the quote nor angle brackets, and
    decoding the entities gives the string. -/
theorem C60_quoteattr (s : Str) : ∃ q body, quoteattr s = q :: (body ++ [q]) ∧ (q = '"' ∨ q = '\'') ∧ q ∉ body ∧
    '<' ∉ body ∧ '>' ∉ body ∧ decode body = s := by
  have hd : decode (s.flatMap escChar) = s := by
    induction s with
    | nil => rfl
    | cons c s ih => rw [List.flatMap_cons, decode_esc, ih]
  obtain ⟨h1, h2⟩ := not_mem_esc s
  unfold quoteattr
  simp only
  by_cases hq : '"' ∈ s.flatMap escChar
  · rw [if_pos hq]
    by_cases hq' : '\'' ∈ s.flatMap escChar
    · rw [if_pos hq']
      refine ⟨'"', _, rfl, .inl rfl, ?_, ?_, ?_, ?_⟩
      · intro h
        obtain ⟨c, _, hc⟩ := List.mem_flatMap.1 h
        split at hc
        · revert hc; decide
        · rename_i hne; simp only [List.mem_singleton] at hc; exact hne hc.symm
      · intro h
        obtain ⟨c, hc', hc⟩ := List.mem_flatMap.1 h
        split at hc
        · revert hc; decide
        · simp only [List.mem_singleton] at hc; subst hc; exact h1 hc'
      · intro h
        obtain ⟨c, hc', hc⟩ := List.mem_flatMap.1 h
        split at hc
        · revert hc; decide
        · simp only [List.mem_singleton] at hc; subst hc; exact h2 hc'
      · clear hd h1 h2 hq hq'
        rw [List.flatMap_assoc]
        induction s with
        | nil => rfl
        | cons c s ih => rw [List.flatMap_cons, decode_quot, ih]
    · rw [if_neg hq']
      exact ⟨'\'', _, rfl, .inr rfl, hq', h1, h2, hd⟩
  · rw [if_neg hq]
    exact ⟨'"', _, rfl, .inl rfl, hq, h1, h2, hd⟩

/-- A string with all characters that are escaped. -/
example : quoteattr "a<b>&'\"\n".toList = "\"a&lt;b&gt;&amp;'&quot;&#10;\"".toList := by decide

end Verif
