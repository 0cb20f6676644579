import Verif.Xes.Chunks
set_option linter.unusedSectionVars false
/-
The importer reads chunks of bytes and decodes each chunk on its own (chunk_regex.py:59, 63, 68, 78, 80).
-/
namespace Verif.Xes
open Verif Verif.DfgFile
variable {δ φ : Type}

/-- The UTF-8 encoding of a character. -/
def utf8 (c : Char) : List Nat :=
  let n := c.toNat
  if n < 0x80 then [n]
  else if n < 0x800 then [0xC0 + n / 64, 0x80 + n % 64]
  else if n < 0x10000 then [0xE0 + n / 4096, 0x80 + n / 64 % 64, 0x80 + n % 64]
  else [0xF0 + n / 262144, 0x80 + n / 4096 % 64, 0x80 + n / 64 % 64, 0x80 + n % 64]

/-- The UTF-8 encoding of a text. -/
def encode (s : Str) : List Nat := s.flatMap utf8

/-- `cont.decode("utf-8")` for each chunk (chunk_regex.py:68, 80): the chunks of bytes are decoded to these chunks of
    characters.  If there are none, the importer raises a `UnicodeDecodeError`. -/
def Decoded (bytes : List (List Nat)) (chunks : List Str) : Prop := bytes = chunks.map encode

/-- The result of reading a file in the given chunks of bytes. -/
def ReadsBytes (C : Codec δ φ) (bytes : List (List Nat)) (L : Log δ φ) : Prop :=
  ∃ chunks, Decoded bytes chunks ∧ importChunks C chunks = some L

theorem encode_append (s t : Str) : encode (s ++ t) = encode s ++ encode t := by simp [encode]

theorem encode_flatten (cs : List Str) : encode cs.flatten = (cs.map encode).flatten := by
  induction cs with
  | nil => rfl
  | cons c cs ih => rw [List.flatten_cons, encode_append, ih]; rfl

/-- The length of an encoding is given by its first byte. -/
def lead (b : Nat) : Nat := if b < 0x80 then 1 else if b < 0xE0 then 2 else if b < 0xF0 then 3 else 4

theorem utf8_lead (c : Char) : ∃ b t, utf8 c = b :: t ∧ lead b = (utf8 c).length := by
  unfold utf8
  simp only
  by_cases h1 : c.toNat < 0x80
  · simp only [if_pos h1]; exact ⟨_, _, rfl, by simp [lead, h1]⟩
  · simp only [if_neg h1]
    by_cases h2 : c.toNat < 0x800
    · simp only [if_pos h2]; refine ⟨_, _, rfl, ?_⟩
      unfold lead
      rw [if_neg (by omega), if_pos (by omega)]; rfl
    · simp only [if_neg h2]
      by_cases h3 : c.toNat < 0x10000
      · simp only [if_pos h3]; refine ⟨_, _, rfl, ?_⟩
        unfold lead
        rw [if_neg (by omega), if_neg (by omega), if_pos (by omega)]; rfl
      · simp only [if_neg h3]; refine ⟨_, _, rfl, ?_⟩
        unfold lead
        rw [if_neg (by omega), if_neg (by omega), if_neg (by omega)]; rfl

theorem utf8_inj {c d : Char} (h : utf8 c = utf8 d) : c = d := by
  have key : c.toNat = d.toNat := by
    unfold utf8 at h
    simp only at h
    split at h <;> split at h <;> try split at h
    all_goals (try split at h)
    all_goals (try split at h)
    all_goals (try split at h)
    all_goals (try split at h)
    all_goals (try simp only [List.cons.injEq, List.nil_eq, reduceCtorEq, and_false, and_true] at h)
    all_goals omega
  exact Char.ext (by exact UInt32.toNat_inj.1 key)

/-- Two texts, the second of which starts with the bytes of the first. -/
theorem encode_prefix (u t : Str) (a : List Nat) (h : encode t = encode u ++ a) :
    ∃ t', t = u ++ t' ∧ encode t' = a := by
  induction u generalizing t with
  | nil => exact ⟨t, rfl, h⟩
  | cons c u ih =>
    obtain ⟨b, r, hb, hl⟩ := utf8_lead c
    cases t with
    | nil => simp [encode, hb] at h
    | cons d t =>
      obtain ⟨b', r', hb', hl'⟩ := utf8_lead d
      have h1 : utf8 d ++ encode t = utf8 c ++ (encode u ++ a) := by simpa [encode] using h
      have h2 : b' = b := by
        rw [hb, hb'] at h1; simp only [List.cons_append, List.cons.injEq] at h1; exact h1.1
      have hlen : (utf8 d).length = (utf8 c).length := by rw [← hl, ← hl', h2]
      obtain ⟨e1, e2⟩ := List.append_inj h1 hlen
      obtain ⟨t', ht, he⟩ := ih t e2
      exact ⟨t', by rw [utf8_inj e1, ht]; rfl, he⟩

/-- A part of the encoding of a character is not the encoding of a text. -/
theorem encode_part (c : Char) (t : Str) (a b : List Nat) (ha : a ≠ []) (hb : b ≠ []) (hc : utf8 c = a ++ b) :
    encode t ≠ a := by
  intro h
  obtain ⟨x, r, hx, hl⟩ := utf8_lead c
  cases t with
  | nil => exact ha (by rw [← h]; rfl)
  | cons d t =>
    obtain ⟨y, r', hy, hl'⟩ := utf8_lead d
    have h1 : utf8 d ++ encode t = a := by simpa [encode] using h
    have hxy : x = y := by
      rw [← h1, hy] at hc
      rw [hx] at hc
      simp only [List.cons_append, List.cons.injEq] at hc
      exact hc.1
    have hlen : (utf8 c).length = (utf8 d).length := by rw [← hl, ← hl', hxy]
    have hb' : 0 < b.length := List.length_pos_iff.2 hb
    have h2 : (utf8 c).length = a.length + b.length := by rw [hc, List.length_append]
    have h3 : a.length = (utf8 d).length + (encode t).length := by rw [← h1, List.length_append]
    omega

end Verif.Xes
