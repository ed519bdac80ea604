import Verif.Model.JsonRead
/-!
# The one-character UTF-8 decoder is the inverse of the encoder
-/
set_option linter.unusedSimpArgs false

namespace Verif.JsonRead

theorem scalar_eq_some {n : Nat} {c : Char} : scalar n = some c ↔ c.toNat = n := by
  unfold scalar
  by_cases h : n.isValidChar
  · rw [dif_pos h]
    constructor
    · intro hc
      simp only [Option.some.injEq] at hc
      subst hc
      have : (Char.ofNatAux n h).val.toNat = n := by
        simp only [Char.ofNatAux]
        rfl
      exact this
    · intro hc
      subst hc
      congr 1
  · rw [dif_neg h]
    simp only [reduceCtorEq, false_iff]
    rintro rfl
    exact h c.valid

theorem toNat_ofNat {n : Nat} (h : n < 256) : (UInt8.ofNat n).toNat = n := by
  simp [UInt8.toNat_ofNat']; omega

theorem u8_eq {a : UInt8} {n : Nat} (h : n < 256) : a = UInt8.ofNat n ↔ a.toNat = n := by
  constructor
  · rintro rfl; exact toNat_ofNat h
  · rintro rfl; simp

theorem char_bound (c : Char) : c.toNat < 0xD800 ∨ (0xDFFF < c.toNat ∧ c.toNat < 0x110000) := by
  have := c.valid
  simp only [UInt32.isValidChar, Nat.isValidChar] at this
  exact this

/-- The encoder, with code points as `toNat`. -/
theorem enc_eq (c : Char) : String.utf8EncodeChar c =
    if c.toNat ≤ 0x7f then [UInt8.ofNat c.toNat]
    else if c.toNat ≤ 0x7ff then [UInt8.ofNat (c.toNat / 64 % 0x20 + 0xc0), UInt8.ofNat (c.toNat % 0x40 + 0x80)]
    else if c.toNat ≤ 0xffff then [UInt8.ofNat (c.toNat / 4096 % 0x10 + 0xe0), UInt8.ofNat (c.toNat / 64 % 0x40 + 0x80),
      UInt8.ofNat (c.toNat % 0x40 + 0x80)]
    else [UInt8.ofNat (c.toNat / 262144 % 0x08 + 0xf0), UInt8.ofNat (c.toNat / 4096 % 0x40 + 0x80),
      UInt8.ofNat (c.toNat / 64 % 0x40 + 0x80), UInt8.ofNat (c.toNat % 0x40 + 0x80)] := rfl

theorem enc_ne_nil (c : Char) : String.utf8EncodeChar c ≠ [] := by
  rw [enc_eq]; split <;> (try split) <;> (try split) <;> simp

theorem enc_length (c : Char) : (String.utf8EncodeChar c).length = c.utf8Size := by simp

theorem enc_iff1 (a : UInt8) (c : Char) : [a] = String.utf8EncodeChar c ↔ c.toNat ≤ 0x7f ∧ a.toNat = c.toNat := by
  rw [enc_eq]
  by_cases h1 : c.toNat ≤ 0x7f
  · simp only [h1, if_true, List.cons.injEq, and_true, true_and]
    rw [u8_eq (by omega)]
  · by_cases h2 : c.toNat ≤ 0x7ff
    · simp [h1, h2]
    · by_cases h3 : c.toNat ≤ 0xffff <;> simp [h1, h2, h3]

theorem enc_iff2 (a b : UInt8) (c : Char) : [a, b] = String.utf8EncodeChar c ↔
    0x7f < c.toNat ∧ c.toNat ≤ 0x7ff ∧ a.toNat = c.toNat / 64 % 0x20 + 0xc0 ∧ b.toNat = c.toNat % 0x40 + 0x80 := by
  rw [enc_eq]
  by_cases h1 : c.toNat ≤ 0x7f
  · simp only [h1, if_true, if_false]; constructor <;> intro h <;> first | omega | simp at h
  · by_cases h2 : c.toNat ≤ 0x7ff
    · simp only [h1, h2, if_true, if_false, List.cons.injEq, and_true, true_and]
      rw [u8_eq (by omega), u8_eq (by omega)]; omega
    · by_cases h3 : c.toNat ≤ 0xffff
      · simp only [h1, h2, h3, if_true, if_false]; constructor <;> intro h <;> first | omega | simp at h
      · simp only [h1, h2, h3, if_true, if_false]; constructor <;> intro h <;> first | omega | simp at h

theorem enc_iff3 (a b d : UInt8) (c : Char) : [a, b, d] = String.utf8EncodeChar c ↔
    0x7ff < c.toNat ∧ c.toNat ≤ 0xffff ∧ a.toNat = c.toNat / 4096 % 0x10 + 0xe0 ∧
      b.toNat = c.toNat / 64 % 0x40 + 0x80 ∧ d.toNat = c.toNat % 0x40 + 0x80 := by
  rw [enc_eq]
  by_cases h1 : c.toNat ≤ 0x7f
  · simp only [h1, if_true, if_false]; constructor <;> intro h <;> first | omega | simp at h
  · by_cases h2 : c.toNat ≤ 0x7ff
    · simp only [h1, h2, if_true, if_false]; constructor <;> intro h <;> first | omega | simp at h
    · by_cases h3 : c.toNat ≤ 0xffff
      · simp only [h1, h2, h3, if_true, if_false, List.cons.injEq, and_true, true_and]
        rw [u8_eq (by omega), u8_eq (by omega), u8_eq (by omega)]; omega
      · simp only [h1, h2, h3, if_true, if_false]; constructor <;> intro h <;> first | omega | simp at h

theorem enc_iff4 (a b d e : UInt8) (c : Char) : [a, b, d, e] = String.utf8EncodeChar c ↔
    0xffff < c.toNat ∧ a.toNat = c.toNat / 262144 % 0x08 + 0xf0 ∧
      b.toNat = c.toNat / 4096 % 0x40 + 0x80 ∧ d.toNat = c.toNat / 64 % 0x40 + 0x80 ∧
      e.toNat = c.toNat % 0x40 + 0x80 := by
  rw [enc_eq]
  by_cases h1 : c.toNat ≤ 0x7f
  · simp only [h1, if_true, if_false]; constructor <;> intro h <;> first | omega | simp at h
  · by_cases h2 : c.toNat ≤ 0x7ff
    · simp only [h1, h2, if_true, if_false]; constructor <;> intro h <;> first | omega | simp at h
    · by_cases h3 : c.toNat ≤ 0xffff
      · simp only [h1, h2, h3, if_true, if_false]; constructor <;> intro h <;> first | omega | simp at h
      · simp only [h1, h2, h3, if_false, List.cons.injEq, and_true, true_and]
        rw [u8_eq (by omega), u8_eq (by omega), u8_eq (by omega), u8_eq (by omega)]; omega

/-- `from_utf8` accepts two to four bytes exactly if they are the encoding of a character. -/
theorem fromUtf8_iff (bs : List UInt8) (c : Char) :
    fromUtf8 bs = some c ↔ 2 ≤ bs.length ∧ bs = String.utf8EncodeChar c := by
  have hb := char_bound c
  match bs with
  | [] => simp [fromUtf8]
  | [a] => simp [fromUtf8]
  | [a, b] =>
    rw [enc_iff2]
    simp only [fromUtf8, List.length_cons, List.length_nil]
    split
    · rw [scalar_eq_some]
      omega
    · simp only [reduceCtorEq, false_iff]; omega
  | [a, b, d] =>
    rw [enc_iff3]
    simp only [fromUtf8, List.length_cons, List.length_nil]
    split
    · by_cases hv : 0x800 ≤ (a.toNat - 0xE0) * 4096 + (b.toNat - 0x80) * 64 + (d.toNat - 0x80)
      · rw [if_pos hv, scalar_eq_some]; omega
      · rw [if_neg hv]; simp only [reduceCtorEq, false_iff]; omega
    · simp only [reduceCtorEq, false_iff]; omega
  | [a, b, d, e] =>
    rw [enc_iff4]
    simp only [fromUtf8, List.length_cons, List.length_nil]
    split
    · by_cases hv : 0x10000 ≤ (a.toNat - 0xF0) * 262144 + (b.toNat - 0x80) * 4096 + (d.toNat - 0x80) * 64 + (e.toNat - 0x80)
      · rw [if_pos hv, scalar_eq_some]; omega
      · rw [if_neg hv]; simp only [reduceCtorEq, false_iff]; omega
    · simp only [reduceCtorEq, false_iff]; omega
  | a :: b :: d :: e :: f :: g =>
    simp only [fromUtf8, reduceCtorEq, false_iff]
    rintro ⟨_, hc⟩
    have h1 := congrArg List.length hc
    rw [enc_length] at h1
    have := Char.utf8Size_le_four c
    simp only [List.length_cons] at h1
    omega

/-- The width announced by the first byte of an encoding is its length. -/
theorem width_enc (c : Char) : ∃ b bs, String.utf8EncodeChar c = b :: bs ∧ utf8CharWidth b = bs.length + 1 ∧
    (bs = [] → b.toNat = c.toNat) := by
  have hb := char_bound c
  rw [enc_eq]
  unfold utf8CharWidth
  by_cases h1 : c.toNat ≤ 0x7f
  · rw [if_pos h1]
    refine ⟨_, _, rfl, ?_, ?_⟩
    · rw [toNat_ofNat (by omega), if_pos (by omega)]; rfl
    · intro _; rw [toNat_ofNat (by omega)]
  · rw [if_neg h1]
    by_cases h2 : c.toNat ≤ 0x7ff
    · rw [if_pos h2]
      refine ⟨_, _, rfl, ?_, by simp⟩
      rw [toNat_ofNat (by omega), if_neg (by omega), if_neg (by omega), if_pos (by omega)]; rfl
    · rw [if_neg h2]
      by_cases h3 : c.toNat ≤ 0xffff
      · rw [if_pos h3]
        refine ⟨_, _, rfl, ?_, by simp⟩
        rw [toNat_ofNat (by omega), if_neg (by omega), if_neg (by omega), if_neg (by omega), if_pos (by omega)]; rfl
      · rw [if_neg h3]
        refine ⟨_, _, rfl, ?_, by simp⟩
        rw [toNat_ofNat (by omega), if_neg (by omega), if_neg (by omega), if_neg (by omega), if_neg (by omega),
          if_pos (by omega)]; rfl

theorem width_one {b : UInt8} (h : utf8CharWidth b = 1) : String.utf8EncodeChar (Char.ofNat b.toNat) = [b] := by
  have hb : b.toNat < 0x80 := by
    unfold utf8CharWidth at h
    repeat' split at h
    all_goals first | omega | assumption
  have hv : b.toNat.isValidChar := by left; omega
  have hc : (Char.ofNat b.toNat).toNat = b.toNat := by
    rw [Char.ofNat, dif_pos hv]
    rfl
  rw [enc_eq, hc, if_pos (by omega)]
  simp

theorem ofNat_toNat (c : Char) : Char.ofNat c.toNat = c := Char.ofNat_toNat c

end Verif.JsonRead
