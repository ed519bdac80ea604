import Verif.Proofs.CssSyntax
import Verif.Proofs.EcmaSoft
/-!
# Style sheets in which gaps become one blank
-/
set_option linter.unusedSimpArgs false
namespace Verif.Spec.CssSyntax
open Verif.Spec.Html (Soft single easySheetF easySheet sheetToks brokenEscape)
open Verif.Spec.Ecma (soft_take soft_single soft_starts soft_headD soft_while consumed)

/-- `o` has blanks instead of gaps of `s`, and what stands ahead looks the same. -/
structure Look (s o : List Char) : Prop where
  soft : Soft s o
  known : ∀ c ∈ s, isWhitespace c = true → white c = true
  whole : brokenEscape s = false

theorem broken_cons {c : Char} {s : List Char} (h : brokenEscape (c :: s) = false) : brokenEscape s = false := by
  cases s with
  | nil => rfl
  | cons d s =>
    by_cases hc : c = '\\'
    · subst hc
      rw [brokenEscape, Bool.or_eq_false_iff] at h; exact h.2
    · rw [brokenEscape] at h
      · exact h
      · intro d s h' _; exact hc h'

theorem broken_append : ∀ {w r : List Char}, brokenEscape (w ++ r) = false → brokenEscape r = false
  | [], _, h => h
  | _ :: w, _, h => broken_append (w := w) (broken_cons h)

theorem Look.cons {s o : List Char} {c : Char} (h : Look (c :: s) (c :: o)) (hs : Soft s o) : Look s o :=
  ⟨hs, fun d hd => h.known d (List.mem_cons_of_mem _ hd), broken_cons h.whole⟩

theorem Look.take {s o : List Char} {c : Char} (h : Look (c :: s) o) (hc : isWhitespace c = false) : ∃ o', o = c :: o' ∧ Look s o' := by
  obtain ⟨o', rfl, h'⟩ := soft_take h.soft hc
  exact ⟨o', rfl, h.cons h'⟩

/-- Behind a part that is the same in both. -/
theorem Look.behind {w r o : List Char} (hs : Soft r o) (h : ∀ c ∈ w ++ r, isWhitespace c = true → white c = true)
    (hb : brokenEscape (w ++ r) = false) : Look r o :=
  ⟨hs, fun d hd => h d (List.mem_append_right _ hd), broken_append hb⟩

theorem Look.suffix {s r o : List Char} {o0 : List Char} (h : Look s o0) (hr : r <:+ s) (hs : Soft r o) : Look r o := by
  obtain ⟨w, rfl⟩ := hr
  exact .behind hs h.known h.whole

theorem white_ws {c : Char} (h : white c = true) : isWhitespace c = true := by
  simp only [white, newline, Bool.or_eq_true, beq_iff_eq] at h
  rcases h with (((rfl | rfl) | rfl) | rfl) | rfl <;> decide +kernel

theorem white_sp' : white ' ' = true := by decide

theorem white_ne {c d : Char} (h : white c = true) (hd : white d = false) : c ≠ d := by
  rintro rfl; rw [h] at hd; cases hd

theorem white_name {c : Char} (h : white c = true) : nameChar c = false := by
  simp only [white, newline, Bool.or_eq_true, beq_iff_eq] at h
  rcases h with (((rfl | rfl) | rfl) | rfl) | rfl <;> decide +kernel

theorem white_digit {c : Char} (h : white c = true) : digit c = false := by
  simp only [white, newline, Bool.or_eq_true, beq_iff_eq] at h
  rcases h with (((rfl | rfl) | rfl) | rfl) | rfl <;> decide +kernel

theorem white_hex {c : Char} (h : white c = true) : hex c = false := by
  simp only [white, newline, Bool.or_eq_true, beq_iff_eq] at h
  rcases h with (((rfl | rfl) | rfl) | rfl) | rfl <;> decide +kernel

/-- What comes first. -/
theorem Look.head {s o : List Char} (h : Look s o) : (s = [] ∧ o = []) ∨
    (∃ c s' o', s = c :: s' ∧ o = c :: o' ∧ isWhitespace c = false ∧ Look s' o') ∨
    ∃ c s' d o', s = c :: s' ∧ o = d :: o' ∧ white c = true ∧ white d = true := by
  obtain ⟨hs, hk, hb⟩ := h
  cases hs with
  | nil => exact .inl ⟨rfl, rfl⟩
  | @char s o c h =>
    cases hc : isWhitespace c with
    | false => exact .inr (.inl ⟨c, s, o, rfl, rfl, hc, h, fun d hd => hk d (List.mem_cons_of_mem _ hd), broken_cons hb⟩)
    | true => exact .inr (.inr ⟨c, s, c, o, rfl, rfl, hk c List.mem_cons_self hc, hk c List.mem_cons_self hc⟩)
  | @gap w s o h1 h2 _ =>
    cases w with
    | nil => exact absurd rfl h1
    | cons c w => exact .inr (.inr ⟨c, w ++ s, ' ', o, rfl, rfl, hk c (by simp) (h2 c (by simp)), white_sp'⟩)

theorem Look.any {s o : List Char} (h : Look s o) (f : Char → Bool) (hf : ∀ c, white c = true → f c = false) :
    o.head?.any f = s.head?.any f :=
  soft_headD h.soft f (fun c hw hc => hf c (h.known c hc hw)) (hf ' ' white_sp')

theorem Look.headDigit {s o : List Char} (h : Look s o) : headDigit o = headDigit s := by
  have := h.any digit fun _ => white_digit
  revert this
  cases s <;> cases o <;> simp [CssSyntax.headDigit]

theorem Look.head? {s o : List Char} (h : Look s o) {c : Char} (hc : isWhitespace c = false) : o.head? = some c ↔ s.head? = some c := by
  have := h.any (· == c) (fun d hd => by
    simp only [beq_eq_false_iff_ne]; rintro rfl; rw [white_ws hd] at hc; cases hc)
  revert this
  cases s <;> cases o <;> simp
  rename_i a _ b _
  intro h
  rw [← beq_iff_eq (a := b), ← beq_iff_eq (a := a), h]

theorem validEscape_step (s : List Char) : validEscape ('\\' :: s) = !s.head?.any newline := by
  cases s <;> simp [validEscape]

theorem validEscape_other {c : Char} {s : List Char} (hc : c ≠ '\\') : validEscape (c :: s) = false := by
  rw [validEscape]
  · intro d r h; exact hc (List.cons.inj h).1
  · intro h; exact hc (List.cons.inj h).1

theorem broken_step {s : List Char} (h : brokenEscape ('\\' :: s) = false) : s.head?.any newline = false := by
  cases s with
  | nil => rfl
  | cons d s =>
    rw [brokenEscape, Bool.or_eq_false_iff] at h
    simpa using h.1

theorem Look.validEscape {s o : List Char} (h : Look s o) : validEscape o = validEscape s := by
  rcases h.head with ⟨rfl, rfl⟩ | ⟨c, s', o', rfl, rfl, hc, h'⟩ | ⟨c, s', d, o', rfl, rfl, hc, hd⟩
  · rfl
  · by_cases e : c = '\\'
    · subst e
      have h1 := broken_step h.whole
      rw [validEscape_step, validEscape_step, h1]
      rcases h'.head with ⟨rfl, rfl⟩ | ⟨c, s2, o2, rfl, rfl, hc, -⟩ | ⟨c, s2, d, o2, rfl, rfl, hc, hd⟩
      · rfl
      · simpa using h1
      · -- the white space after the backslash
        have hsoft := h'.soft
        generalize hx : c :: s2 = x at hsoft
        generalize hy : d :: o2 = y at hsoft
        cases hsoft with
        | nil => cases hx
        | char z _ =>
          obtain ⟨rfl, -⟩ := List.cons.inj hx
          obtain ⟨rfl, -⟩ := List.cons.inj hy
          simpa using h1
        | gap _ _ _ =>
          obtain ⟨rfl, -⟩ := List.cons.inj hy
          simp [newline]
    · rw [validEscape_other e, validEscape_other e]
  · rw [validEscape_other (white_ne hc (by decide)), validEscape_other (white_ne hd (by decide))]

theorem white_start {c : Char} (h : white c = true) : nameStart c = false := by
  have := white_name h
  simp only [nameChar, Bool.or_eq_false_iff] at this; exact this.1.1

theorem startsName_dash (c : Char) (r : List Char) : startsName ('-' :: c :: r) = (nameStart c || c == '-' || validEscape (c :: r)) := by
  rw [startsName]

theorem startsName_other {c : Char} {r : List Char} (h : c ≠ '-' ∨ r = []) : startsName (c :: r) = (nameStart c || validEscape (c :: r)) := by
  rw [startsName]
  intro d r' h1 h2
  rcases h with h | h
  · exact h h1
  · rw [h] at h2; cases h2

theorem Look.startsName {s o : List Char} (h : Look s o) : startsName o = startsName s := by
  have hv := h.validEscape
  rcases h.head with ⟨rfl, rfl⟩ | ⟨c, s', o', rfl, rfl, hc, h'⟩ | ⟨c, s', d, o', rfl, rfl, hc, hd⟩
  · rfl
  · by_cases e : c = '-'
    · subst e
      have hv' := h'.validEscape
      rcases h'.head with ⟨rfl, rfl⟩ | ⟨c, s2, o2, rfl, rfl, hc, -⟩ | ⟨c, s2, d, o2, rfl, rfl, hc, hd⟩
      · rfl
      · rw [startsName_dash, startsName_dash, hv']
      · rw [startsName_dash, startsName_dash, hv', white_start hc, white_start hd]
        have e1 : (c == '-') = false := by simp only [beq_eq_false_iff_ne]; rintro rfl; revert hc; decide
        have e2 : (d == '-') = false := by simp only [beq_eq_false_iff_ne]; rintro rfl; revert hd; decide
        rw [e1, e2]
    · rw [startsName_other (.inl e), startsName_other (.inl e), hv]
  · rw [startsName_other (.inl (white_ne hc (by decide))), startsName_other (.inl (white_ne hd (by decide))), hv, white_start hc,
      white_start hd]

theorem Look.startsUnsigned {s o : List Char} (h : Look s o) : startsUnsigned o = startsUnsigned s := by
  rcases h.head with ⟨rfl, rfl⟩ | ⟨c, s', o', rfl, rfl, hc, h'⟩ | ⟨c, s', d, o', rfl, rfl, hc, hd⟩
  · rfl
  · simp only [CssSyntax.startsUnsigned, h'.headDigit]
  · have e1 : (c == '.') = false := by simp only [beq_eq_false_iff_ne]; rintro rfl; revert hc; decide
    have e2 : (d == '.') = false := by simp only [beq_eq_false_iff_ne]; rintro rfl; revert hd; decide
    simp only [CssSyntax.startsUnsigned, white_digit hc, white_digit hd, e1, e2, Bool.false_and]

theorem Look.startsNumber {s o : List Char} (h : Look s o) : startsNumber o = startsNumber s := by
  have hu := h.startsUnsigned
  rcases h.head with ⟨rfl, rfl⟩ | ⟨c, s', o', rfl, rfl, hc, h'⟩ | ⟨c, s', d, o', rfl, rfl, hc, hd⟩
  · rfl
  · simp only [CssSyntax.startsNumber, hu, h'.startsUnsigned]
  · have e1 : (c == '+' || c == '-') = false := by
      simp only [Bool.or_eq_false_iff, beq_eq_false_iff_ne]
      constructor <;> (rintro rfl; revert hc; decide)
    have e2 : (d == '+' || d == '-') = false := by
      simp only [Bool.or_eq_false_iff, beq_eq_false_iff_ne]
      constructor <;> (rintro rfl; revert hd; decide)
    simp only [CssSyntax.startsNumber, hu, e1, e2, Bool.false_and]

theorem dropWhite_ws {w : List Char} (h : ∀ c ∈ w, white c = true) (s : List Char) : dropWhite (w ++ s) = dropWhite s := by
  induction w with
  | nil => rfl
  | cons c w ih =>
    rw [List.cons_append, dropWhite, if_pos (h c List.mem_cons_self)]
    exact ih fun d hd => h d (List.mem_cons_of_mem _ hd)

theorem dropWhite_suffix : ∀ s : List Char, dropWhite s <:+ s
  | [] => List.suffix_refl _
  | c :: s => by
    rw [dropWhite]
    split
    · exact (dropWhite_suffix s).trans (List.suffix_cons c s)
    · exact List.suffix_refl _

theorem soft_dropWhite {s o : List Char} (h : Soft s o) (hk : ∀ c ∈ s, isWhitespace c = true → white c = true) :
    Soft (dropWhite s) (dropWhite o) := by
  induction h with
  | nil => exact .nil
  | @char s o c h ih =>
    rw [dropWhite, dropWhite]
    split
    · exact ih fun d hd => hk d (List.mem_cons_of_mem _ hd)
    · exact .char c h
  | @gap w s o h1 h2 h ih =>
    rw [dropWhite_ws (fun c hc => hk c (by simp [hc]) (h2 c hc)), dropWhite, if_pos white_sp']
    exact ih fun d hd => hk d (List.mem_append_right _ hd)

theorem Look.dropWhite {s o : List Char} (h : Look s o) : Look (dropWhite s) (dropWhite o) :=
  h.suffix (dropWhite_suffix s) (soft_dropWhite h.soft h.known)

theorem Look.headQuote {s o : List Char} (h : Look s o) : headQuote o = headQuote s := by
  have := h.any quote (fun c hc => by
    simp only [white, newline, Bool.or_eq_true, beq_iff_eq] at hc
    rcases hc with (((rfl | rfl) | rfl) | rfl) | rfl <;> decide)
  revert this
  cases s <;> cases o <;> simp [CssSyntax.headQuote]

/-! ## Numbers -/

theorem Look.digits {s o : List Char} (h : Look s o) : (digits o).1 = (digits s).1 ∧ Look (digits s).2 (digits o).2 := by
  obtain ⟨hs, hk, hb⟩ := h
  induction hs with
  | nil => exact ⟨rfl, .nil, hk, hb⟩
  | @char s o c h ih =>
    simp only [CssSyntax.digits]
    cases hc : digit c with
    | true =>
      obtain ⟨h1, h2⟩ := ih (fun d hd => hk d (List.mem_cons_of_mem _ hd)) (broken_cons hb)
      simp only [if_true, h1]; exact ⟨trivial, h2⟩
    | false => exact ⟨rfl, .char c h, hk, hb⟩
  | @gap w s o h1 h2 h ih =>
    cases w with
    | nil => exact absurd rfl h1
    | cons c w =>
      have e := white_digit (hk c (by simp) (h2 c (by simp)))
      have e' := white_digit white_sp'
      simp only [List.cons_append, CssSyntax.digits, e, e', Bool.false_eq_true, if_false]
      exact ⟨trivial, .gap (w := c :: w) (by simp) h2 h, hk, hb⟩

theorem Look.sign {s o : List Char} (h : Look s o) : (sign o).1 = (sign s).1 ∧ Look (sign s).2 (sign o).2 := by
  rcases h.head with ⟨rfl, rfl⟩ | ⟨c, s', o', rfl, rfl, hc, h'⟩ | ⟨c, s', d, o', rfl, rfl, hc, hd⟩
  · exact ⟨rfl, h⟩
  · simp only [CssSyntax.sign]
    split
    · exact ⟨rfl, h'⟩
    · exact ⟨rfl, h⟩
  · have e1 : (c == '+' || c == '-') = false := by
      simp only [Bool.or_eq_false_iff, beq_eq_false_iff_ne]
      constructor <;> (rintro rfl; revert hc; decide)
    have e2 : (d == '+' || d == '-') = false := by
      simp only [Bool.or_eq_false_iff, beq_eq_false_iff_ne]
      constructor <;> (rintro rfl; revert hd; decide)
    simp only [CssSyntax.sign, e1, e2, Bool.false_eq_true, if_false]
    exact ⟨trivial, h⟩

theorem Look.fraction {s o : List Char} (h : Look s o) : (fraction o).1 = (fraction s).1 ∧ Look (fraction s).2 (fraction o).2 := by
  rcases h.head with ⟨rfl, rfl⟩ | ⟨c, s', o', rfl, rfl, hc, h'⟩ | ⟨c, s', d, o', rfl, rfl, hc, hd⟩
  · exact ⟨rfl, h⟩
  · simp only [CssSyntax.fraction, h'.headDigit]
    obtain ⟨h1, h2⟩ := h'.digits
    split
    · exact ⟨by rw [h1], h2⟩
    · exact ⟨rfl, h⟩
  · have e1 : (c == '.') = false := by simp only [beq_eq_false_iff_ne]; rintro rfl; revert hc; decide
    have e2 : (d == '.') = false := by simp only [beq_eq_false_iff_ne]; rintro rfl; revert hd; decide
    simp only [CssSyntax.fraction, e1, e2, Bool.false_and, Bool.false_eq_true, if_false]
    exact ⟨trivial, h⟩

theorem Look.exponent {s o : List Char} (h : Look s o) : (exponent o).1 = (exponent s).1 ∧ Look (exponent s).2 (exponent o).2 := by
  rcases h.head with ⟨rfl, rfl⟩ | ⟨c, s', o', rfl, rfl, hc, h'⟩ | ⟨c, s', d, o', rfl, rfl, hc, hd⟩
  · exact ⟨rfl, h⟩
  · obtain ⟨g1, g2⟩ := h'.sign
    obtain ⟨h1, h2⟩ := g2.digits
    simp only [CssSyntax.exponent, g2.headDigit]
    split
    · exact ⟨by rw [h1, g1], h2⟩
    · exact ⟨rfl, h⟩
  · have e1 : (c == 'e' || c == 'E') = false := by
      simp only [Bool.or_eq_false_iff, beq_eq_false_iff_ne]
      constructor <;> (rintro rfl; revert hc; decide)
    have e2 : (d == 'e' || d == 'E') = false := by
      simp only [Bool.or_eq_false_iff, beq_eq_false_iff_ne]
      constructor <;> (rintro rfl; revert hd; decide)
    simp only [CssSyntax.exponent, e1, e2, Bool.false_and, Bool.false_eq_true, if_false]
    exact ⟨trivial, h⟩

theorem Look.number {s o : List Char} (h : Look s o) : (number o).1 = (number s).1 ∧ Look (number s).2 (number o).2 := by
  obtain ⟨a1, a2⟩ := h.sign
  obtain ⟨b1, b2⟩ := a2.digits
  obtain ⟨c1, c2⟩ := b2.fraction
  obtain ⟨d1, d2⟩ := c2.exponent
  simp only [CssSyntax.number]
  exact ⟨by rw [a1, b1, c1, d1], d2⟩

theorem digits_text : ∀ s : List Char, (digits s).1 ++ (digits s).2 = s
  | [] => rfl
  | c :: s => by
    simp only [digits]
    split
    · simp [digits_text s]
    · rfl

theorem sign_text (s : List Char) : (sign s).1 ++ (sign s).2 = s := by
  cases s with
  | nil => rfl
  | cons c s => simp only [sign]; split <;> rfl

theorem fraction_text (s : List Char) : (fraction s).1 ++ (fraction s).2 = s := by
  cases s with
  | nil => rfl
  | cons c s =>
    simp only [fraction]
    split
    · simp [digits_text s]
    · rfl

theorem exponent_text (s : List Char) : (exponent s).1 ++ (exponent s).2 = s := by
  cases s with
  | nil => rfl
  | cons c s =>
    simp only [exponent]
    split
    · have := digits_text (sign s).2
      have := sign_text s
      simp only [List.cons_append, List.append_assoc, digits_text, sign_text]
    · rfl

theorem number_text (s : List Char) : (number s).1 ++ (number s).2 = s := by
  simp only [number, List.append_assoc, exponent_text, fraction_text, digits_text, sign_text]

/-! ## Escapes -/

theorem hexDigits_cut {r o : List Char} (h : Look r o) : ∀ (k : Nat) (a v b : List Char), hexDigits k (a ++ r) = (v, b ++ r) →
    hexDigits k (a ++ o) = (v, b ++ o)
  | 0, a, v, b, he => by
    have e : hexDigits 0 (a ++ r) = ([], a ++ r) := by cases a ++ r <;> rfl
    rw [e] at he
    have q := Prod.mk.inj he
    have e2 : a = b := List.append_cancel_right q.2
    rw [e2, ← q.1]
    cases b ++ o <;> rfl
  | k + 1, [], v, b, he => by
    simp only [List.nil_append] at he ⊢
    have hb : b = [] := by
      have := hexDigits_length (k + 1) r
      rw [he] at this
      simp at this
      exact List.eq_nil_of_length_eq_zero (by omega)
    subst hb
    rcases h.head with ⟨rfl, rfl⟩ | ⟨c, s', o', rfl, rfl, hc, -⟩ | ⟨c, s', d, o', rfl, rfl, hc, hd⟩
    · exact he
    · rw [hexDigits] at he ⊢
      cases hx : hex c with
      | true =>
        rw [hx, if_pos rfl] at he
        have := hexDigits_length k s'
        rw [(Prod.mk.inj he).2] at this
        simp at this
        omega
      | false =>
        rw [hx, if_neg (by decide)] at he
        rw [if_neg (by decide), ← (Prod.mk.inj he).1]; rfl
    · rw [hexDigits, white_hex hc, if_neg (by decide)] at he
      rw [hexDigits, white_hex hd, if_neg (by decide), ← (Prod.mk.inj he).1]; rfl
  | k + 1, c :: a, v, b, he => by
    rw [List.cons_append, hexDigits] at he ⊢
    cases hx : hex c with
    | true =>
      rw [hx, if_pos rfl] at he
      obtain ⟨h1, h2⟩ := Prod.mk.inj he
      have := hexDigits_cut h k a (hexDigits k (a ++ r)).1 b (by rw [← h2])
      rw [if_pos rfl, this, ← h1]
    | false =>
      rw [hx, if_neg (by decide)] at he
      obtain ⟨h1, h2⟩ := Prod.mk.inj he
      rw [if_neg (by decide), ← h1]
      rw [← List.cons_append] at h2 ⊢
      rw [List.append_cancel_right h2]

theorem dropWhite1_cut {r o : List Char} (h : Look r o) {a b : List Char} (he : dropWhite1 (a ++ r) = b ++ r) : dropWhite1 (a ++ o) = b ++ o := by
  cases a with
  | nil =>
    simp only [List.nil_append] at he ⊢
    have hb : b = [] := by
      have := dropWhite1_length r
      rw [he] at this
      simp at this
      exact List.eq_nil_of_length_eq_zero (by omega)
    subst hb
    rcases h.head with ⟨rfl, rfl⟩ | ⟨c, s', o', rfl, rfl, hc, -⟩ | ⟨c, s', d, o', rfl, rfl, hc, hd⟩
    · rfl
    · rw [dropWhite1] at he ⊢
      have : white c = false := by
        cases hw : white c with
        | false => rfl
        | true => rw [white_ws hw] at hc; cases hc
      rw [this, if_neg (by decide)]; rfl
    · rw [dropWhite1, if_pos hc] at he
      have := congrArg List.length he
      simp at this
  | cons c a =>
    rw [List.cons_append, dropWhite1] at he ⊢
    split at he
    · rename_i hc; rw [if_pos hc, List.append_cancel_right he]
    · rename_i hc
      rw [if_neg hc]
      rw [← List.cons_append] at he ⊢
      rw [List.append_cancel_right he]

theorem hexDigits_suffix : ∀ (k : Nat) (s : List Char), (hexDigits k s).2 <:+ s
  | 0, s => by cases s <;> exact List.suffix_refl _
  | k + 1, [] => List.suffix_refl _
  | k + 1, c :: s => by
    rw [hexDigits]
    split
    · exact (hexDigits_suffix k s).trans (List.suffix_cons c s)
    · exact List.suffix_refl _

/-- A suffix of `a ++ r` that is not shorter than `r`. -/
theorem suffix_split {a r x : List Char} (h : x <:+ a ++ r) (hl : r.length ≤ x.length) : ∃ b, x = b ++ r := by
  obtain ⟨p, hp⟩ := h
  rcases List.append_eq_append_iff.mp hp with ⟨as, h1, h2⟩ | ⟨bs, h1, h2⟩
  · exact ⟨as, h2⟩
  · have := congrArg List.length h2
    simp at this
    have : bs = [] := List.eq_nil_of_length_eq_zero (by omega)
    subst this
    exact ⟨[], h2.symm⟩

theorem escape_cut {r o : List Char} (h : Look r o) {a b : List Char} {v : Char} (ha : a ≠ []) (he : escape (a ++ r) = (v, b ++ r)) :
    escape (a ++ o) = (v, b ++ o) := by
  cases a with
  | nil => exact absurd rfl ha
  | cons c a =>
    rw [List.cons_append, escape] at he ⊢
    split at he
    · rename_i hc
      rw [if_pos hc]
      rw [← List.cons_append] at he ⊢
      obtain ⟨h1, h2⟩ := Prod.mk.inj he
      have hl := dropWhite1_length (hexDigits 6 (c :: a ++ r)).2
      rw [h2] at hl
      obtain ⟨b', hb'⟩ := suffix_split (a := c :: a) (r := r) (hexDigits_suffix 6 _) (by simp at hl ⊢; omega)
      have hx := hexDigits_cut h 6 (c :: a) (hexDigits 6 (c :: a ++ r)).1 b' (by rw [← hb'])
      rw [hx, ← h1]
      simp only
      rw [hb'] at h2
      rw [dropWhite1_cut h h2]
    · rename_i hc
      rw [if_neg hc]
      obtain ⟨h1, h2⟩ := Prod.mk.inj he
      rw [h1, List.append_cancel_right h2]

theorem escape_suffix (s : List Char) : (escape s).2 <:+ s := by
  cases s with
  | nil => exact List.suffix_refl _
  | cons c s =>
    rw [escape]
    split
    · have h1 : ∀ s : List Char, dropWhite1 s <:+ s := by
        intro s
        cases s with
        | nil => exact List.suffix_refl _
        | cons c s =>
          rw [dropWhite1]
          split
          · exact List.suffix_cons c s
          · exact List.suffix_refl _
      exact (h1 _).trans (hexDigits_suffix 6 _)
    · exact List.suffix_cons c s

theorem escape_shorter {c : Char} {s : List Char} : (escape (c :: s)).2.length ≤ s.length := by
  rw [escape]
  split
  · rename_i hc
    have h1 := dropWhite1_length (hexDigits 6 (c :: s)).2
    have h2 : (hexDigits 6 (c :: s)).2.length ≤ s.length := by
      rw [hexDigits, if_pos hc]; exact hexDigits_length 5 s
    simp only; omega
  · exact Nat.le_refl _

/-! ## Names -/

theorem nameF_suffix : ∀ (n : Nat) (s : List Char), (nameF n s).2 <:+ s
  | 0, s => by cases s <;> exact List.suffix_refl _
  | n + 1, [] => List.suffix_refl _
  | n + 1, c :: s => by
    rw [nameF]
    split
    · exact (nameF_suffix n s).trans (List.suffix_cons c s)
    · split
      · exact (nameF_suffix n _).trans ((escape_suffix s).trans (List.suffix_cons c s))
      · exact List.suffix_refl _

theorem nameF_cut {r o : List Char} (h : Look r o) : ∀ (n m : Nat) (w v : List Char), (w ++ r).length ≤ n → (w ++ o).length ≤ m →
    nameF n (w ++ r) = (v, r) → nameF m (w ++ o) = (v, o) := by
  intro n
  induction n with
  | zero =>
    intro m w v hn hm he
    have h1 : w ++ r = [] := List.eq_nil_of_length_eq_zero (by omega)
    obtain ⟨rfl, rfl⟩ := List.append_eq_nil_iff.mp h1
    rcases h.head with ⟨-, rfl⟩ | ⟨_, _, _, h, _⟩ | ⟨_, _, _, _, h, _⟩
    · have e : nameF 0 ([] ++ ([] : List Char)) = ([], []) := rfl
      rw [e] at he
      rw [← (Prod.mk.inj he).1]
      cases m <;> rfl
    · cases h
    · cases h
  | succ n ih =>
    intro m w v hn hm he
    cases w with
    | nil =>
      simp only [List.nil_append] at he hm hn ⊢
      have hv := h.validEscape
      rcases h.head with ⟨rfl, rfl⟩ | ⟨c, s', o', rfl, rfl, hc, -⟩ | ⟨c, s', d, o', rfl, rfl, hc, hd⟩
      · rw [nameF] at he
        · rw [← (Prod.mk.inj he).1]; cases m <;> rfl
        · intros; contradiction
      · cases m with
        | zero => simp at hm
        | succ m =>
          rw [nameF] at he ⊢
          rw [hv]
          split at he
          · have := nameF_length n s'
            rw [(Prod.mk.inj he).2] at this; simp at this; omega
          · rename_i h1
            rw [if_neg h1]
            split at he
            · have := nameF_length n (escape s').2
              have h3 := escape_length s'
              rw [(Prod.mk.inj he).2] at this; simp at this; omega
            · rename_i h2
              rw [if_neg h2, ← (Prod.mk.inj he).1]
      · cases m with
        | zero => simp at hm
        | succ m =>
          have e1 : validEscape (c :: s') = false := validEscape_other (by rintro rfl; revert hc; decide)
          rw [nameF, white_name hc, if_neg (by decide), e1, if_neg (by decide)] at he
          rw [nameF, white_name hd, if_neg (by decide), hv, e1, if_neg (by decide), ← (Prod.mk.inj he).1]
    | cons c w =>
      cases m with
      | zero => simp at hm
      | succ m =>
        rw [List.cons_append] at he ⊢
        rw [nameF] at he ⊢
        have hm' : (w ++ o).length ≤ m := by simp at hm ⊢; omega
        have hn' : (w ++ r).length ≤ n := by simp at hn ⊢; omega
        cases hc : nameChar c with
        | true =>
          rw [hc, if_pos rfl] at he
          obtain ⟨h1, h2⟩ := Prod.mk.inj he
          have := ih m w (nameF n (w ++ r)).1 hn' hm' (Prod.ext rfl h2)
          rw [if_pos rfl, this, ← h1]
        | false =>
          rw [hc, if_neg (by decide)] at he
          rw [if_neg (by decide)]
          split at he
          · rename_i hv
            obtain ⟨h1, h2⟩ := Prod.mk.inj he
            have hcb : c = '\\' := by
              apply Classical.byContradiction
              intro hne; rw [validEscape_other hne] at hv; cases hv
            subst hcb
            -- what follows the escape
            have hl := nameF_length n (escape (w ++ r)).2
            rw [h2] at hl
            obtain ⟨b, hb⟩ := suffix_split (a := w) (r := r) (escape_suffix _) hl
            cases w with
            | nil =>
              rcases h.head with ⟨rfl, rfl⟩ | ⟨d, s', o', rfl, rfl, -, -⟩ | ⟨d, s', d', o', rfl, rfl, -, -⟩
              · rw [if_pos hv, ← h1]
                have e1 : ∀ n, nameF n ([] : List Char) = ([], []) := by intro n; cases n <;> rfl
                simp only [List.append_nil, escape, e1]
              · have := escape_shorter (c := d) (s := s')
                simp only [List.nil_append] at hl
                simp at hl; omega
              · have := escape_shorter (c := d) (s := s')
                simp only [List.nil_append] at hl
                simp at hl; omega
            | cons d w =>
              have hv' : validEscape ('\\' :: (d :: w ++ o)) = true := by
                rw [validEscape_step] at hv ⊢
                simpa using hv
              have he' := escape_cut h (a := d :: w) (b := b) (v := (escape (d :: w ++ r)).1) (by simp) (by rw [← hb])
              have hbl := escape_length (d :: w ++ r)
              have hbl' := escape_length (d :: w ++ o)
              rw [hb] at hbl
              rw [he'] at hbl'
              simp only at hbl'
              have := ih m b (nameF n (escape (d :: w ++ r)).2).1 (by omega) (by omega) (by rw [← hb]; exact Prod.ext rfl h2)
              rw [if_pos hv', he', ← h1]
              simp only
              rw [this]
          · obtain ⟨h1, h2⟩ := Prod.mk.inj he
            have := congrArg List.length h2
            simp at this; omega

theorem name_cut {r o w v : List Char} (h : Look r o) (he : name (w ++ r) = (v, r)) : name (w ++ o) = (v, o) :=
  nameF_cut h _ _ w v (Nat.le_refl _) (Nat.le_refl _) he

theorem name_suffix (s : List Char) : (name s).2 <:+ s := nameF_suffix _ s

/-! ## Strings and addresses -/

theorem stringF_next (q : Char) (n : Nat) (c : Char) (s : List Char) : stringF q (n + 1) (c :: s) =
    if c = q then (some [], s)
    else if newline c then (none, c :: s)
    else if c = '\\' then
      match s with
      | [] => (some [], [])
      | d :: r =>
        if newline d then stringF q n r
        else ((stringF q n (escape (d :: r)).2).1.map ((escape (d :: r)).1 :: ·), (stringF q n (escape (d :: r)).2).2)
    else ((stringF q n s).1.map (c :: ·), (stringF q n s).2) := by
  cases s <;> rfl

theorem stringF_suffix (q : Char) : ∀ (n : Nat) (s : List Char), (stringF q n s).2 <:+ s
  | 0, s => by cases s <;> exact List.suffix_refl _
  | n + 1, [] => List.suffix_refl _
  | n + 1, c :: s => by
    rw [stringF_next]
    split
    · exact List.suffix_cons c s
    · split
      · exact List.suffix_refl _
      · split
        · cases s with
          | nil => exact List.nil_suffix
          | cons d r =>
            simp only
            split
            · exact (stringF_suffix q n r).trans ((List.suffix_cons d r).trans (List.suffix_cons c _))
            · exact (stringF_suffix q n _).trans ((escape_suffix _).trans (List.suffix_cons c _))
        · exact (stringF_suffix q n s).trans (List.suffix_cons c s)

theorem Look.nil {o : List Char} (h : Look [] o) : o = [] := by
  rcases h.head with ⟨-, h⟩ | ⟨_, _, _, h, _⟩ | ⟨_, _, _, _, h, _⟩
  · exact h
  · cases h
  · cases h

private theorem map_fst {α : Type} {f : α → α} {x : Option α × List Char} {v : α} {r : List Char} (h : (x.1.map f, x.2) = (some v, r)) :
    ∃ u, x = (some u, r) ∧ v = f u := by
  obtain ⟨a, b⟩ := x
  obtain ⟨h1, h2⟩ := Prod.mk.inj h
  cases a with
  | none => cases h1
  | some u => exact ⟨u, by rw [← h2], (Option.some.inj h1).symm⟩

theorem stringF_cut {q : Char} {r o : List Char} (h : Look r o) : ∀ (n m : Nat) (w v : List Char), (w ++ r).length ≤ n →
    (w ++ o).length ≤ m → stringF q n (w ++ r) = (some v, r) → stringF q m (w ++ o) = (some v, o) := by
  intro n
  induction n with
  | zero =>
    intro m w v hn hm he
    have h1 : w ++ r = [] := List.eq_nil_of_length_eq_zero (by omega)
    obtain ⟨rfl, rfl⟩ := List.append_eq_nil_iff.mp h1
    rw [h.nil] at *
    have e : stringF q 0 ([] ++ ([] : List Char)) = (some [], []) := rfl
    rw [e] at he
    rw [← (Prod.mk.inj he).1]
    cases m <;> rfl
  | succ n ih =>
    intro m w v hn hm he
    cases w with
    | nil =>
      simp only [List.nil_append] at he hm hn ⊢
      cases r with
      | nil =>
        rw [h.nil]
        have e : stringF q (n + 1) [] = (some [], []) := rfl
        rw [e] at he
        rw [← (Prod.mk.inj he).1]
        cases m <;> rfl
      | cons c r =>
        exfalso
        rw [stringF_next] at he
        split at he
        · have := congrArg List.length (Prod.mk.inj he).2; simp at this
        split at he
        · cases (Prod.mk.inj he).1
        split at he
        · cases r with
          | nil => cases (Prod.mk.inj he).2
          | cons d r =>
            simp only at he
            split at he
            · have := stringF_length q n r
              rw [he] at this; simp at this; omega
            · have := stringF_length q n (escape (d :: r)).2
              have h3 := escape_length (d :: r)
              rw [(Prod.mk.inj he).2] at this
              simp at this h3; omega
        · have := stringF_length q n r
          rw [(Prod.mk.inj he).2] at this; simp at this; omega
    | cons c w =>
      cases m with
      | zero => simp at hm
      | succ m =>
        rw [List.cons_append] at he ⊢
        rw [stringF_next] at he ⊢
        have hm' : (w ++ o).length ≤ m := by simp at hm ⊢; omega
        have hn' : (w ++ r).length ≤ n := by simp at hn ⊢; omega
        split at he
        · rename_i hq
          obtain ⟨h1, h2⟩ := Prod.mk.inj he
          have : w = [] := by
            have := congrArg List.length h2
            simp at this
            exact this
          subst this
          rw [if_pos hq, h1]; rfl
        rename_i hq
        rw [if_neg hq]
        split at he
        · cases (Prod.mk.inj he).1
        rename_i hnl
        rw [if_neg hnl]
        split at he
        · rename_i hb
          rw [if_pos hb]
          cases w with
          | nil =>
            simp only [List.nil_append] at he ⊢
            cases r with
            | nil => rw [h.nil]; exact he
            | cons d r =>
              exfalso
              simp only at he
              split at he
              · have := stringF_length q n r
                rw [he] at this; simp at this; omega
              · have := stringF_length q n (escape (d :: r)).2
                have h3 := escape_shorter (c := d) (s := r)
                rw [(Prod.mk.inj he).2] at this
                simp at this; omega
          | cons d w =>
            simp only [List.cons_append] at he ⊢
            split at he
            · rename_i hd
              rw [if_pos hd]
              exact ih m w v (by simp at hn' ⊢; omega) (by simp at hm' ⊢; omega) he
            · rename_i hd
              rw [if_neg hd]
              obtain ⟨u, hu, rfl⟩ := map_fst he
              have hl := stringF_length q n (escape (d :: (w ++ r))).2
              rw [hu] at hl
              obtain ⟨b, hb⟩ := suffix_split (a := d :: w) (r := r) (escape_suffix _) hl
              have he' := escape_cut h (a := d :: w) (b := b) (v := (escape (d :: w ++ r)).1) (by simp) (by rw [← hb])
              have hbl := escape_length (d :: w ++ r)
              have hbl' := escape_length (d :: w ++ o)
              rw [hb] at hbl
              rw [he'] at hbl'
              simp only [List.cons_append] at he' hbl hbl' hb
              have := ih m b u (by simp at hbl hn' ⊢; omega) (by simp at hbl' hm' ⊢; omega) (by rw [← hb]; exact hu)
              rw [he']
              simp only
              rw [this]; rfl
        · rename_i hb
          rw [if_neg hb]
          obtain ⟨u, hu, rfl⟩ := map_fst he
          rw [ih m w u hn' hm' hu]; rfl

theorem dropWhite_cut {r o : List Char} : ∀ {a b : List Char}, b ≠ [] → dropWhite (a ++ r) = b ++ r → dropWhite (a ++ o) = b ++ o
  | [], b, hb, he => by
    exfalso
    have := dropWhite_length r
    simp only [List.nil_append] at he
    rw [he] at this
    simp only [List.length_append] at this
    exact hb (List.eq_nil_of_length_eq_zero (by omega))
  | c :: a, b, hb, he => by
    rw [List.cons_append, dropWhite] at he ⊢
    split at he
    · rename_i hc; rw [if_pos hc]; exact dropWhite_cut hb he
    · rename_i hc
      rw [if_neg hc]
      rw [← List.cons_append] at he ⊢
      rw [List.append_cancel_right he]

theorem urlF_cut {r o : List Char} (h : Look r o) : ∀ (n m : Nat) (w v : List Char), (w ++ r).length ≤ n →
    (w ++ o).length ≤ m → urlF n (w ++ r) = (some v, r) → urlF m (w ++ o) = (some v, o) := by
  intro n
  induction n with
  | zero =>
    intro m w v hn hm he
    have h1 : w ++ r = [] := List.eq_nil_of_length_eq_zero (by omega)
    obtain ⟨rfl, rfl⟩ := List.append_eq_nil_iff.mp h1
    rw [h.nil] at *
    have e : urlF 0 ([] ++ ([] : List Char)) = (some [], []) := rfl
    rw [e] at he
    rw [← (Prod.mk.inj he).1]
    cases m <;> rfl
  | succ n ih =>
    intro m w v hn hm he
    cases w with
    | nil =>
      simp only [List.nil_append] at he hm hn ⊢
      cases r with
      | nil =>
        rw [h.nil]
        have e : urlF (n + 1) [] = (some [], []) := rfl
        rw [e] at he
        rw [← (Prod.mk.inj he).1]
        cases m <;> rfl
      | cons c r =>
        exfalso
        rw [urlF] at he
        split at he
        · have := congrArg List.length (Prod.mk.inj he).2; simp at this
        split at he
        · have hdl := dropWhite_length r
          cases hd : dropWhite r with
          | nil => rw [hd] at he; cases (Prod.mk.inj he).2
          | cons d x =>
            rw [hd] at he hdl
            simp only at he
            split at he
            · have := congrArg List.length (Prod.mk.inj he).2
              simp at this hdl; omega
            · cases (Prod.mk.inj he).1
        split at he
        · cases (Prod.mk.inj he).1
        split at he
        · split at he
          · have := urlF_length n (escape r).2
            have h3 := escape_length r
            rw [(Prod.mk.inj he).2] at this
            simp at this; omega
          · cases (Prod.mk.inj he).1
        · have := urlF_length n r
          rw [(Prod.mk.inj he).2] at this; simp at this; omega
    | cons c w =>
      cases m with
      | zero => simp at hm
      | succ m =>
        rw [List.cons_append] at he ⊢
        rw [urlF] at he ⊢
        have hm' : (w ++ o).length ≤ m := by simp at hm ⊢; omega
        have hn' : (w ++ r).length ≤ n := by simp at hn ⊢; omega
        split at he
        · rename_i hq
          obtain ⟨h1, h2⟩ := Prod.mk.inj he
          have : w = [] := by
            have := congrArg List.length h2
            simp at this
            exact this
          subst this
          rw [if_pos hq, h1]; rfl
        rename_i hq
        rw [if_neg hq]
        split at he
        · rename_i hw
          rw [if_pos hw]
          cases hd : dropWhite (w ++ r) with
          | nil =>
            rw [hd] at he
            obtain ⟨h1, h2⟩ := Prod.mk.inj he
            subst h2
            rw [h.nil, hd, h1]
          | cons d x =>
            rw [hd] at he
            simp only at he
            split at he
            · rename_i hdp
              obtain ⟨h1, h2⟩ := Prod.mk.inj he
              subst h2
              have := dropWhite_cut (o := o) (a := w) (b := [d]) (by simp) hd
              rw [this]
              simp only [List.singleton_append]
              rw [if_pos hdp, h1]
            · cases (Prod.mk.inj he).1
        rename_i hw
        rw [if_neg hw]
        split at he
        · cases (Prod.mk.inj he).1
        rename_i hx
        rw [if_neg hx]
        split at he
        · rename_i hb
          rw [if_pos hb]
          split at he
          · rename_i hv
            obtain ⟨u, hu, rfl⟩ := map_fst he
            subst hb
            have hl := urlF_length n (escape (w ++ r)).2
            rw [hu] at hl
            obtain ⟨b, hb⟩ := suffix_split (a := w) (r := r) (escape_suffix _) hl
            cases w with
            | nil =>
              cases r with
              | nil => rw [h.nil, if_pos hv]; simp only [List.append_nil] at hu ⊢; simp only [escape] at hu ⊢
                       have e1 : ∀ n, urlF n ([] : List Char) = (some [], []) := by intro n; cases n <;> rfl
                       rw [e1] at hu ⊢
                       rw [← Option.some.inj (Prod.mk.inj hu).1]; rfl
              | cons d r =>
                exfalso
                have := escape_shorter (c := d) (s := r)
                simp only [List.nil_append] at hl
                simp at hl; omega
            | cons d w =>
              have hv' : validEscape ('\\' :: (d :: w ++ o)) = true := by
                rw [validEscape_step] at hv ⊢
                simpa using hv
              have he' := escape_cut h (a := d :: w) (b := b) (v := (escape (d :: w ++ r)).1) (by simp) (by rw [← hb])
              have hbl := escape_length (d :: w ++ r)
              have hbl' := escape_length (d :: w ++ o)
              rw [hb] at hbl
              rw [he'] at hbl'
              simp only at hbl'
              have := ih m b u (by omega) (by omega) (by rw [← hb]; exact hu)
              rw [if_pos hv', he']
              simp only
              rw [this]; rfl
          · cases (Prod.mk.inj he).1
        · rename_i hb
          rw [if_neg hb]
          obtain ⟨u, hu, rfl⟩ := map_fst he
          rw [ih m w u hn' hm' hu]; rfl

theorem badRest_suffix : ∀ (n : Nat) (s : List Char), s.length ≤ n → badRest s <:+ s := by
  intro n
  induction n with
  | zero =>
    intro s h
    have : s = [] := List.eq_nil_of_length_eq_zero (by omega)
    subst this; exact List.suffix_refl _
  | succ n ih =>
    intro s h
    match s, h with
    | [], _ => exact List.suffix_refl _
    | c :: s, h =>
      rw [badRest.eq_def]
      split
      · exact List.nil_suffix
      · rename_i e; obtain ⟨rfl, rfl⟩ := List.cons.inj e; exact List.suffix_cons _ _
      · rename_i e; obtain ⟨rfl, rfl⟩ := List.cons.inj e
        exact (ih _ (by simp at h ⊢; omega)).trans ((List.suffix_cons _ _).trans (List.suffix_cons _ _))
      · rename_i e; obtain ⟨rfl, rfl⟩ := List.cons.inj e
        exact (ih _ (by simpa using h)).trans (List.suffix_cons _ _)

theorem urlF_suffix : ∀ (n : Nat) (s : List Char), (urlF n s).2 <:+ s
  | 0, s => by cases s <;> exact List.suffix_refl _
  | n + 1, [] => List.suffix_refl _
  | n + 1, c :: s => by
    have hb : ∀ s, badRest s <:+ s := fun s => badRest_suffix _ s (Nat.le_refl _)
    rw [urlF]
    split
    · exact List.suffix_cons c s
    · split
      · have hd := dropWhite_suffix s
        cases hx : dropWhite s with
        | nil => exact List.nil_suffix
        | cons d r =>
          rw [hx] at hd
          simp only
          split
          · exact ((List.suffix_cons d r).trans hd).trans (List.suffix_cons c s)
          · exact ((hb _).trans hd).trans (List.suffix_cons c s)
      · split
        · exact (hb _).trans (List.suffix_cons c s)
        · split
          · split
            · exact (urlF_suffix n _).trans ((escape_suffix _).trans (List.suffix_cons c _))
            · exact (hb _).trans (List.suffix_cons c s)
          · exact (urlF_suffix n s).trans (List.suffix_cons c s)

theorem dropWhite_cut0 {r o : List Char} (h : Look r o) : ∀ {a : List Char}, dropWhite (a ++ r) = r → dropWhite (a ++ o) = o
  | [], he => by
    simp only [List.nil_append] at he ⊢
    rcases h.head with ⟨rfl, rfl⟩ | ⟨c, s', o', rfl, rfl, hc, h'⟩ | ⟨c, s', d, o', rfl, rfl, hc, hd⟩
    · rfl
    · have : white c = false := by
        cases hw : white c with
        | false => rfl
        | true => rw [white_ws hw] at hc; cases hc
      simp [CssSyntax.dropWhite, this]
    · exfalso
      have := dropWhite_length s'
      rw [CssSyntax.dropWhite, if_pos hc] at he
      rw [he] at this; simp at this; omega
  | c :: a, he => by
    rw [List.cons_append, CssSyntax.dropWhite] at he ⊢
    split at he
    · rename_i hc; rw [if_pos hc]; exact dropWhite_cut0 h he
    · have := congrArg List.length he
      simp at this; omega

/-! ## Tokens -/

theorem Look.app {w r o : List Char} {x y : List Char} (h : Look x y) (hx : w ++ r <:+ x) (hs : Soft r o) : Look (w ++ r) (w ++ o) :=
  h.suffix hx (Soft.app (Soft.refl w) hs)

theorem numeric_cut {s o w r o' : List Char} {t : Tok} (h : Look s o) (hs : s = w ++ r) (ho : o = w ++ o') (hr : Look r o')
    (he : numeric s = (t, r)) : numeric o = (t, o') := by
  obtain ⟨h1, h2⟩ := h.number
  have ts := number_text s
  have to := number_text o
  have key : ∀ w2, (number s).2 = w2 ++ r → (number o).2 = w2 ++ o' := by
    intro w2 hw2
    have := List.append_cancel_right (bs := r) (as := (number s).1 ++ w2) (cs := w) (by rw [List.append_assoc, ← hw2, ts, hs])
    have e : (number s).1 ++ (number o).2 = (number s).1 ++ (w2 ++ o') := by
      rw [← List.append_assoc, this, ← ho, ← h1, to]
    exact List.append_cancel_left e
  simp only [numeric] at he ⊢
  rw [h2.startsName, h1]
  split at he
  · rename_i hn
    rw [if_pos hn]
    obtain ⟨e1, e2⟩ := Prod.mk.inj he
    obtain ⟨w2, hw2⟩ := name_suffix (number s).2
    rw [e2] at hw2
    have hk := key w2 hw2.symm
    have := name_cut hr (w := w2) (v := (name (number s).2).1) (by rw [hw2]; exact Prod.ext rfl e2)
    rw [hk, this, ← e1]
  · rename_i hn
    rw [if_neg hn]
    split at he
    · rename_i hp
      obtain ⟨e1, e2⟩ := Prod.mk.inj he
      have hw2 : (number s).2 = ['%'] ++ r := by
        cases hx : (number s).2 with
        | nil => rw [hx] at hp; cases hp
        | cons a b => rw [hx] at hp e2; simp at hp e2; simp [hp, e2]
      have hk := key _ hw2
      rw [hk, if_pos (by rfl), e1]; rfl
    · rename_i hp
      obtain ⟨e1, e2⟩ := Prod.mk.inj he
      have hk := key [] (by rw [e2]; rfl)
      rw [hk]
      rw [e2] at hp
      have hp' : ¬ o'.head? = some '%' := fun e => hp ((hr.head? (by decide +kernel)).mp e)
      simp only [List.nil_append]
      rw [if_neg hp', e1]

theorem identLike_cut {s o w r o' : List Char} {t : Tok} (h : Look s o) (hs : s = w ++ r) (ho : o = w ++ o') (hr : Look r o')
    (ht : t ≠ .badUrl) (he : identLike s = (t, r)) : identLike o = (t, o') := by
  obtain ⟨w1, hw1⟩ := name_suffix s
  simp only [identLike] at he ⊢
  split at he
  · rename_i hp
    obtain ⟨r1, hr1⟩ : ∃ r1, (name s).2 = '(' :: r1 := by
      cases hx : (name s).2 with
      | nil => rw [hx] at hp; cases hp
      | cons a b => rw [hx] at hp; simp at hp; exact ⟨b, by rw [hp]⟩
    rw [hr1] at he hw1
    simp only [List.drop_succ_cons, List.drop_zero] at he
    have hname : name (w1 ++ '(' :: r1) = ((name s).1, '(' :: r1) := by rw [hw1]; exact Prod.ext rfl hr1
    have main : ∀ w2, r1 = w2 ++ r → Look r1 (w2 ++ o') ∧ name o = ((name s).1, '(' :: (w2 ++ o')) := by
      intro w2 hw2
      have hsuf : ['('] ++ (w2 ++ r) <:+ s := ⟨w1, by rw [← hw1, hw2]; simp⟩
      have l1 : Look ('(' :: (w2 ++ r)) ('(' :: (w2 ++ o')) := h.app (w := '(' :: w2) hsuf hr.soft
      have l2 : Look (w2 ++ r) (w2 ++ o') := h.app ((List.suffix_append _ _).trans hsuf) hr.soft
      have ew : w = w1 ++ '(' :: w2 := by
        rw [hs, hw2] at hw1
        have : (w1 ++ '(' :: w2) ++ r = w ++ r := by rw [← hw1]; simp
        exact (List.append_cancel_right this).symm
      refine ⟨by rw [hw2]; exact l2, ?_⟩
      rw [hw2] at hname
      have := name_cut l1 hname
      rw [ho, ew]
      simpa using this
    split at he
    · rename_i hu
      obtain ⟨e1, e2⟩ := Prod.mk.inj he
      cases hv : (urlF (dropWhite r1).length (dropWhite r1)).1 with
      | none => rw [hv] at e1; exact absurd e1.symm ht
      | some v =>
        rw [hv] at e1
        have hux : urlF (dropWhite r1).length (dropWhite r1) = (some v, r) := Prod.ext hv e2
        obtain ⟨w3, hw3⟩ := urlF_suffix (dropWhite r1).length (dropWhite r1)
        rw [e2] at hw3
        obtain ⟨w4, hw4⟩ := dropWhite_suffix r1
        have hw2 : r1 = (w4 ++ w3) ++ r := by rw [← hw4, ← hw3, List.append_assoc]
        obtain ⟨l, hn⟩ := main _ hw2
        have hd : dropWhite ((w4 ++ w3) ++ o') = w3 ++ o' := by
          rw [hw2] at hw3
          cases w3 with
          | nil => exact dropWhite_cut0 hr hw3.symm
          | cons a b => exact dropWhite_cut (by simp) hw3.symm
        have hq := l.dropWhite.headQuote
        rw [hd] at hq
        rw [← hw3] at hux
        have := urlF_cut hr _ (w3 ++ o').length w3 v (Nat.le_refl _) (Nat.le_refl _) hux
        rw [hn]
        simp only [List.head?_cons, List.drop_succ_cons, List.drop_zero, if_true]
        rw [hd, hq, if_pos hu, this]
        rw [← e1]
    · rename_i hu
      obtain ⟨e1, e2⟩ := Prod.mk.inj he
      obtain ⟨l, hn⟩ := main [] (by rw [e2]; rfl)
      have hq := l.dropWhite.headQuote
      rw [hn]
      simp only [List.head?_cons, List.drop_succ_cons, List.drop_zero, if_true, List.nil_append] at hq ⊢
      rw [hq, if_neg hu, e1]
  · rename_i hp
    obtain ⟨e1, e2⟩ := Prod.mk.inj he
    have ew : w = w1 := by
      rw [e2] at hw1
      rw [hs] at hw1
      exact (List.append_cancel_right hw1).symm
    have := name_cut hr (w := w) (v := (name s).1) (by rw [← hs]; exact Prod.ext rfl e2)
    rw [← ho] at this
    rw [this]
    rw [e2] at hp
    have hp' : ¬ o'.head? = some '(' := fun e => hp ((hr.head? (by decide +kernel)).mp e)
    simp only
    rw [if_neg hp', e1]

theorem numeric_suffix (s : List Char) : (numeric s).2 <:+ s := by
  have h : (number s).2 <:+ s := ⟨_, number_text s⟩
  simp only [numeric]
  split
  · exact (name_suffix _).trans h
  split
  · exact (List.drop_suffix _ _).trans h
  · exact h

theorem identLike_suffix (s : List Char) : (identLike s).2 <:+ s := by
  have h : (name s).2 <:+ s := name_suffix s
  simp only [identLike]
  split
  · split
    · exact (urlF_suffix _ _).trans ((dropWhite_suffix _).trans ((List.drop_suffix _ _).trans h))
    · exact (List.drop_suffix _ _).trans h
  · exact h

theorem afterComment_suffix : ∀ s : List Char, afterComment s <:+ s
  | [] => List.suffix_refl _
  | c :: s => by
    rw [afterComment.eq_def]
    split
    · rename_i e; obtain ⟨rfl, rfl⟩ := List.cons.inj e; exact (List.suffix_cons _ _).trans (List.suffix_cons _ _)
    · rename_i e; obtain ⟨rfl, rfl⟩ := List.cons.inj e; exact (afterComment_suffix _).trans (List.suffix_cons _ _)
    · rename_i e; cases e

/-- What a token leaves behind is an end of the text. -/
theorem token_suffix (c : Char) (s : List Char) : (token c s).2 <:+ c :: s ∧ ((token c s).2 <:+ s) := by
  have key : (token c s).2 <:+ c :: s := by
    have hc := List.suffix_cons c s
    unfold token
    split
    · exact (afterComment_suffix _).trans ((List.drop_suffix _ _).trans hc)
    split
    · exact (dropWhite_suffix s).trans hc
    split
    · exact (stringF_suffix _ _ _).trans hc
    split
    · cases s with
      | nil => exact hc
      | cons d r =>
        simp only
        split
        · exact (name_suffix _).trans hc
        · exact hc
    split
    · exact hc
    split
    · exact numeric_suffix _
    split
    · exact (List.drop_suffix _ _).trans hc
    split
    · exact (List.drop_suffix _ _).trans hc
    split
    · exact (name_suffix _).trans hc
    split
    · exact identLike_suffix _
    · exact hc
  refine ⟨key, ?_⟩
  have hl := token_length c s
  rcases List.suffix_cons_iff.mp key with h | h
  · rw [h] at hl; simp at hl; omega
  · exact h

theorem soft_comment {s o : List Char} (h : Soft s o) : Soft (afterComment s) (afterComment o) := by
  induction h with
  | nil => exact .nil
  | @char s o c h ih =>
    by_cases hc : c = '*' ∧ s.head? = some '/'
    · obtain ⟨rfl, hs⟩ := hc
      cases s with
      | nil => cases hs
      | cons d s =>
        simp only [List.head?_cons, Option.some.injEq] at hs
        subst hs
        obtain ⟨o', rfl, h'⟩ := soft_take h (by decide +kernel)
        exact h'
    · have hc' : ¬ (c = '*' ∧ o.head? = some '/') := by
        rintro ⟨rfl, ho⟩
        apply hc
        refine ⟨rfl, ?_⟩
        have := soft_headD h (· == '/') (fun d hd _ => by
          simp only [beq_eq_false_iff_ne]; rintro rfl; revert hd; decide +kernel) (by decide)
        cases s <;> cases o <;> simp_all
      have e : ∀ x : List Char, ¬ (c = '*' ∧ x.head? = some '/') → afterComment (c :: x) = afterComment x := by
        intro x hx
        rw [afterComment.eq_def]
        split
        · rename_i he
          obtain ⟨rfl, rfl⟩ := List.cons.inj he
          exact absurd ⟨rfl, rfl⟩ hx
        · rename_i he; obtain ⟨rfl, rfl⟩ := List.cons.inj he; rfl
        · rename_i he; cases he
      rw [e _ hc, e _ hc']
      exact ih
  | @gap w s o h1 h2 h ih =>
    have e : ∀ (w : List Char), (∀ c ∈ w, isWhitespace c = true) → afterComment (w ++ s) = afterComment s := by
      intro w
      induction w with
      | nil => intro _; rfl
      | cons c w ihw =>
        intro hw
        have hc := hw c List.mem_cons_self
        rw [List.cons_append, afterComment.eq_def]
        split
        · rename_i he
          obtain ⟨rfl, -⟩ := List.cons.inj he
          exact absurd hc (by decide +kernel)
        · rename_i he; obtain ⟨rfl, rfl⟩ := List.cons.inj he; exact ihw fun d hd => hw d (List.mem_cons_of_mem _ hd)
        · rename_i he; cases he
    rw [e w h2]
    have e2 : afterComment (' ' :: o) = afterComment o := by
      rw [afterComment.eq_def]
      split
      · rename_i he; cases (List.cons.inj he).1
      · rename_i he; obtain ⟨-, rfl⟩ := List.cons.inj he; rfl
      · rename_i he; cases he
    rw [e2]; exact ih

theorem hash_eq (s : List Char) : token '#' s =
    if s.head?.any nameChar || validEscape s then (some (.hash (startsName s) (name s).1), (name s).2) else (some (.delim '#'), s) := by
  have hw : white '#' = false := by decide
  have hq : quote '#' = false := by decide
  cases s with
  | nil => simp [token, hw, hq, validEscape]
  | cons d r => simp [token, hw, hq]

theorem soft_take_n {s o p : List Char} (h : Soft s o) (hp : ∀ c ∈ p, isWhitespace c = false) : o.take p.length = p ↔ s.take p.length = p := by
  have := (soft_starts hp h).1
  rw [← List.prefix_iff_eq_take.trans eq_comm, ← List.prefix_iff_eq_take.trans eq_comm, ← List.isPrefixOf_iff_prefix,
    ← List.isPrefixOf_iff_prefix, this]

theorem drop_cut {w r o p : List Char} (h : (w ++ r).take p.length = p) (hd : (w ++ r).drop p.length = r) : (w ++ o).drop p.length = o := by
  have e := List.take_append_drop p.length (w ++ r)
  rw [h, hd] at e
  rw [← List.append_cancel_right e]
  simp

/-- One token that is no white space and not broken. -/
theorem soft_tok {c : Char} {s o w r o' : List Char} {t : Tok} (hs : Look s o) (hcs : Look (c :: s) (c :: o)) (hc : white c = false)
    (ht : token c s = (some t, r)) (h1 : t ≠ .badString) (h2 : t ≠ .badUrl) (hw : s = w ++ r) (ho : o = w ++ o') (hr : Look r o') :
    token c o = (some t, o') := by
  have stay : r = s → o' = o := by
    intro e
    rw [e] at hw
    have : w = [] := by
      have := congrArg List.length hw
      simp at this; exact this
    rw [ho, this]; rfl
  have hname : ∀ {v}, name s = (v, r) → name o = (v, o') := by
    intro v e
    rw [ho]
    rw [hw] at e
    exact name_cut hr e
  by_cases hh : c = '#'
  · subst hh
    rw [hash_eq] at ht ⊢
    rw [hs.any nameChar fun _ => white_name, hs.validEscape, hs.startsName]
    split at ht
    · rename_i hx
      rw [if_pos hx]
      obtain ⟨e1, e2⟩ := Prod.mk.inj ht
      rw [hname (v := (name s).1) (Prod.ext rfl e2), ← e1]
    · rename_i hx
      rw [if_neg hx]
      obtain ⟨e1, e2⟩ := Prod.mk.inj ht
      rw [stay e2.symm, e1]
  unfold token at ht ⊢
  have hcom : (c = '/' ∧ o.head? = some '*') ↔ (c = '/' ∧ s.head? = some '*') := by rw [hs.head? (by decide +kernel)]
  split at ht
  · cases (Prod.mk.inj ht).1
  rename_i hx
  rw [if_neg (fun e => hx (hcom.mp e))]
  rw [hc] at ht ⊢
  rw [if_neg (by simp)] at ht ⊢
  split at ht
  · rename_i hq
    rw [if_pos hq]
    obtain ⟨e1, e2⟩ := Prod.mk.inj ht
    cases hv : (stringF c s.length s).1 with
    | none => rw [hv] at e1; exact absurd (Option.some.inj e1).symm h1
    | some v =>
      rw [hv] at e1
      have := stringF_cut hr s.length o.length w v (by rw [← hw]; exact Nat.le_refl _) (by rw [← ho]; exact Nat.le_refl _)
        (by rw [← hw]; exact Prod.ext hv e2)
      rw [← ho] at this
      rw [this, ← e1]
  rename_i hq
  rw [if_neg hq]
  rw [if_neg hh]
  split at ht
  · rename_i hx
    rw [if_pos hx]
    obtain ⟨e1, e2⟩ := Prod.mk.inj ht
    rw [stay e2.symm, e1]
  rename_i hx
  rw [if_neg hx]
  rw [hcs.startsNumber, hcs.startsName, hs.startsName]
  have t2 := soft_take_n (p := ['-', '>']) hs.soft (by decide +kernel)
  have t3 := soft_take_n (p := ['!', '-', '-']) hs.soft (by decide +kernel)
  simp only [List.length_cons, List.length_nil, Nat.zero_add, Nat.reduceAdd] at t2 t3
  simp only [t2, t3]
  split at ht
  · rename_i hx
    rw [if_pos hx]
    obtain ⟨e1, e2⟩ := Prod.mk.inj ht
    have := numeric_cut hcs (w := c :: w) (r := r) (o' := o') (t := (numeric (c :: s)).1) (by rw [hw]; rfl) (by rw [ho]; rfl) hr (Prod.ext rfl e2)
    rw [this, ← e1]
  rename_i hx
  rw [if_neg hx]
  split at ht
  · rename_i hx
    rw [if_pos hx]
    obtain ⟨e1, e2⟩ := Prod.mk.inj ht
    rw [hw] at e2 hx
    have := drop_cut (o := o') (p := ['-', '>']) hx.2 e2
    rw [ho, ← e1]
    exact congrArg _ this
  rename_i hx
  rw [if_neg hx]
  split at ht
  · rename_i hx
    rw [if_pos hx]
    obtain ⟨e1, e2⟩ := Prod.mk.inj ht
    rw [hw] at e2 hx
    have := drop_cut (o := o') (p := ['!', '-', '-']) hx.2 e2
    rw [ho, ← e1]
    exact congrArg _ this
  rename_i hx
  rw [if_neg hx]
  split at ht
  · rename_i hx
    rw [if_pos hx]
    obtain ⟨e1, e2⟩ := Prod.mk.inj ht
    rw [hname (v := (name s).1) (Prod.ext rfl e2), ← e1]
  rename_i hx
  rw [if_neg hx]
  split at ht
  · rename_i hx
    rw [if_pos hx]
    obtain ⟨e1, e2⟩ := Prod.mk.inj ht
    have := identLike_cut hcs (w := c :: w) (r := r) (o' := o') (t := (identLike (c :: s)).1) (by rw [hw]; rfl) (by rw [ho]; rfl) hr
      (by rw [Option.some.inj e1]; exact h2) (Prod.ext rfl e2)
    rw [this, ← e1]
  rename_i hx
  rw [if_neg hx]
  obtain ⟨e1, e2⟩ := Prod.mk.inj ht
  rw [stay e2.symm, e1]

theorem token_not_white {c : Char} {s r : List Char} (hc : white c = false) : token c s ≠ (some .white, r) := by
  intro ht
  by_cases hh : c = '#'
  · subst hh
    rw [hash_eq] at ht
    split at ht <;> cases (Prod.mk.inj ht).1
  unfold token at ht
  split at ht
  · cases (Prod.mk.inj ht).1
  rw [hc] at ht
  rw [if_neg (by simp)] at ht
  split at ht
  · have := (Prod.mk.inj ht).1
    split at this <;> cases this
  split at ht
  · cases (Prod.mk.inj ht).1
  split at ht
  · have := Option.some.inj (Prod.mk.inj ht).1
    simp only [numeric] at this
    split at this
    · cases this
    split at this <;> cases this
  split at ht
  · cases (Prod.mk.inj ht).1
  split at ht
  · cases (Prod.mk.inj ht).1
  split at ht
  · cases (Prod.mk.inj ht).1
  split at ht
  · have := Option.some.inj (Prod.mk.inj ht).1
    simp only [identLike] at this
    split at this
    · split at this
      · simp only at this
        split at this <;> cases this
      · cases this
    · cases this
  · cases (Prod.mk.inj ht).1

theorem soft_toks : ∀ (n m : Nat) (s o : List Char), s.length ≤ n → o.length ≤ m → Look s o → easySheetF n s = true →
    tokensF m o = tokensF n s := by
  intro n
  induction n with
  | zero =>
    intro m s o hn hm h he
    have : s = [] := List.eq_nil_of_length_eq_zero (by omega)
    subst this
    rw [h.nil]
    cases m <;> rfl
  | succ n ih =>
    intro m s o hn hm h he
    cases s with
    | nil => rw [h.nil]; cases m <;> rfl
    | cons c s =>
      have hlen := token_length c s
      have hn' : s.length ≤ n := by simpa using hn
      rcases h.head with ⟨e, -⟩ | ⟨c', s', o', e, rfl, hc, h'⟩ | ⟨c', s', d, o', e, rfl, hc, hd⟩
      · cases e
      · obtain ⟨rfl, rfl⟩ := List.cons.inj e
        obtain ⟨m, rfl⟩ : ∃ k, m = k + 1 := by cases m with
          | zero => simp at hm
          | succ k => exact ⟨k, rfl⟩
        have hm' : o'.length ≤ m := by simpa using hm
        have hlo := token_length c o'
        have hcw : white c = false := by
          cases hw : white c with
          | false => rfl
          | true => rw [white_ws hw] at hc; cases hc
        rw [easySheetF] at he
        rw [tokensF, tokensF]
        rcases ht : token c s with ⟨_ | t, r⟩
        · rw [ht] at he hlen
          simp only at he hlen ⊢
          -- a comment
          have hcom : c = '/' ∧ s.head? = some '*' ∧ r = afterComment (s.drop 1) := by
            by_cases hx : c = '/' ∧ s.head? = some '*'
            · unfold token at ht
              rw [if_pos hx] at ht
              exact ⟨hx.1, hx.2, ((Prod.mk.inj ht).2).symm⟩
            · exfalso
              by_cases hh : c = '#'
              · subst hh
                rw [hash_eq] at ht
                split at ht <;> cases (Prod.mk.inj ht).1
              · unfold token at ht
                rw [if_neg hx, if_neg (by simp [hcw])] at ht
                split at ht
                · have := (Prod.mk.inj ht).1
                  split at this <;> cases this
                repeat (split at ht; · cases (Prod.mk.inj ht).1)
                cases (Prod.mk.inj ht).1
          obtain ⟨rfl, hs, rfl⟩ := hcom
          cases s with
          | nil => cases hs
          | cons d s =>
            simp only [List.head?_cons, Option.some.injEq] at hs
            subst hs
            obtain ⟨o', rfl, h''⟩ := h'.take (by decide +kernel)
            have e : token '/' ('*' :: o') = (none, afterComment o') := rfl
            rw [e]
            simp only [List.drop_succ_cons, List.drop_zero] at he hlen ⊢
            have hl := afterComment_length o'
            exact ih _ _ _ (by simp at hn' hlen; omega) (by simp at hm'; omega)
              (h''.suffix (afterComment_suffix _) (soft_comment h''.soft)) he
        · rw [ht] at he hlen
          simp only at he hlen ⊢
          have htw : t ≠ .white := by rintro rfl; exact token_not_white hcw ht
          simp only [Bool.and_eq_true, Bool.or_eq_true, beq_iff_eq, htw, false_or, bne_iff_ne, ne_eq, Bool.not_eq_true'] at he
          obtain ⟨⟨⟨⟨hb1, hb2⟩, hsing⟩, hlast⟩, he⟩ := he
          obtain ⟨w, hw⟩ := (token_suffix c s).2
          rw [ht] at hw
          simp only at hw
          have hcons : (c :: s).take ((c :: s).length - r.length) = c :: w := by
            have := consumed (c :: w) r
            rw [List.cons_append, hw] at this
            exact this
          rw [hcons] at hsing hlast
          have hsoft := h.soft
          rw [← hw, ← List.cons_append] at hsoft
          obtain ⟨o2, ho2, hr2⟩ := soft_single (c :: w) hsing (fun d hd => by
            rw [hd] at hlast; simpa using hlast) hsoft
          rw [List.cons_append] at ho2
          have ho' := (List.cons.inj ho2).2
          have hr : Look r o2 := h'.suffix ⟨w, hw⟩ hr2
          have := soft_tok h' h hcw ht hb1 hb2 hw.symm ho' hr
          rw [this]
          simp only
          rw [this] at hlo
          simp only at hlo
          rw [ih m r o2 (by omega) (by omega) hr he]
      · obtain ⟨rfl, rfl⟩ := List.cons.inj e
        obtain ⟨m, rfl⟩ : ∃ k, m = k + 1 := by cases m with
          | zero => simp at hm
          | succ k => exact ⟨k, rfl⟩
        have hm' : o'.length ≤ m := by simpa using hm
        have hdw := h.dropWhite
        rw [dropWhite, if_pos hc, dropWhite, if_pos hd] at hdw
        rw [easySheetF, token_white hc] at he
        rw [tokensF, tokensF, token_white hc, token_white hd]
        simp only [Bool.and_eq_true] at he ⊢
        have l1 := dropWhite_length s
        have l2 := dropWhite_length o'
        rw [ih m _ _ (by omega) (by omega) hdw he.2]

/-- Gaps that become one blank do not change the tokens. -/
theorem soft_sheet {s o : List Char} (he : easySheet s = true) (h : Soft s o) : sheetToks o = sheetToks s := by
  simp only [easySheet, Bool.and_eq_true, Bool.not_eq_true', List.all_eq_true, Bool.or_eq_true] at he
  obtain ⟨⟨h1, h2⟩, h3⟩ := he
  refine soft_toks _ _ s o (Nat.le_refl _) (Nat.le_refl _) ⟨h, fun c hc hw => ?_, h2⟩ h1
  rcases h3 c hc with h | h
  · rw [hw] at h; cases h
  · exact h

end Verif.Spec.CssSyntax
