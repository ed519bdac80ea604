import Verif.Proofs.CssSyntax
/-!
# Related texts have the same tokens
-/
set_option linter.unusedSimpArgs false

namespace Verif.Spec.CssSyntax
open Spec.Css

/-! ## Names -/

theorem validEscape_ne {c : Char} (h : c ≠ '\\') (s : List Char) : validEscape (c :: s) = false := by
  unfold validEscape
  split
  · rename_i he; exact absurd (List.cons.inj he).1 h
  · rename_i he; exact absurd (List.cons.inj he).1 h
  · rfl

theorem validEscape_esc {c : Char} (h : newline c = false) (s : List Char) : validEscape ('\\' :: c :: s) = true := by
  simp [validEscape, h]

theorem escape_plain {c : Char} (h : hex c = false) (s : List Char) : escape (c :: s) = (c, s) := by simp [escape, h]

theorem nameF_stop {c : Char} (h : nameChar c = false) (hc : c ≠ '\\') (n : Nat) (s : List Char) : nameF n (c :: s) = ([], c :: s) := by
  cases n with
  | zero => rfl
  | succ n => simp [nameF, h, validEscape_ne hc]

theorem nameF_nil (n : Nat) : nameF n [] = ([], []) := by cases n <;> rfl

theorem nameF_chr {c : Char} (h : nameChar c = true) (n : Nat) (s : List Char) :
    nameF (n + 1) (c :: s) = (c :: (nameF n s).1, (nameF n s).2) := by simp [nameF, h]

theorem nameF_esc {c : Char} (h : hex c = false) (hn : newline c = false) (n : Nat) (s : List Char) :
    nameF (n + 1) ('\\' :: c :: s) = (c :: (nameF n s).1, (nameF n s).2) := by
  simp only [nameF]
  rw [if_neg (by decide), if_pos (validEscape_esc hn s), escape_plain h]

theorem word_stop {p : Char} (hp : isPunct p = false) {s : List Char} (h : glues (some p) s = false) (n : Nat) : nameF n s = ([], s) := by
  rcases glues_word hp h with rfl | ⟨y, r, rfl, hy, hn⟩
  · exact nameF_nil n
  · exact nameF_stop (punct_name hy) hn n r

theorem name_rel (n : Nat) : ∀ (m : Nat) (p : Char) (s o : List Char), s.length ≤ n → o.length ≤ m → isPunct p = false →
    Rel (some p) s o → (nameF n s).1 = (nameF m o).1 ∧
      ∃ q, isPunct q = false ∧ (nameChar p = true → nameChar q = true) ∧ Rel (some q) (nameF n s).2 (nameF m o).2 := by
  induction n with
  | zero =>
    intro m p s o hs ho hp h
    have hs' : s = [] := List.eq_nil_of_length_eq_zero (by omega)
    subst hs'
    rcases h.head with ⟨c, s', o', e, _⟩ | ⟨c, s', o', e, _⟩ | ⟨_, h2⟩
    · cases e
    · cases e
    · rw [word_stop hp h2, nameF_nil]
      exact ⟨rfl, p, hp, id, h⟩
  | succ n ih =>
    intro m p s o hs ho hp h
    rcases h.head with ⟨c, s', o', rfl, rfl, h1, h2, h3, h4, h5⟩ | ⟨c, s', o', rfl, rfl, h1, h2, h3⟩ | ⟨h1, h2⟩
    · cases hc : nameChar c with
      | true =>
        simp only [List.length_cons] at hs ho
        obtain ⟨m, rfl⟩ : ∃ k, m = k + 1 := ⟨m - 1, by omega⟩
        obtain ⟨e, q, hq, hqn, hr⟩ := ih m c s' o' (by omega) (by omega) (nameChar_word hc) h5
        rw [nameF_chr hc, nameF_chr hc]
        exact ⟨by simp [e], q, hq, fun _ => hqn hc, hr⟩
      | false =>
        rw [nameF_stop hc h3, nameF_stop hc h3]
        exact ⟨rfl, p, hp, id, h⟩
    · simp only [List.length_cons] at hs ho
      obtain ⟨m, rfl⟩ : ∃ k, m = k + 1 := ⟨m - 1, by omega⟩
      obtain ⟨e, q, hq, hqn, hr⟩ := ih m 'x' s' o' (by omega) (by omega) (by decide +kernel) h3
      rw [nameF_esc h1 h2, nameF_esc h1 h2]
      exact ⟨by simp [e], q, hq, fun _ => hqn (by decide), hr⟩
    · rw [word_stop hp h1, word_stop hp h2]
      exact ⟨rfl, p, hp, id, h⟩

theorem startsName_ne {c : Char} (h : c ≠ '-') (h' : c ≠ '\\') (s : List Char) : startsName (c :: s) = nameStart c := by
  unfold startsName
  split
  · rename_i he; exact absurd (List.cons.inj he).1 h
  · rename_i he; cases he; simp [validEscape_ne h']
  · rename_i he; cases he

theorem startsName_dash {c : Char} (s : List Char) : startsName ('-' :: c :: s) = (nameStart c || c == '-' || validEscape (c :: s)) := by
  simp [startsName]

theorem startsName_stop {p : Char} (hp : isPunct p = false) {s : List Char} (h : glues (some p) s = false) : startsName s = false := by
  rcases glues_word hp h with rfl | ⟨y, r, rfl, hy, hn⟩
  · rfl
  · have hy' := punct_name hy
    rw [startsName_ne (by rintro rfl; exact absurd hy (by decide +kernel)) hn]
    cases hs : nameStart y with
    | false => rfl
    | true => simp [nameChar, hs] at hy'

theorem startsName_rel {p : Char} {s o : List Char} (hp : isPunct p = false) (h : Rel (some p) s o) : startsName s = startsName o := by
  rcases h.head with ⟨c, s', o', rfl, rfl, h1, h2, h3, h4, h5⟩ | ⟨c, s', o', rfl, rfl, h1, h2, h3⟩ | ⟨h1, h2⟩
  · by_cases hc : c = '-'
    · subst hc
      rcases h5.head with ⟨d, s1, o1, rfl, rfl, _, _, h3', _, _⟩ | ⟨d, s1, o1, rfl, rfl, _, h2', _⟩ | ⟨h1', h2'⟩
      · rw [startsName_dash, startsName_dash, validEscape_ne h3', validEscape_ne h3']
      · rw [startsName_dash, startsName_dash, validEscape_esc h2', validEscape_esc h2']
      · have key : ∀ r, glues (some '-') r = false → startsName ('-' :: r) = false := by
          intro r hr
          rcases glues_word (by decide +kernel) hr with rfl | ⟨y, r, rfl, hy, hn⟩
          · decide
          · rw [startsName_dash, validEscape_ne hn]
            have hy' := punct_name hy
            simp only [nameChar, Bool.or_eq_false_iff] at hy'
            simp [hy'.1.1, hy'.2]
        rw [key _ h1', key _ h2']
    · rw [startsName_ne hc h3, startsName_ne hc h3]
  · simp [startsName, validEscape, h2]
  · rw [startsName_stop hp h1, startsName_stop hp h2]

/-! ## Numbers -/

theorem digit_word {c : Char} (h : digit c = true) : isPunct c = false := nameChar_word (digit_name h)

theorem digit_not {c d : Char} (h : digit d = true) (hc : digit c = false) : d ≠ c := by rintro rfl; rw [h] at hc; cases hc

/-- `p` can stand before the digits of a number. -/
def Pre (p : Char) : Prop := isPunct p = false ∨ p = '+'

theorem headDigit_stop {p : Char} (hp : Pre p) {s : List Char} (h : glues (some p) s = false) : headDigit s = false := by
  rcases hp with hp | rfl
  · rcases glues_word hp h with rfl | ⟨y, r, rfl, hy, hn⟩
    · rfl
    · cases hd : digit y with
      | false => exact hd
      | true => rw [digit_word hd] at hy; cases hy
  · cases s with
    | nil => rfl
    | cons y r =>
      simp only [glues, Bool.or_eq_false_iff] at h
      have := h.1.1.1.1.2
      simp at this
      exact this.1

theorem headDigit_rel {p : Char} {s o : List Char} (hp : Pre p) (h : Rel (some p) s o) : headDigit s = headDigit o := by
  rcases h.head with ⟨c, s', o', rfl, rfl, _⟩ | ⟨c, s', o', rfl, rfl, _⟩ | ⟨h1, h2⟩
  · rfl
  · rfl
  · rw [headDigit_stop hp h1, headDigit_stop hp h2]

theorem digits_none {s : List Char} (h : headDigit s = false) : digits s = ([], s) := by
  cases s with
  | nil => rfl
  | cons c s => simp only [headDigit] at h; simp [digits, h]

theorem digits_rel (s : List Char) : ∀ (p : Char) (o : List Char), Pre p → Rel (some p) s o →
    (digits s).1 = (digits o).1 ∧ ∃ q, ((q = p ∧ headDigit s = false) ∨ digit q = true) ∧ Rel (some q) (digits s).2 (digits o).2 := by
  induction s with
  | nil =>
    intro p o hp h
    have : headDigit o = false := (headDigit_rel hp h).symm
    rw [digits_none this, digits_none rfl]
    exact ⟨rfl, p, .inl ⟨rfl, rfl⟩, h⟩
  | cons c s ih =>
    intro p o hp h
    cases hd : digit c with
    | false =>
      have ho : headDigit o = false := by rw [← headDigit_rel hp h]; exact hd
      rw [digits_none ho, digits_none (s := c :: s) hd]
      exact ⟨rfl, p, .inl ⟨rfl, hd⟩, h⟩
    | true =>
      rcases h.head with ⟨c', s', o', e, rfl, _, _, _, _, h5⟩ | ⟨c', s', o', e, rfl, _, _, h3⟩ | ⟨h1, h2⟩
      · cases e
        obtain ⟨e, q, hq, hr⟩ := ih c o' (.inl (digit_word hd)) h5
        simp only [digits, hd, ↓reduceIte]
        refine ⟨by rw [e], q, .inr ?_, hr⟩
        rcases hq with ⟨rfl, _⟩ | hq
        · exact hd
        · exact hq
      · cases e; exact absurd hd (by decide)
      · have := headDigit_stop hp h1
        simp [headDigit, hd] at this

theorem startsUnsigned_stop {p : Char} (hp : Pre p) {s : List Char} (h : glues (some p) s = false) : startsUnsigned s = false := by
  have hd := headDigit_stop hp h
  cases s with
  | nil => rfl
  | cons y r =>
    simp only [headDigit] at hd
    simp only [startsUnsigned, hd, Bool.false_or]
    rcases hp with hp | rfl
    · rcases glues_word hp h with h | ⟨y', r', e, hy, hn⟩
      · cases h
      · cases e
        have : y ≠ '.' := by rintro rfl; exact absurd hy (by decide +kernel)
        simp [this]
    · simp only [glues, Bool.or_eq_false_iff] at h
      have := h.1.1.1.1.2
      simp [hd] at this
      simp
      exact this

theorem startsUnsigned_rel {p : Char} {s o : List Char} (hp : Pre p) (h : Rel (some p) s o) : startsUnsigned s = startsUnsigned o := by
  rcases h.head with ⟨c, s', o', rfl, rfl, _, _, _, _, h5⟩ | ⟨c, s', o', rfl, rfl, _⟩ | ⟨h1, h2⟩
  · by_cases hc : c = '.'
    · subst hc
      simp only [startsUnsigned, headDigit_rel (.inl (by decide +kernel)) h5]
    · have hc' : (c == '.') = false := by simp [hc]
      simp [startsUnsigned, hc']
  · rfl
  · rw [startsUnsigned_stop hp h1, startsUnsigned_stop hp h2]

theorem startsNumber_rel {c : Char} {s o : List Char} (h : Rel (some c) s o) : startsNumber (c :: s) = startsNumber (c :: o) := by
  have h1 : startsUnsigned (c :: s) = startsUnsigned (c :: o) := by
    by_cases hc : c = '.'
    · subst hc
      simp only [startsUnsigned, headDigit_rel (.inl (by decide +kernel)) h]
    · have hc' : (c == '.') = false := by simp [hc]
      simp [startsUnsigned, hc']
  simp only [startsNumber, h1]
  by_cases hc : c = '+'
  · subst hc; rw [startsUnsigned_rel (.inr rfl) h]
  · by_cases hc' : c = '-'
    · subst hc'; rw [startsUnsigned_rel (.inl (by decide +kernel)) h]
    · have e : (c == '+' || c == '-') = false := by simp [hc, hc']
      simp [e]

theorem fraction_none {s : List Char} (h : startsUnsigned s = false ∨ s.head? ≠ some '.') : fraction s = ([], s) := by
  cases s with
  | nil => rfl
  | cons c s =>
    simp only [fraction]
    rw [if_neg]
    intro hc
    rcases h with h | h
    · simp only [startsUnsigned, Bool.or_eq_false_iff] at h; rw [hc] at h; simp at h
    · simp only [Bool.and_eq_true, beq_iff_eq] at hc; simp [hc.1] at h

theorem fraction_dot {s : List Char} (h : headDigit s = true) : fraction ('.' :: s) = ('.' :: (digits s).1, (digits s).2) := by
  simp [fraction, h]

theorem fraction_rel {p : Char} {s o : List Char} (hp : isPunct p = false) (h : Rel (some p) s o) :
    (fraction s).1 = (fraction o).1 ∧ ∃ q, isPunct q = false ∧ Rel (some q) (fraction s).2 (fraction o).2 := by
  rcases h.head with ⟨c, s', o', rfl, rfl, _, _, _, _, h5⟩ | ⟨c, s', o', rfl, rfl, _⟩ | ⟨h1, h2⟩
  · by_cases hc : c = '.'
    · subst hc
      have hd := headDigit_rel (.inl (by decide +kernel)) h5
      cases hs : headDigit s' with
      | true =>
        rw [fraction_dot hs, fraction_dot (by rw [← hd, hs])]
        obtain ⟨e, q, hq, hr⟩ := digits_rel s' '.' o' (.inl (by decide +kernel)) h5
        refine ⟨by simp [e], q, ?_, hr⟩
        rcases hq with ⟨_, hq⟩ | hq
        · rw [hs] at hq; cases hq
        · exact digit_word hq
      | false =>
        have e1 : fraction ('.' :: s') = ([], '.' :: s') := by simp [fraction, hs]
        have e2 : fraction ('.' :: o') = ([], '.' :: o') := by simp [fraction, ← hd, hs]
        rw [e1, e2]
        exact ⟨rfl, p, hp, h⟩
    · rw [fraction_none (.inr (by simp [hc])), fraction_none (.inr (by simp [hc]))]
      exact ⟨rfl, p, hp, h⟩
  · rw [fraction_none (.inr (by simp)), fraction_none (.inr (by simp))]
    exact ⟨rfl, p, hp, h⟩
  · rw [fraction_none (.inl (startsUnsigned_stop (.inl hp) h1)), fraction_none (.inl (startsUnsigned_stop (.inl hp) h2))]
    exact ⟨rfl, p, hp, h⟩

theorem exponent_none {c : Char} {s : List Char} (h : (c ≠ 'e' ∧ c ≠ 'E') ∨ headDigit (sign s).2 = false) : exponent (c :: s) = ([], c :: s) := by
  simp only [exponent]
  rw [if_neg]
  rcases h with h | h
  · simp [h]
  · simp [h]

theorem sign_stop {c : Char} (hc : c = 'e' ∨ c = 'E') {s : List Char} (h : glues (some c) s = false) : headDigit (sign s).2 = false := by
  have hp : isPunct c = false := by rcases hc with rfl | rfl <;> decide +kernel
  have hd := headDigit_stop (.inl hp) h
  cases s with
  | nil => rfl
  | cons y r =>
    simp only [sign]
    split
    · rename_i hy
      simp only [Bool.or_eq_true, beq_iff_eq] at hy
      rcases hy with rfl | rfl
      · simp only [glues, Bool.or_eq_false_iff] at h
        have h' := h.1.1.2
        have : (c == 'e' || c == 'E') = true := by rcases hc with rfl | rfl <;> decide
        rw [this] at h'
        simpa using h'
      · rcases glues_word hp h with h | ⟨y', r', e, hy, hn⟩
        · cases h
        · cases e; exact absurd hy (by decide +kernel)
    · exact hd

theorem exponent_some {c : Char} {s : List Char} (hc : c = 'e' ∨ c = 'E') (h : headDigit (sign s).2 = true) :
    exponent (c :: s) = (c :: (sign s).1 ++ (digits (sign s).2).1, (digits (sign s).2).2) := by
  simp only [exponent]
  rw [if_pos]
  rcases hc with rfl | rfl <;> simp [h]

theorem exponent_rel {p : Char} {s o : List Char} (hp : isPunct p = false) (h : Rel (some p) s o) :
    (exponent s).1 = (exponent o).1 ∧ ∃ q, isPunct q = false ∧ Rel (some q) (exponent s).2 (exponent o).2 := by
  have none2 : exponent s = ([], s) → exponent o = ([], o) →
      (exponent s).1 = (exponent o).1 ∧ ∃ q, isPunct q = false ∧ Rel (some q) (exponent s).2 (exponent o).2 := by
    intro h1 h2
    rw [h1, h2]
    exact ⟨rfl, p, hp, h⟩
  have stop : ∀ r : List Char, glues (some p) r = false → exponent r = ([], r) := by
    intro r hr
    rcases glues_word hp hr with rfl | ⟨y, r, rfl, hy, hn⟩
    · rfl
    · refine exponent_none (.inl ⟨?_, ?_⟩)
      · rintro rfl; exact absurd hy (by decide +kernel)
      · rintro rfl; exact absurd hy (by decide +kernel)
  rcases h.head with ⟨c, s', o', rfl, rfl, _, _, _, _, h5⟩ | ⟨c, s', o', rfl, rfl, _⟩ | ⟨h1, h2⟩
  · by_cases hc : c = 'e' ∨ c = 'E'
    · have hcp : isPunct c = false := by rcases hc with rfl | rfl <;> decide +kernel
      have key : ∀ q : Char, Pre q → ∀ r r' l : List Char, sign s' = (l, r) → sign o' = (l, r') → Rel (some q) r r' →
          (exponent (c :: s')).1 = (exponent (c :: o')).1 ∧
            ∃ q, isPunct q = false ∧ Rel (some q) (exponent (c :: s')).2 (exponent (c :: o')).2 := by
        intro q hq r r' l es eo hr
        have hd := headDigit_rel hq hr
        cases hs : headDigit r with
        | false =>
          exact none2 (exponent_none (.inr (by rw [es]; exact hs))) (exponent_none (.inr (by rw [eo]; exact hd ▸ hs)))
        | true =>
          rw [exponent_some hc (by rw [es]; exact hs), exponent_some hc (by rw [eo]; exact hd ▸ hs), es, eo]
          obtain ⟨e, q', hq', hr'⟩ := digits_rel r q r' hq hr
          refine ⟨by simp [e], q', ?_, hr'⟩
          rcases hq' with ⟨_, hq'⟩ | hq'
          · rw [hs] at hq'; cases hq'
          · exact digit_word hq'
      rcases h5.head with ⟨d, s1, o1, rfl, rfl, _, _, _, _, h5'⟩ | ⟨d, s1, o1, rfl, rfl, _⟩ | ⟨h1', h2'⟩
      · by_cases hd : (d == '+' || d == '-') = true
        · refine key d ?_ s1 o1 [d] (by simp only [sign]; rw [if_pos hd]) (by simp only [sign]; rw [if_pos hd]) h5'
          simp only [Bool.or_eq_true, beq_iff_eq] at hd
          rcases hd with rfl | rfl
          · exact .inr rfl
          · exact .inl (by decide +kernel)
        · exact key c (.inl hcp) _ _ [] (by simp only [sign]; rw [if_neg hd]) (by simp only [sign]; rw [if_neg hd]) h5
      · exact none2 (exponent_none (.inr rfl)) (exponent_none (.inr rfl))
      · exact none2 (exponent_none (.inr (sign_stop hc h1'))) (exponent_none (.inr (sign_stop hc h2')))
    · have hc' : c ≠ 'e' ∧ c ≠ 'E' := ⟨fun h => hc (.inl h), fun h => hc (.inr h)⟩
      exact none2 (exponent_none (.inl hc')) (exponent_none (.inl hc'))
  · exact none2 (exponent_none (.inl (by decide))) (exponent_none (.inl (by decide)))
  · exact none2 (stop _ h1) (stop _ h2)

/-- Fraction and exponent. -/
theorem tail_rel {p : Char} {s o : List Char} (hp : isPunct p = false) (h : Rel (some p) s o) :
    (fraction s).1 ++ (exponent (fraction s).2).1 = (fraction o).1 ++ (exponent (fraction o).2).1 ∧
      ∃ q, isPunct q = false ∧ Rel (some q) (exponent (fraction s).2).2 (exponent (fraction o).2).2 := by
  obtain ⟨e1, q, hq, h1⟩ := fraction_rel hp h
  obtain ⟨e2, q', hq', h2⟩ := exponent_rel hq h1
  exact ⟨by rw [e1, e2], q', hq', h2⟩

theorem number_eq (s : List Char) : number s =
    ((sign s).1 ++ ((digits (sign s).2).1 ++ ((fraction (digits (sign s).2).2).1 ++ (exponent (fraction (digits (sign s).2).2).2).1)),
      (exponent (fraction (digits (sign s).2).2).2).2) := by
  simp [number]

/-- A number without its sign, at the dot. -/
theorem dot_rel {s o : List Char} (hs : headDigit s = true) (h : Rel (some '.') s o) :
    (digits ('.' :: s)).1 ++ ((fraction (digits ('.' :: s)).2).1 ++ (exponent (fraction (digits ('.' :: s)).2).2).1) =
      (digits ('.' :: o)).1 ++ ((fraction (digits ('.' :: o)).2).1 ++ (exponent (fraction (digits ('.' :: o)).2).2).1) ∧
      ∃ q, isPunct q = false ∧
        Rel (some q) (exponent (fraction (digits ('.' :: s)).2).2).2 (exponent (fraction (digits ('.' :: o)).2).2).2 := by
  have hp : isPunct '.' = false := by decide +kernel
  have ho : headDigit o = true := by rw [← headDigit_rel (.inl hp) h, hs]
  rw [digits_none (s := '.' :: s) rfl, digits_none (s := '.' :: o) rfl]
  simp only [fraction_dot hs, fraction_dot ho]
  obtain ⟨e1, q, hq, h1⟩ := digits_rel s '.' o (.inl hp) h
  have hq' : isPunct q = false := by
    rcases hq with ⟨_, hq⟩ | hq
    · rw [hs] at hq; cases hq
    · exact digit_word hq
  obtain ⟨e2, q', hq'', h2⟩ := exponent_rel hq' h1
  exact ⟨by rw [e1, e2], q', hq'', h2⟩

theorem number_rel {c : Char} {s o : List Char} (hn : startsNumber (c :: s) = true) (h : Rel (some c) s o) :
    (number (c :: s)).1 = (number (c :: o)).1 ∧ ∃ q, isPunct q = false ∧ Rel (some q) (number (c :: s)).2 (number (c :: o)).2 := by
  rw [number_eq, number_eq]
  by_cases hc : (c == '+' || c == '-') = true
  · have e1 : ∀ r, sign (c :: r) = ([c], r) := by intro r; simp only [sign]; rw [if_pos hc]
    rw [e1, e1]
    have hp : Pre c := by
      simp only [Bool.or_eq_true, beq_iff_eq] at hc
      rcases hc with rfl | rfl
      · exact .inr rfl
      · exact .inl (by decide +kernel)
    have hu : startsUnsigned s = true := by
      simp only [startsNumber, hc, Bool.true_and, Bool.or_eq_true] at hn
      refine hn.resolve_left ?_
      intro hn
      simp only [Bool.or_eq_true, beq_iff_eq] at hc
      rcases hc with rfl | rfl <;> simp [startsUnsigned] at hn <;> exact absurd hn (by decide)
    cases hd : headDigit s with
    | true =>
      obtain ⟨e2, q, hq, h1⟩ := digits_rel s c o hp h
      have hq' : isPunct q = false := by
        rcases hq with ⟨_, hq⟩ | hq
        · rw [hd] at hq; cases hq
        · exact digit_word hq
      obtain ⟨e3, q', hq'', h2⟩ := tail_rel hq' h1
      exact ⟨by simp only [e2, e3], q', hq'', h2⟩
    | false =>
      rcases h.head with ⟨d, s', o', rfl, rfl, _, _, _, _, h5⟩ | ⟨d, s', o', rfl, rfl, _⟩ | ⟨h1, h2⟩
      · simp only [headDigit] at hd
        simp only [startsUnsigned, hd, Bool.false_or, Bool.and_eq_true, beq_iff_eq] at hu
        obtain ⟨rfl, hu⟩ := hu
        obtain ⟨e2, q, hq, h1⟩ := dot_rel hu h5
        exact ⟨by simp only [e2], q, hq, h1⟩
      · exact absurd hu (by simp [startsUnsigned]; decide)
      · rw [startsUnsigned_stop hp h1] at hu; cases hu
  · have e1 : ∀ r, sign (c :: r) = ([], c :: r) := by intro r; simp only [sign]; rw [if_neg hc]
    rw [e1, e1]
    simp only [List.nil_append]
    have hu : startsUnsigned (c :: s) = true := by
      simp only [Bool.not_eq_true] at hc
      simpa only [startsNumber, hc, Bool.false_and, Bool.or_false] using hn
    cases hd : digit c with
    | true =>
      obtain ⟨e2, q, hq, h1⟩ := digits_rel s c o (.inl (digit_word hd)) h
      have hq' : isPunct q = false := by
        rcases hq with ⟨rfl, hq⟩ | hq
        · exact digit_word hd
        · exact digit_word hq
      obtain ⟨e3, q', hq'', h2⟩ := tail_rel hq' h1
      have e : ∀ r, digits (c :: r) = (c :: (digits r).1, (digits r).2) := by intro r; simp [digits, hd]
      rw [e, e]
      exact ⟨by simp only [e2, e3], q', hq'', h2⟩
    | false =>
      simp only [startsUnsigned, hd, Bool.false_or, Bool.and_eq_true, beq_iff_eq] at hu
      obtain ⟨rfl, hu⟩ := hu
      exact dot_rel hu h

theorem numeric_rel {c : Char} {s o : List Char} (hn : startsNumber (c :: s) = true) (h : Rel (some c) s o) :
    (numeric (c :: s)).1 = (numeric (c :: o)).1 ∧ ∃ q, Rel q (numeric (c :: s)).2 (numeric (c :: o)).2 := by
  obtain ⟨e, p, hp, h1⟩ := number_rel hn h
  unfold numeric
  simp only
  rw [e]
  generalize (number (c :: s)).2 = s' at *
  generalize (number (c :: o)).2 = o' at *
  generalize (number (c :: o)).1 = v at *
  rw [startsName_rel hp h1]
  split
  · obtain ⟨e2, q, hq, _, h2⟩ := name_rel s'.length o'.length p s' o' (Nat.le_refl _) (Nat.le_refl _) hp h1
    exact ⟨by simp only [name, e2], some q, h2⟩
  · have stop : ∀ r : List Char, glues (some p) r = false → r.head? ≠ some '%' := by
      intro r hr
      rcases glues_word hp hr with rfl | ⟨y, r, rfl, hy, hn⟩
      · simp
      · simp; rintro rfl; exact absurd hy (by decide +kernel)
    have other : s'.head? ≠ some '%' → o'.head? ≠ some '%' →
        (if s'.head? = some '%' then (Tok.percentage v, s'.drop 1) else (.number v, s')).1 =
          (if o'.head? = some '%' then (Tok.percentage v, o'.drop 1) else (.number v, o')).1 ∧
        ∃ q, Rel q (if s'.head? = some '%' then (Tok.percentage v, s'.drop 1) else (.number v, s')).2
          (if o'.head? = some '%' then (Tok.percentage v, o'.drop 1) else (.number v, o')).2 := by
      intro hs ho
      rw [if_neg hs, if_neg ho]
      exact ⟨rfl, some p, h1⟩
    rcases h1.head with ⟨d, s1, o1, rfl, rfl, _, _, _, _, h5⟩ | ⟨d, s1, o1, rfl, rfl, _⟩ | ⟨h1', h2'⟩
    · by_cases hd : d = '%'
      · subst hd
        exact ⟨rfl, some '%', h5⟩
      · exact other (by simp [hd]) (by simp [hd])
    · exact other (by simp) (by simp)
    · exact other (stop _ h1') (stop _ h2')

/-! ## Urls -/

theorem dropWhite_blanks {w : List Char} (h : ∀ c ∈ w, isBlank c = true) (s : List Char) : dropWhite (w ++ s) = dropWhite s := by
  induction w with
  | nil => rfl
  | cons c w ih =>
    simp only [List.cons_append, dropWhite, isBlank_white (h c (by simp)), ↓reduceIte]
    exact ih (fun d hd => h d (by simp [hd]))

theorem Skip.blanks {g : List Char} (hg : Skip g) : (∀ c ∈ g, isBlank c = true) ∨ ∀ s, ∃ r, dropWhite (g ++ s) = '/' :: '*' :: r := by
  induction hg with
  | nil => left; simp
  | blank hc _ ih =>
    rcases ih with ih | ih
    · left; intro d hd; simp at hd; rcases hd with rfl | hd
      · exact hc
      · exact ih d hd
    · right; intro s; simp only [List.cons_append, dropWhite, isBlank_white hc, ↓reduceIte]; exact ih s
  | comment hb _ ih =>
    right; intro s
    exact ⟨_, rfl⟩

theorem dropWhite_ne {c : Char} (h : white c = false) (s : List Char) : dropWhite (c :: s) = c :: s := by simp [dropWhite, h]

/-- Two texts that are both empty or begin with the same character. -/
def Start (s o : List Char) : Prop :=
  (s = [] ∧ o = []) ∨ ∃ c s' o', s = c :: s' ∧ o = c :: o' ∧ (c = ')' → Rel (some ')') s' o')

theorem quote_white {c : Char} (h : quote c = true) : white c = false := by
  simp only [quote, Bool.or_eq_true, beq_iff_eq] at h
  rcases h with rfl | rfl <;> decide

theorem white_rel {p : Option Char} {s o : List Char} (h : Rel p s o) :
    (∃ q, Rel q (dropWhite s) (dropWhite o) ∧ (q = p ∨ q = none ∨ ∃ c, q = some c ∧ white c = true) ∧ Start (dropWhite s) (dropWhite o)) ∨
      ∃ r, dropWhite s = '/' :: '*' :: r := by
  induction h with
  | @nil p w hw =>
    have := dropWhite_blanks hw []
    rw [List.append_nil] at this
    rw [this]
    exact .inl ⟨p, .nil (by simp [dropWhite]), .inl rfl, .inl ⟨rfl, rfl⟩⟩
  | @chr p c s o h1 h2 h3 h4 h5 ih =>
    cases hc : white c with
    | true =>
      simp only [dropWhite, hc, ↓reduceIte]
      rcases ih with ⟨q, hq, hp, hs⟩ | ih
      · refine .inl ⟨q, hq, ?_, hs⟩
        rcases hp with rfl | rfl | hp
        · exact .inr (.inr ⟨c, rfl, hc⟩)
        · exact .inr (.inl rfl)
        · exact .inr (.inr hp)
      · exact .inr ih
    | false =>
      rw [dropWhite_ne hc, dropWhite_ne hc]
      refine .inl ⟨p, .chr h1 h2 h3 h4 h5, .inl rfl, .inr ⟨c, s, o, rfl, rfl, ?_⟩⟩
      rintro rfl
      exact h5
  | @esc p c s o h1 h2 h3 =>
    rw [dropWhite_ne (by decide), dropWhite_ne (by decide)]
    exact .inl ⟨p, .esc h1 h2 h3, .inl rfl, .inr ⟨'\\', _, _, rfl, rfl, fun h => absurd h (by decide)⟩⟩
  | @str p t s o ht h _ =>
    obtain ⟨q, b, v, hq, rfl, hv⟩ := ht
    have h' : Rel p ((q :: b) ++ s) ((q :: b) ++ o) := .str ⟨q, b, v, hq, rfl, hv⟩ h
    rw [List.cons_append, List.cons_append] at h' ⊢
    rw [dropWhite_ne (quote_white hq), dropWhite_ne (quote_white hq)]
    refine .inl ⟨p, h', .inl rfl, .inr ⟨q, _, _, rfl, rfl, ?_⟩⟩
    rintro rfl
    exact absurd hq (by decide)
  | @gap p g h s o hg hgn hh hhn hb hr ih =>
    rcases hg.blanks with hw | hw
    · rw [dropWhite_blanks hw, dropWhite_blanks (hb hw)]
      rcases ih with ⟨q, hq, hp, hs⟩ | ih
      · refine .inl ⟨q, hq, ?_, hs⟩
        rcases hp with rfl | rfl | hp
        · exact .inr (.inl rfl)
        · exact .inr (.inl rfl)
        · exact .inr (.inr hp)
      · exact .inr ih
    · exact .inr (hw s)
  | @drop p g s o hg hgn hb hr ih =>
    rcases hg.blanks with hw | hw
    · rw [dropWhite_blanks hw]
      rcases ih with ⟨q, hq, hp, hs⟩ | ih
      · refine .inl ⟨q, hq, ?_, hs⟩
        rcases hp with rfl | rfl | hp
        · exact .inr (.inl rfl)
        · exact .inr (.inl rfl)
        · exact .inr (.inr hp)
      · exact .inr ih
    · exact .inr (hw s)
  | @media p n w s o hp hn ha hs hw hwn h _ =>
    have h' : Rel p ('@' :: n ++ s) ('@' :: n ++ (w ++ o)) := .media hp hn ha hs hw hwn h
    rw [List.cons_append, List.cons_append] at h' ⊢
    rw [dropWhite_ne (by decide), dropWhite_ne (by decide)]
    exact .inl ⟨p, h', .inl rfl, .inr ⟨'@', _, _, rfl, rfl, fun h => absurd h (by decide)⟩⟩

theorem urlF_nil (n : Nat) : urlF n [] = (some [], []) := by cases n <;> rfl

/-- A url ends with white space and a parenthesis, or at the end of the text. -/
theorem urlF_end {n : Nat} {s : List Char} (hn : s.length ≤ n) :
    (dropWhite s = [] → urlF n s = (some [], [])) ∧ (∀ r, dropWhite s = ')' :: r → urlF n s = (some [], r)) := by
  cases s with
  | nil => exact ⟨fun _ => urlF_nil n, fun r h => by cases h⟩
  | cons c s =>
    obtain ⟨n, rfl⟩ : ∃ k, n = k + 1 := ⟨n - 1, by simp at hn; omega⟩
    cases hc : white c with
    | true =>
      have hp : c ≠ ')' := by rintro rfl; exact absurd hc (by decide)
      simp only [dropWhite, hc, ↓reduceIte, urlF, if_neg hp]
      constructor
      · intro h; rw [h]
      · intro r h; rw [h]; simp
    | false =>
      rw [dropWhite_ne hc]
      constructor
      · intro h; cases h
      · intro r h; cases h; simp [urlF]

/-- A url goes on after white space only if it is bad. -/
theorem urlF_white {n : Nat} {s : List Char} (hn : s.length ≤ n) {c : Char} {r : List Char} (hs : s = c :: r) (hc : white c = true)
    {v r' : List Char} (h : urlF n s = (some v, r')) : dropWhite s = [] ∨ ∃ r, dropWhite s = ')' :: r := by
  subst hs
  obtain ⟨n, rfl⟩ : ∃ k, n = k + 1 := ⟨n - 1, by simp at hn; omega⟩
  have hp : c ≠ ')' := by rintro rfl; exact absurd hc (by decide)
  simp only [dropWhite, hc, ↓reduceIte]
  simp only [urlF, if_neg hp, hc, ↓reduceIte] at h
  split at h
  · rename_i e; exact .inl e
  · rename_i d r e
    split at h
    · rename_i hd; subst hd; exact .inr ⟨r, e⟩
    · cases h

theorem url_tail {n m : Nat} {p : Option Char} {s o v s' : List Char} (hs : s.length ≤ n) (ho : o.length ≤ m) (h : Rel p s o)
    (hd : dropWhite s = [] ∨ ∃ r, dropWhite s = ')' :: r) (hv : urlF n s = (some v, s')) :
    ∃ o', urlF m o = (some v, o') ∧ ∃ q, Rel q s' o' := by
  rcases white_rel h with ⟨q, hq, _, hst⟩ | ⟨r, hr⟩
  · rcases hst with ⟨e1, e2⟩ | ⟨c, a, b, e1, e2, hab⟩
    · rw [(urlF_end hs).1 e1] at hv
      cases hv
      exact ⟨[], (urlF_end ho).1 e2, none, .nil (by simp)⟩
    · rcases hd with hd | ⟨r, hd⟩
      · rw [hd] at e1; cases e1
      · rw [hd] at e1; cases e1
        rw [(urlF_end hs).2 _ hd] at hv
        cases hv
        exact ⟨b, (urlF_end ho).2 _ e2, some ')', hab rfl⟩
  · rcases hd with hd | ⟨r', hd⟩
    · rw [hd] at hr; cases hr
    · rw [hd] at hr; cases hr

/-- Is there an odd pair in `v`, or between `p` and `v`? -/
def odd : Option Char → List Char → Bool
  | some p, v => oddPair (p :: v)
  | none, v => v.head? == some '@' || oddPair v

theorem odd_cons {p : Option Char} {c : Char} {v : List Char} (h : odd p (c :: v) = false) : oddPair (c :: v) = false := by
  cases p with
  | none => simp only [odd, Bool.or_eq_false_iff] at h; exact h.2
  | some p => simp only [odd, oddPair, Bool.or_eq_false_iff] at h; exact h.2

theorem oddPair_tail {c : Char} {v : List Char} (h : oddPair (c :: v) = false) : oddPair v = false := by
  cases v with
  | nil => rfl
  | cons d v => simp only [oddPair, Bool.or_eq_false_iff] at h; exact h.2

theorem oddPair_cons {c : Char} {v : List Char} (hc : c ≠ '/' ∧ c ≠ ';' ∧ c ≠ '{' ∧ c ≠ '}') (h : oddPair v = false) : oddPair (c :: v) = false := by
  cases v with
  | nil => rfl
  | cons d v => simp [oddPair, h, hc]

/-- An ordinary character of a url. -/
theorem urlF_chr {c : Char} (h : c ≠ ')' ∧ white c = false ∧ (quote c || c == '(' || nonPrintable c) = false ∧ c ≠ '\\') (n : Nat) (s : List Char) :
    urlF (n + 1) (c :: s) = ((urlF n s).1.map (c :: ·), (urlF n s).2) := by
  obtain ⟨h1, h2, h3, h4⟩ := h
  simp [urlF, h1, h2, h3, h4]

theorem urlF_esc {c : Char} (h : hex c = false) (hn : newline c = false) (n : Nat) (s : List Char) :
    urlF (n + 1) ('\\' :: c :: s) = ((urlF n s).1.map (c :: ·), (urlF n s).2) := by
  simp only [urlF]
  rw [if_neg (by decide), if_neg (by decide), if_neg (by decide), if_pos trivial, if_pos (validEscape_esc hn s), escape_plain h]

theorem urlF_bad {c : Char} (h1 : c ≠ ')') (h2 : white c = false) (h3 : (quote c || c == '(' || nonPrintable c) = true) (n : Nat) (s : List Char) :
    urlF (n + 1) (c :: s) = (none, badRest s) := by
  simp [urlF, h1, h2, h3]

theorem map_some {c : Char} {u : Option (List Char) × List Char} {v s : List Char} (h : (u.1.map (c :: ·), u.2) = (some v, s)) :
    ∃ v', v = c :: v' ∧ u = (some v', s) := by
  obtain ⟨u, r⟩ := u
  cases u with
  | none => simp at h
  | some w => simp at h; exact ⟨w, h.1.symm, by rw [h.2]⟩

/-- A comment in a url is part of it. -/
theorem urlF_comment {n : Nat} {s v s' : List Char} (hn : ('/' :: '*' :: s).length ≤ n) (h : urlF n ('/' :: '*' :: s) = (some v, s')) :
    oddPair v = true := by
  obtain ⟨n, rfl⟩ : ∃ k, n = k + 2 := ⟨n - 2, by simp at hn; omega⟩
  rw [urlF_chr (by decide)] at h
  obtain ⟨v1, rfl, h1⟩ := map_some h
  rw [urlF_chr (by decide)] at h1
  obtain ⟨v2, rfl, h2⟩ := map_some h1
  rfl

theorem url_rel {p : Option Char} {s o : List Char} (h : Rel p s o) : ∀ (n m : Nat) (v s' : List Char), s.length ≤ n → o.length ≤ m →
    urlF n s = (some v, s') → odd p v = false → ∃ o', urlF m o = (some v, o') ∧ ∃ q, Rel q s' o' := by
  induction h with
  | @nil p w hw =>
    intro n m v s' hs ho hv _
    exact url_tail (p := p) hs ho (.nil hw) (.inl rfl) hv
  | @chr p c s o h1 h2 h3 h4 h5 ih =>
    intro n m v s' hs ho hv hodd
    have hrel : Rel p (c :: s) (c :: o) := .chr h1 h2 h3 h4 h5
    by_cases hp : c = ')'
    · exact url_tail hs ho hrel (.inr ⟨s, by subst hp; rfl⟩) hv
    · cases hw : white c with
      | true => exact url_tail hs ho hrel (urlF_white hs rfl hw hv) hv
      | false =>
        simp only [List.length_cons] at hs ho
        obtain ⟨n, rfl⟩ : ∃ k, n = k + 1 := ⟨n - 1, by omega⟩
        obtain ⟨m, rfl⟩ : ∃ k, m = k + 1 := ⟨m - 1, by omega⟩
        cases hb : (quote c || c == '(' || nonPrintable c) with
        | true => rw [urlF_bad hp hw hb] at hv; cases hv
        | false =>
          rw [urlF_chr ⟨hp, hw, hb, h3⟩] at hv
          obtain ⟨v', rfl, hv'⟩ := map_some hv
          obtain ⟨o', ho', q, hq⟩ := ih n m v' s' (by omega) (by omega) hv' (odd_cons hodd)
          refine ⟨o', ?_, q, hq⟩
          rw [urlF_chr ⟨hp, hw, hb, h3⟩, ho']
          rfl
  | @esc p c s o h1 h2 h3 ih =>
    intro n m v s' hs ho hv hodd
    simp only [List.length_cons] at hs ho
    obtain ⟨n, rfl⟩ : ∃ k, n = k + 1 := ⟨n - 1, by omega⟩
    obtain ⟨m, rfl⟩ : ∃ k, m = k + 1 := ⟨m - 1, by omega⟩
    rw [urlF_esc h1 h2] at hv
    obtain ⟨v', rfl, hv'⟩ := map_some hv
    obtain ⟨o', ho', q, hq⟩ := ih n m v' s' (by omega) (by omega) hv' (oddPair_cons (by decide) (oddPair_tail (odd_cons hodd)))
    refine ⟨o', ?_, q, hq⟩
    rw [urlF_esc h1 h2, ho']
    rfl
  | @str p t s o ht h _ =>
    intro n m v s' hs ho hv hodd
    obtain ⟨q, b, _, hq, rfl, _⟩ := ht
    rw [List.cons_append] at hs hv
    simp only [List.length_cons] at hs
    obtain ⟨n, rfl⟩ : ∃ k, n = k + 1 := ⟨n - 1, by omega⟩
    rw [urlF_bad (by rintro rfl; exact absurd hq (by decide)) (quote_white hq) (by simp [hq])] at hv
    cases hv
  | @gap p g h s o hg hgn hh hhn hb hr ih =>
    intro n m v s' hs ho hv hodd
    rcases hg.head with h | ⟨c, r, rfl, hc⟩
    · exact absurd h hgn
    · rcases hc with hc | ⟨rfl, hc⟩
      · exact url_tail (p := p) hs ho (.gap hg hgn hh hhn hb hr) (urlF_white hs rfl (isBlank_white hc) hv) hv
      · cases r with
        | nil => cases hc
        | cons d r =>
          simp only [List.head?_cons, Option.some.injEq] at hc
          subst hc
          have := urlF_comment (s := r ++ s) hs hv
          cases p with
          | none => simp [odd, this] at hodd
          | some p => rw [odd] at hodd; rw [oddPair_tail hodd] at this; cases this
  | @drop p g s o hg hgn hb hr ih =>
    intro n m v s' hs ho hv hodd
    rcases hg.head with h | ⟨c, r, rfl, hc⟩
    · exact absurd h hgn
    · rcases hc with hc | ⟨rfl, hc⟩
      · exact url_tail (p := p) hs ho (.drop hg hgn hb hr) (urlF_white hs rfl (isBlank_white hc) hv) hv
      · cases r with
        | nil => cases hc
        | cons d r =>
          simp only [List.head?_cons, Option.some.injEq] at hc
          subst hc
          have := urlF_comment (s := r ++ s) hs hv
          cases p with
          | none => simp [odd, this] at hodd
          | some p => rw [odd] at hodd; rw [oddPair_tail hodd] at this; cases this
  | @media p n w s o hp hn ha hs hw hwn h _ =>
    intro k m v s' hs' ho hv hodd
    rw [List.cons_append] at hs' hv
    simp only [List.length_cons] at hs'
    obtain ⟨k, rfl⟩ : ∃ j, k = j + 1 := ⟨k - 1, by omega⟩
    rw [urlF_chr (by decide)] at hv
    obtain ⟨v', rfl, _⟩ := map_some hv
    rcases hp with rfl | rfl | rfl | rfl <;> simp [odd, oddPair] at hodd

/-! ## Tokens -/

theorem ident_rel {S O : List Char} {q : Char} (he : (name S).1 = (name O).1) (hq : nameChar q = true)
    (h : Rel (some q) (name S).2 (name O).2) (hp : plainTok (identLike S).1 = true) :
    (identLike S).1 = (identLike O).1 ∧ ∃ q, Rel q (identLike S).2 (identLike O).2 := by
  unfold identLike at hp ⊢
  simp only at hp ⊢
  rw [← he]
  generalize (name S).2 = s at *
  generalize (name O).2 = o at *
  generalize (name S).1 = v at *
  have other : s.head? ≠ some '(' → o.head? ≠ some '(' → _ := fun h1 h2 => (⟨h1, h2⟩ : _ ∧ _)
  have stop : ∀ r : List Char, glues (some q) r = false → r.head? ≠ some '(' := by
    intro r hr
    cases r with
    | nil => simp
    | cons y r =>
      simp only [List.head?_cons, ne_eq, Option.some.injEq]
      rintro rfl
      simp [glues, hq] at hr
  have hcase : (s.head? ≠ some '(' ∧ o.head? ≠ some '(') ∨ ∃ r r', s = '(' :: r ∧ o = '(' :: r' ∧ Rel (some '(') r r' := by
    rcases h.head with ⟨d, s1, o1, rfl, rfl, _, _, _, _, h5⟩ | ⟨d, s1, o1, rfl, rfl, _⟩ | ⟨h1', h2'⟩
    · by_cases hd : d = '('
      · subst hd; exact .inr ⟨s1, o1, rfl, rfl, h5⟩
      · left; simp [hd]
    · left; simp
    · exact .inl ⟨stop _ h1', stop _ h2'⟩
  rcases hcase with ⟨h1, h2⟩ | ⟨r, r', rfl, rfl, hr⟩
  · rw [if_neg h1, if_neg h2]
    exact ⟨rfl, some q, h⟩
  · simp only [List.head?_cons, ↓reduceIte, List.drop_succ_cons, List.drop_zero] at hp ⊢
    cases hu : isUrl v with
    | false => simp; exact ⟨_, hr⟩
    | true =>
      simp only [hu, Bool.true_and] at hp ⊢
      rcases white_rel hr with ⟨q', hq', hqq, hst⟩ | ⟨r2, hr2⟩
      · have hh : headQuote (dropWhite r) = headQuote (dropWhite r') := by
          rcases hst with ⟨e1, e2⟩ | ⟨c, a, b, e1, e2, _⟩ <;> rw [e1, e2] <;> rfl
        rw [← hh]
        cases hhq : headQuote (dropWhite r) with
        | true => simp; exact ⟨_, hr⟩
        | false =>
          simp only [hhq, Bool.not_false, ↓reduceIte] at hp ⊢
          generalize hw : urlF (dropWhite r).length (dropWhite r) = u at hp ⊢
          obtain ⟨u, s'⟩ := u
          cases u with
          | none => simp [plainTok] at hp
          | some w =>
            simp only [plainTok, Bool.and_eq_true, bne_iff_ne, ne_eq, Bool.not_eq_true'] at hp
            have hodd : odd q' w = false := by
              rcases hqq with rfl | rfl | ⟨c, rfl, hc⟩
              · exact oddPair_cons (by decide) hp.2
              · simp [odd, hp.1, hp.2]
              · refine oddPair_cons ⟨?_, ?_, ?_, ?_⟩ hp.2 <;> rintro rfl <;> exact absurd hc (by decide)
            obtain ⟨o', ho', q2, hq2⟩ := url_rel hq' _ (dropWhite r').length w s' (Nat.le_refl _) (Nat.le_refl _) hw hodd
            rw [ho']
            exact ⟨rfl, q2, hq2⟩
      · rw [hr2] at hp
        have : headQuote ('/' :: '*' :: r2) = false := rfl
        simp only [this, Bool.not_false, ↓reduceIte] at hp
        generalize hw : urlF ('/' :: '*' :: r2).length ('/' :: '*' :: r2) = u at hp
        obtain ⟨u, s'⟩ := u
        cases u with
        | none => simp [plainTok] at hp
        | some w =>
          have := urlF_comment (Nat.le_refl _) hw
          simp [plainTok, this] at hp

theorem take2_rel {p : Char} {s o : List Char} (hp : p = '-') (h : Rel (some p) s o) (ht : s.take 2 = ['-', '>'] ∨ o.take 2 = ['-', '>']) :
    ∃ s' o', s = '-' :: '>' :: s' ∧ o = '-' :: '>' :: o' ∧ Rel (some '>') s' o' := by
  subst hp
  have stop1 : ∀ r : List Char, glues (some '-') r = false → r.take 2 ≠ ['-', '>'] := by
    intro r hr e
    rcases glues_word (by decide +kernel) hr with rfl | ⟨y, r, rfl, hy, hn⟩
    · cases e
    · cases r <;> simp at e
      rw [e.1] at hy
      exact absurd hy (by decide +kernel)
  have stop2 : ∀ r : List Char, glues (some '-') r = false → r.head? ≠ some '>' := by
    intro r hr e
    cases r with
    | nil => cases e
    | cons y r =>
      simp only [List.head?_cons, Option.some.injEq] at e
      subst e
      simp [glues] at hr
  have two : ∀ (c : Char) (r : List Char), (c :: r).take 2 = ['-', '>'] → c = '-' ∧ r.head? = some '>' := by
    intro c r e
    cases r with
    | nil => simp at e
    | cons d r => simp at e; simp [e]
  rcases h.head with ⟨c, s', o', rfl, rfl, _, _, _, _, h5⟩ | ⟨c, s', o', rfl, rfl, _⟩ | ⟨h1, h2⟩
  · have hc : c = '-' := by rcases ht with ht | ht <;> exact (two _ _ ht).1
    subst hc
    have ht' : s'.head? = some '>' ∨ o'.head? = some '>' := by
      rcases ht with ht | ht
      · exact .inl (two _ _ ht).2
      · exact .inr (two _ _ ht).2
    rcases h5.head with ⟨d, s1, o1, rfl, rfl, _, _, _, _, h5'⟩ | ⟨d, s1, o1, rfl, rfl, _⟩ | ⟨h1', h2'⟩
    · simp only [List.head?_cons, Option.some.injEq, or_self] at ht'
      subst ht'
      exact ⟨s1, o1, rfl, rfl, h5'⟩
    · simp at ht'
    · rcases ht' with ht' | ht'
      · exact absurd ht' (stop2 _ h1')
      · exact absurd ht' (stop2 _ h2')
  · rcases ht with ht | ht <;> simp at ht
  · rcases ht with ht | ht
    · exact absurd ht (stop1 _ h1)
    · exact absurd ht (stop1 _ h2)

/-- A fixed word character after a word character. -/
theorem fixed_rel {p d : Char} {s o : List Char} (hp : isPunct p = false) (hd : isPunct d = false) (h : Rel (some p) s o)
    (ht : s.head? = some d ∨ o.head? = some d) : ∃ s' o', s = d :: s' ∧ o = d :: o' ∧ Rel (some d) s' o' := by
  have stop : ∀ r : List Char, glues (some p) r = false → r.head? ≠ some d := by
    intro r hr e
    rcases glues_word hp hr with rfl | ⟨y, r, rfl, hy, hn⟩
    · cases e
    · simp only [List.head?_cons, Option.some.injEq] at e
      rw [e, hd] at hy; cases hy
  rcases h.head with ⟨c, s', o', rfl, rfl, _, _, _, _, h5⟩ | ⟨c, s', o', rfl, rfl, _⟩ | ⟨h1, h2⟩
  · simp only [List.head?_cons, Option.some.injEq, or_self] at ht
    subst ht
    exact ⟨s', o', rfl, rfl, h5⟩
  · simp only [List.head?_cons, Option.some.injEq, or_self] at ht
    subst ht
    exact absurd hd (by decide +kernel)
  · rcases ht with ht | ht
    · exact absurd ht (stop _ h1)
    · exact absurd ht (stop _ h2)

theorem take3_rel {s o : List Char} (h : Rel (some '<') s o) (ht : s.take 3 = ['!', '-', '-'] ∨ o.take 3 = ['!', '-', '-']) :
    ∃ s' o', s = '!' :: '-' :: '-' :: s' ∧ o = '!' :: '-' :: '-' :: o' ∧ Rel (some '-') s' o' := by
  have three : ∀ r : List Char, r.take 3 = ['!', '-', '-'] → ∃ r', r = '!' :: '-' :: '-' :: r' := by
    intro r e
    match r, e with
    | a :: b :: c :: r, e => simp at e; exact ⟨r, by simp [e]⟩
    | [], e => cases e
    | [_], e => simp at e
    | [_, _], e => simp at e
  have ht' : (∃ r', s = '!' :: '-' :: '-' :: r') ∨ (∃ r', o = '!' :: '-' :: '-' :: r') := by
    rcases ht with ht | ht
    · exact .inl (three _ ht)
    · exact .inr (three _ ht)
  obtain ⟨s1, o1, rfl, rfl, h1⟩ := fixed_rel (d := '!') (by decide +kernel) (by decide +kernel) h (by
    rcases ht' with ⟨r, rfl⟩ | ⟨r, rfl⟩ <;> simp)
  obtain ⟨s2, o2, rfl, rfl, h2⟩ := fixed_rel (d := '-') (by decide +kernel) (by decide +kernel) h1 (by
    rcases ht' with ⟨r, e⟩ | ⟨r, e⟩ <;> cases e <;> simp)
  obtain ⟨s3, o3, rfl, rfl, h3⟩ := fixed_rel (d := '-') (by decide +kernel) (by decide +kernel) h2 (by
    rcases ht' with ⟨r, e⟩ | ⟨r, e⟩ <;> cases e <;> simp)
  exact ⟨s3, o3, rfl, rfl, h3⟩

/-- Does a `#` begin a hash token? -/
def hashAt : List Char → Bool
  | d :: r => nameChar d || validEscape (d :: r)
  | [] => false

theorem token_hash (s : List Char) : token '#' s =
    if hashAt s = true then (some (.hash (startsName s) (name s).1), (name s).2) else (some (.delim '#'), s) := by
  unfold token
  rw [if_neg (by simp), if_neg (by decide), if_neg (by decide), if_pos rfl]
  cases s with
  | nil => rfl
  | cons d r => simp only [hashAt]; rfl

theorem hashAt_rel {p : Char} {s o : List Char} (hp : isPunct p = false) (h : Rel (some p) s o) : hashAt s = hashAt o := by
  have stop : ∀ r : List Char, glues (some p) r = false → hashAt r = false := by
    intro r hr
    rcases glues_word hp hr with rfl | ⟨y, r, rfl, hy, hn⟩
    · rfl
    · simp [hashAt, punct_name hy, validEscape_ne hn]
  rcases h.head with ⟨c, s', o', rfl, rfl, _, _, h3, _, h5⟩ | ⟨c, s', o', rfl, rfl, _, hn, _⟩ | ⟨h1, h2⟩
  · simp [hashAt, validEscape_ne h3]
  · simp [hashAt, validEscape_esc hn]
  · rw [stop _ h1, stop _ h2]

/-- Names that follow the character `p`. -/
theorem name_rel' {p : Char} {s o : List Char} (hp : isPunct p = false) (h : Rel (some p) s o) :
    (name s).1 = (name o).1 ∧ ∃ q, Rel (some q) (name s).2 (name o).2 := by
  obtain ⟨e, q, _, _, hr⟩ := name_rel s.length o.length p s o (Nat.le_refl _) (Nat.le_refl _) hp h
  exact ⟨e, q, hr⟩

theorem slash_rel {s o : List Char} (h : Rel (some '/') s o) (hs : s.head? ≠ some '*') : o.head? ≠ some '*' := by
  rcases h.head with ⟨c, s', o', rfl, rfl, _⟩ | ⟨c, s', o', rfl, rfl, _⟩ | ⟨_, h2⟩
  · simpa using hs
  · simp
  · cases o with
    | nil => simp
    | cons y r =>
      simp only [List.head?_cons, ne_eq, Option.some.injEq]
      rintro rfl
      simp [glues] at h2

theorem token_rel {c : Char} {s o : List Char} (hw : white c = false) (hq : quote c = false) (hb : c ≠ '\\')
    (hs : c = '/' → s.head? ≠ some '*') (h : Rel (some c) s o) (hp : ∀ t, (token c s).1 = some t → plainTok t = true) :
    (token c s).1 = (token c o).1 ∧ ∃ q, Rel q (token c s).2 (token c o).2 := by
  by_cases hh : c = '#'
  · subst hh
    have hword : isPunct '#' = false := by decide +kernel
    rw [token_hash, token_hash, ← hashAt_rel hword h]
    split
    · obtain ⟨e, q, hr⟩ := name_rel' hword h
      rw [startsName_rel hword h, e]
      exact ⟨rfl, _, hr⟩
    · exact ⟨rfl, _, h⟩
  · have h0 : ∀ r : List Char, (c = '/' → r.head? ≠ some '*') → token c r =
        if c ∈ ['(', ')', '[', ']', '{', '}', ',', ':', ';'] then (some (.punct c), r)
        else if startsNumber (c :: r) then (some (numeric (c :: r)).1, (numeric (c :: r)).2)
        else if c = '-' ∧ r.take 2 = ['-', '>'] then (some .cdc, r.drop 2)
        else if c = '<' ∧ r.take 3 = ['!', '-', '-'] then (some .cdo, r.drop 3)
        else if c = '@' ∧ startsName r then (some (.atKeyword (name r).1), (name r).2)
        else if startsName (c :: r) then (some (identLike (c :: r)).1, (identLike (c :: r)).2)
        else (some (.delim c), r) := by
      intro r hr
      unfold token
      rw [if_neg (fun h => hr h.1 h.2), if_neg (by simp [hw]), if_neg (by simp [hq]), if_neg hh]
    have ho : c = '/' → o.head? ≠ some '*' := by
      rintro rfl
      exact slash_rel h (hs rfl)
    rw [h0 s hs] at hp ⊢
    rw [h0 o ho]
    by_cases h1 : c ∈ ['(', ')', '[', ']', '{', '}', ',', ':', ';']
    · rw [if_pos h1, if_pos h1]; exact ⟨rfl, _, h⟩
    rw [if_neg h1] at hp ⊢
    rw [if_neg h1]
    by_cases h2 : startsNumber (c :: s) = true
    · rw [if_pos h2, if_pos (by rw [← startsNumber_rel h]; exact h2)]
      obtain ⟨e, q, hr⟩ := numeric_rel h2 h
      exact ⟨by rw [e], q, hr⟩
    have h2' : ¬ startsNumber (c :: o) = true := by rw [← startsNumber_rel h]; exact h2
    rw [if_neg h2] at hp ⊢
    rw [if_neg h2']
    by_cases h3 : c = '-' ∧ (s.take 2 = ['-', '>'] ∨ o.take 2 = ['-', '>'])
    · obtain ⟨s', o', rfl, rfl, hr⟩ := take2_rel h3.1 h h3.2
      rw [if_pos ⟨h3.1, rfl⟩, if_pos ⟨h3.1, rfl⟩]
      exact ⟨rfl, _, hr⟩
    have h3' : ¬ (c = '-' ∧ s.take 2 = ['-', '>']) := fun h => h3 ⟨h.1, .inl h.2⟩
    have h3'' : ¬ (c = '-' ∧ o.take 2 = ['-', '>']) := fun h => h3 ⟨h.1, .inr h.2⟩
    rw [if_neg h3'] at hp ⊢
    rw [if_neg h3'']
    by_cases h4 : c = '<' ∧ (s.take 3 = ['!', '-', '-'] ∨ o.take 3 = ['!', '-', '-'])
    · obtain ⟨rfl, h4⟩ := h4
      obtain ⟨s', o', rfl, rfl, hr⟩ := take3_rel h h4
      rw [if_pos ⟨rfl, rfl⟩, if_pos ⟨rfl, rfl⟩]
      exact ⟨rfl, _, hr⟩
    have h4' : ¬ (c = '<' ∧ s.take 3 = ['!', '-', '-']) := fun h => h4 ⟨h.1, .inl h.2⟩
    have h4'' : ¬ (c = '<' ∧ o.take 3 = ['!', '-', '-']) := fun h => h4 ⟨h.1, .inr h.2⟩
    rw [if_neg h4'] at hp ⊢
    rw [if_neg h4'']
    by_cases h5 : c = '@' ∧ startsName s = true
    · obtain ⟨rfl, h5⟩ := h5
      have hword : isPunct '@' = false := by decide +kernel
      obtain ⟨e, q, hr⟩ := name_rel' hword h
      rw [if_pos ⟨rfl, h5⟩, if_pos ⟨rfl, by rw [← startsName_rel hword h]; exact h5⟩, e]
      exact ⟨rfl, _, hr⟩
    have h5' : ¬ (c = '@' ∧ startsName o = true) := by
      rintro ⟨rfl, h5'⟩
      refine h5 ⟨rfl, ?_⟩
      rw [startsName_rel (by decide +kernel) h]
      exact h5'
    rw [if_neg h5] at hp ⊢
    rw [if_neg h5']
    have h6e : startsName (c :: s) = startsName (c :: o) := startsName_rel (p := 'x') (by decide +kernel) (.chr
      (by cases hbl : isBlank c with
          | false => rfl
          | true => rw [isBlank_white hbl] at hw; cases hw) hq hb hs h)
    by_cases h6 : startsName (c :: s) = true
    · rw [if_pos h6] at hp ⊢
      rw [if_pos (h6e ▸ h6)]
      have hc : nameChar c = true := (startsName_first h6).resolve_right (by simp [validEscape_ne hb])
      obtain ⟨e, q, _, hqn, hr⟩ := name_rel s.length o.length c s o (Nat.le_refl _) (Nat.le_refl _) (nameChar_word hc) h
      have en : ∀ r, name (c :: r) = (c :: (nameF r.length r).1, (nameF r.length r).2) := fun r => nameF_chr hc r.length r
      have := ident_rel (S := c :: s) (O := c :: o) (q := q) (by rw [en, en]; simp [e]) (hqn hc) (by rw [en, en]; exact hr) (hp _ rfl)
      exact ⟨by rw [this.1], this.2⟩
    · rw [if_neg h6, if_neg (h6e ▸ h6)]
      exact ⟨rfl, _, h⟩

theorem token_esc {c : Char} (s : List Char) (h : newline c = false) :
    token '\\' (c :: s) = (some (identLike ('\\' :: c :: s)).1, (identLike ('\\' :: c :: s)).2) := by
  unfold token
  rw [if_neg (by simp), if_neg (by decide), if_neg (by decide), if_neg (by decide), if_neg (by decide), if_neg, if_neg (by simp),
    if_neg (by simp), if_neg (by simp), if_pos]
  · simp [startsName, validEscape, h]
  · simp [startsNumber, startsUnsigned]
    decide

theorem nameF_all {v s : List Char} (hv : v.all nameChar = true) (hs : ∀ c, s.head? = some c → nameChar c = false ∧ c ≠ '\\') (n : Nat)
    (hn : (v ++ s).length ≤ n) : nameF n (v ++ s) = (v, s) := by
  induction v generalizing n with
  | nil =>
    cases s with
    | nil => exact nameF_nil n
    | cons c s => exact nameF_stop (hs c rfl).1 (hs c rfl).2 n s
  | cons c v ih =>
    simp only [List.cons_append, List.length_cons] at hn
    obtain ⟨n, rfl⟩ : ∃ k, n = k + 1 := ⟨n - 1, by omega⟩
    simp only [List.all_cons, Bool.and_eq_true] at hv
    rw [List.cons_append, nameF_chr hv.1, ih hv.2 n (by omega)]

theorem startsName_append {v : List Char} (hn : startsName v = true) (hv : v.all nameChar = true) (s : List Char) : startsName (v ++ s) = true := by
  have ne : ∀ c, nameChar c = true → c ≠ '\\' := by rintro c hc rfl; exact absurd hc (by decide)
  cases v with
  | nil => cases hn
  | cons c v =>
    simp only [List.all_cons, Bool.and_eq_true] at hv
    by_cases hc : c = '-'
    · subst hc
      cases v with
      | nil => exact absurd hn (by decide)
      | cons d v =>
        simp only [List.all_cons, Bool.and_eq_true] at hv
        rw [startsName_dash, validEscape_ne (ne d hv.2.1)] at hn
        simp only [List.cons_append]
        rw [startsName_dash, validEscape_ne (ne d hv.2.1)]
        exact hn
    · rw [startsName_ne hc (ne c hv.1)] at hn
      rw [List.cons_append, startsName_ne hc (ne c hv.1)]
      exact hn

theorem token_at {v s : List Char} (hn : startsName v = true) (hv : v.all nameChar = true)
    (hs : ∀ c, s.head? = some c → nameChar c = false ∧ c ≠ '\\') : token '@' (v ++ s) = (some (.atKeyword v), s) := by
  unfold token
  rw [if_neg (by simp), if_neg (by decide), if_neg (by decide), if_neg (by decide), if_neg (by decide), if_neg, if_neg (by simp),
    if_neg (by simp), if_pos ⟨rfl, startsName_append hn hv s⟩]
  · simp only [name, nameF_all hv hs _ (Nat.le_refl _)]
  · simp [startsNumber, startsUnsigned]
    decide

theorem token_str {q : Char} {b v s : List Char} (hq : quote q = true)
    (h : ∀ n r, (b ++ r).length ≤ n → stringF q n (b ++ r) = (some v, r)) : token q (b ++ s) = (some (.string v), s) := by
  unfold token
  rw [if_neg, if_neg (by simp [quote_white hq]), if_pos hq, h _ s (Nat.le_refl _)]
  rintro ⟨rfl, _⟩
  exact absurd hq (by decide)

/-- Related texts have the same tokens. -/
theorem rel_toks (n : Nat) : ∀ (p : Option Char) (s o : List Char), s.length ≤ n → Rel p s o → (∀ t ∈ toks s, plainTok t = true) →
    toks s = toks o := by
  induction n with
  | zero =>
    intro p s o hs h _
    have hs' : s = [] := List.eq_nil_of_length_eq_zero (by omega)
    generalize hS : s = S at h
    cases h with
    | nil hw => rw [← List.append_nil o, toks_skip (skip_blanks hw)]
    | chr => subst hs'; cases hS
    | esc => subst hs'; cases hS
    | str ht => obtain ⟨_, _, _, _, rfl, _⟩ := ht; subst hs'; cases hS
    | @gap _ g _ _ _ _ hgn => subst hs'; cases g <;> first | exact absurd rfl hgn | cases hS
    | @drop _ g _ _ _ hgn => subst hs'; cases g <;> first | exact absurd rfl hgn | cases hS
    | media => subst hs'; cases hS
  | succ n ih =>
    intro p s o hs h hp
    cases h with
    | nil hw => rw [← List.append_nil o, toks_skip (skip_blanks hw)]
    | @chr _ c s o h1 h2 h3 h4 h5 =>
      simp only [List.length_cons] at hs
      cases hw : white c with
      | true =>
        rw [toks_white hw] at hp ⊢
        rw [toks_white hw]
        exact ih (some c) s o (by omega) h5 hp
      | false =>
        have hl := token_length c s
        rw [toks_cons] at hp ⊢
        rw [toks_cons]
        have ht := token_rel hw h2 h3 h4 h5 (by
          intro t ht
          rw [ht] at hp
          by_cases hw' : t = .white
          · subst hw'; rfl
          · simp only [hw', ↓reduceIte] at hp
            exact hp t (by simp))
        obtain ⟨e, q, hr⟩ := ht
        rw [← e]
        generalize (token c s).1 = t at *
        generalize (token c s).2 = s' at *
        generalize (token c o).2 = o' at *
        cases t with
        | none => exact ih q s' o' (by omega) hr hp
        | some t =>
          simp only at hp ⊢
          split
          · rename_i hw'; rw [if_pos hw'] at hp; exact ih q s' o' (by omega) hr hp
          · rename_i hw'; rw [if_neg hw'] at hp; rw [ih q s' o' (by omega) hr (fun t ht => hp t (by simp [ht]))]
    | @esc _ c s o h1 h2 h3 =>
      simp only [List.length_cons] at hs
      obtain ⟨e, q, _, hqn, hr⟩ := name_rel (c :: s).length (c :: o).length 'x' s o (by simp) (by simp) (by decide +kernel) h3
      have en : ∀ r, name ('\\' :: c :: r) = (c :: (nameF (c :: r).length r).1, (nameF (c :: r).length r).2) :=
        fun r => nameF_esc h1 h2 (c :: r).length r
      have hl := token_length '\\' (c :: s)
      rw [toks_cons] at hp ⊢
      rw [toks_cons]
      rw [token_esc s h2] at hp hl ⊢
      rw [token_esc o h2]
      have hw : ∀ r, (identLike r).1 ≠ .white := by
        intro r
        unfold identLike
        simp only
        split
        · split
          · split <;> simp
          · simp
        · simp
      simp only [hw, ↓reduceIte] at hp ⊢
      have := ident_rel (S := '\\' :: c :: s) (O := '\\' :: c :: o) (q := q) (by rw [en, en]; simp only [e]) (hqn (by decide))
        (by rw [en, en]; exact hr) (hp _ (by simp))
      obtain ⟨e', q', hr'⟩ := this
      rw [e', ih q' _ _ (by simp at hl; omega) hr' (fun t ht => hp t (by simp [ht]))]
    | @str _ t s o ht h =>
      obtain ⟨q, b, v, hq, rfl, hv⟩ := ht
      simp only [List.cons_append, List.length_cons, List.length_append] at hs
      rw [List.cons_append, toks_cons, token_str hq hv] at hp ⊢
      rw [List.cons_append, toks_cons, token_str hq hv]
      simp only [reduceCtorEq, ↓reduceIte] at hp ⊢
      rw [ih none s o (by omega) h (fun t ht => hp t (by simp [ht]))]
    | @gap _ g h s o hg hgn hh hhn hb hr =>
      rw [toks_skip hg] at hp ⊢
      rw [toks_skip hh]
      have : g.length ≠ 0 := fun h => hgn (List.eq_nil_of_length_eq_zero h)
      simp only [List.length_append] at hs
      exact ih none s o (by omega) hr hp
    | @drop _ g s o hg hgn hb hr =>
      rw [toks_skip hg] at hp ⊢
      have : g.length ≠ 0 := fun h => hgn (List.eq_nil_of_length_eq_zero h)
      simp only [List.length_append] at hs
      exact ih none s o (by omega) hr hp
    | @media _ v w s o hp' hn ha hs' hw hwn h =>
      have hw' : ∀ c, (w ++ o).head? = some c → nameChar c = false ∧ c ≠ '\\' := by
        cases w with
        | nil => exact absurd rfl hwn
        | cons d w =>
          intro c hc
          cases hc
          have hd := hw d (by simp)
          refine ⟨punct_name (isBlank_punct hd), ?_⟩
          rintro rfl
          exact absurd hd (by decide)
      simp only [List.cons_append, List.length_cons, List.length_append] at hs
      rw [List.cons_append, toks_cons, token_at hn ha hs'] at hp ⊢
      rw [List.cons_append, toks_cons, token_at hn ha hw']
      simp only [reduceCtorEq, ↓reduceIte] at hp ⊢
      rw [toks_skip (skip_blanks hw), ih none s o (by omega) h (fun t ht => hp t (by simp [ht]))]

end Verif.Spec.CssSyntax
