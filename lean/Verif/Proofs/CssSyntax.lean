import Verif.Spec.CssSyntax
/-!
# Two texts with the same tokens

`Rel p s o`: the texts `s` and `o` have the same characters, strings and escapes; where one has a gap, the other has a gap, or
none if no tokens grow together there (`glues`). Such texts have the same tokens (`rel_toks`).
-/
set_option linter.unusedSimpArgs false

namespace Verif.Spec.CssSyntax
open Spec.Css

/-! ## Lengths -/

theorem hexDigits_length (n : Nat) : ∀ s : List Char, (hexDigits n s).2.length ≤ s.length := by
  induction n with
  | zero => intro s; cases s <;> simp [hexDigits]
  | succ n ih =>
    intro s
    cases s with
    | nil => simp [hexDigits]
    | cons c s =>
      simp only [hexDigits]
      split
      · have := ih s; simp; omega
      · simp

theorem dropWhite1_length (s : List Char) : (dropWhite1 s).length ≤ s.length := by
  cases s with
  | nil => simp [dropWhite1]
  | cons c s => simp only [dropWhite1]; split <;> simp

theorem escape_length (s : List Char) : (escape s).2.length ≤ s.length := by
  cases s with
  | nil => simp [escape]
  | cons c s =>
    simp only [escape]
    split
    · have h1 := hexDigits_length 6 (c :: s)
      have h2 := dropWhite1_length (hexDigits 6 (c :: s)).2
      simp at h1 ⊢; omega
    · simp

theorem nameF_length (n : Nat) : ∀ s : List Char, (nameF n s).2.length ≤ s.length := by
  induction n with
  | zero => intro s; cases s <;> simp [nameF]
  | succ n ih =>
    intro s
    cases s with
    | nil => simp [nameF]
    | cons c s =>
      simp only [nameF]
      split
      · have := ih s; simp; omega
      · split
        · have h1 := ih (escape s).2
          have h2 := escape_length s
          simp; omega
        · simp

theorem name_length (s : List Char) : (name s).2.length ≤ s.length := nameF_length _ s

theorem digits_length : ∀ s : List Char, (digits s).2.length ≤ s.length
  | [] => by simp [digits]
  | c :: s => by
    simp only [digits]
    split
    · have := digits_length s; simp; omega
    · simp

theorem sign_length (s : List Char) : (sign s).2.length ≤ s.length := by
  cases s with
  | nil => simp [sign]
  | cons c s => simp only [sign]; split <;> simp

theorem fraction_length (s : List Char) : (fraction s).2.length ≤ s.length := by
  cases s with
  | nil => simp [fraction]
  | cons c s =>
    simp only [fraction]
    split
    · have := digits_length s; simp; omega
    · simp

theorem exponent_length (s : List Char) : (exponent s).2.length ≤ s.length := by
  cases s with
  | nil => simp [exponent]
  | cons c s =>
    simp only [exponent]
    split
    · have h1 := digits_length (sign s).2
      have h2 := sign_length s
      simp; omega
    · simp

theorem number_length {c : Char} {s : List Char} (h : startsNumber (c :: s) = true) : (number (c :: s)).2.length ≤ s.length := by
  simp only [number]
  have h4 := exponent_length (fraction (digits (sign (c :: s)).2).2).2
  have h3 := fraction_length (digits (sign (c :: s)).2).2
  by_cases hs : (c == '+' || c == '-') = true
  · have h1 : (sign (c :: s)).2 = s := by simp only [sign]; rw [if_pos hs]
    rw [h1] at h3 h4 ⊢
    have h2 := digits_length s
    omega
  · have h1 : (sign (c :: s)).2 = c :: s := by simp only [sign]; rw [if_neg hs]
    rw [h1] at h3 h4 ⊢
    simp only [startsNumber, Bool.or_eq_true, Bool.and_eq_true] at h
    simp only [Bool.or_eq_true] at hs
    have hu : startsUnsigned (c :: s) = true := h.resolve_right (fun h => hs h.1)
    simp only [startsUnsigned, Bool.or_eq_true, Bool.and_eq_true] at hu
    by_cases hd : digit c = true
    · simp only [digits, hd, ↓reduceIte] at h3 h4 ⊢
      have h2 := digits_length s
      omega
    · have hd' : digits (c :: s) = ([], c :: s) := by simp [digits, hd]
      have hu := hu.resolve_left hd
      have hf : fraction (c :: s) = (c :: (digits s).1, (digits s).2) := by simp only [fraction]; rw [if_pos (by simpa using hu)]
      have h5 := exponent_length (digits s).2
      have h2 := digits_length s
      rw [hd']
      simp only [hf]
      omega

theorem numeric_length {c : Char} {s : List Char} (h : startsNumber (c :: s) = true) : (numeric (c :: s)).2.length ≤ s.length := by
  have h1 := number_length h
  unfold numeric
  simp only
  split
  · have := name_length (number (c :: s)).2; simp; omega
  · split
    · simp; omega
    · exact h1

theorem stringF_length (q : Char) (n : Nat) : ∀ s : List Char, (stringF q n s).2.length ≤ s.length := by
  induction n with
  | zero => intro s; cases s <;> simp [stringF]
  | succ n ih =>
    intro s
    cases s with
    | nil => simp [stringF]
    | cons c s =>
      simp only [stringF]
      split
      · simp
      · split
        · simp
        · split
          · cases s with
            | nil => simp
            | cons d r =>
              simp only
              split
              · have := ih r; simp; omega
              · have h1 := ih (escape (d :: r)).2
                have h2 := escape_length (d :: r)
                simp at h2 ⊢; omega
          · have := ih s; simp; omega

theorem dropWhite_length : ∀ s : List Char, (dropWhite s).length ≤ s.length
  | [] => by simp [dropWhite]
  | c :: s => by
    simp only [dropWhite]
    split
    · have := dropWhite_length s; simp; omega
    · simp

theorem badRest_length : ∀ (n : Nat) (s : List Char), s.length ≤ n → (badRest s).length ≤ s.length := by
  intro n
  induction n with
  | zero => intro s h; cases s <;> simp_all [badRest]
  | succ n ih =>
    intro s h
    unfold badRest
    split
    · simp
    · simp
    · rename_i s; have := ih s (by simp at h; omega); simp; omega
    · rename_i s _ _; have := ih s (by simp at h; omega); simp; omega

theorem urlF_length (n : Nat) : ∀ s : List Char, (urlF n s).2.length ≤ s.length := by
  induction n with
  | zero => intro s; cases s <;> simp [urlF]
  | succ n ih =>
    intro s
    cases s with
    | nil => simp [urlF]
    | cons c s =>
      have hb := badRest_length _ s (Nat.le_refl _)
      simp only [urlF]
      split
      · simp
      · split
        · have hw := dropWhite_length s
          split
          · simp
          · rename_i d r he
            rw [he] at hw
            split
            · simp at hw ⊢; omega
            · have := badRest_length _ (d :: r) (Nat.le_refl _); simp at hw this ⊢; omega
        · split
          · simp; omega
          · split
            · split
              · have h1 := ih (escape s).2
                have h2 := escape_length s
                simp; omega
              · simp; omega
            · have := ih s; simp; omega

theorem nameF_first {n : Nat} {c : Char} {s : List Char} (h : nameChar c = true ∨ validEscape (c :: s) = true) :
    (nameF (n + 1) (c :: s)).2.length ≤ s.length := by
  simp only [nameF]
  split
  · exact nameF_length n s
  · rename_i hc
    rw [if_pos (h.resolve_left hc)]
    have h1 := nameF_length n (escape s).2
    have h2 := escape_length s
    simp; omega

theorem startsName_first {c : Char} {s : List Char} (h : startsName (c :: s) = true) : nameChar c = true ∨ validEscape (c :: s) = true := by
  unfold startsName at h
  split at h
  · rename_i he; cases he; left; decide
  · rename_i he
    cases he
    simp only [Bool.or_eq_true] at h
    rcases h with h | h
    · left; simp [nameChar, h]
    · exact .inr h
  · rename_i he; cases he

theorem name_first {c : Char} {s : List Char} (h : startsName (c :: s) = true) : (name (c :: s)).2.length ≤ s.length :=
  nameF_first (startsName_first h)

theorem identLike_length {c : Char} {s : List Char} (h : startsName (c :: s) = true) : (identLike (c :: s)).2.length ≤ s.length := by
  have h1 := name_first h
  unfold identLike
  simp only
  split
  · split
    · have h2 := urlF_length (dropWhite ((name (c :: s)).2.drop 1)).length (dropWhite ((name (c :: s)).2.drop 1))
      have h3 := dropWhite_length ((name (c :: s)).2.drop 1)
      rw [List.length_drop] at h3
      show (urlF _ _).2.length ≤ _
      omega
    · simp; omega
  · exact h1

theorem afterComment_length : ∀ s : List Char, (afterComment s).length ≤ s.length := by
  intro s
  fun_induction afterComment s <;> simp_all <;> omega

theorem token_length (c : Char) (s : List Char) : (token c s).2.length ≤ s.length := by
  unfold token
  split
  · have h1 := afterComment_length (s.drop 1); simp at h1 ⊢; omega
  · split
    · exact dropWhite_length s
    · split
      · exact stringF_length c _ s
      · split
        · split
          · split
            · exact name_length _
            · simp
          · simp
        · split
          · simp
          · split
            · rename_i h; exact numeric_length h
            · split
              · simp
              · split
                · simp
                · split
                  · exact name_length s
                  · split
                    · rename_i h; exact identLike_length h
                    · simp

/-! ## The list of tokens, one token at a time -/

theorem tokensF_more (n : Nat) : ∀ (m : Nat) (s : List Char), s.length ≤ n → s.length ≤ m → tokensF n s = tokensF m s := by
  induction n with
  | zero => intro m s h _; cases s <;> cases m <;> simp_all [tokensF]
  | succ n ih =>
    intro m s h hm
    cases s with
    | nil => cases m <;> simp [tokensF]
    | cons c s =>
      cases m with
      | zero => simp at hm
      | succ m =>
        have hl := token_length c s
        simp at h hm
        have := ih m (token c s).2 (by omega) (by omega)
        simp only [tokensF]
        generalize token c s = t at *
        obtain ⟨t, r⟩ := t
        cases t <;> simp_all

theorem toks_nil : toks [] = [] := rfl

theorem toks_cons (c : Char) (s : List Char) : toks (c :: s) =
    match (token c s).1 with
    | some t => if t = .white then toks (token c s).2 else t :: toks (token c s).2
    | none => toks (token c s).2 := by
  have hl := token_length c s
  have := tokensF_more s.length (token c s).2.length (token c s).2 hl (Nat.le_refl _)
  unfold toks
  simp only [List.length_cons, tokensF]
  generalize token c s = t at *
  obtain ⟨t, r⟩ := t
  cases t with
  | none => simp only at this ⊢; rw [this]
  | some t =>
    simp only at this ⊢
    rw [this]
    by_cases h : t = .white <;> simp [h]

/-! ## White space and comments -/

theorem isBlank_white {c : Char} (h : isBlank c = true) : white c = true := by
  simp only [isBlank, Bool.or_eq_true, beq_iff_eq] at h
  rcases h with ((rfl | rfl) | rfl) | rfl <;> decide

theorem white_slash {c : Char} (h : white c = true) : c ≠ '/' := by
  rintro rfl; revert h; decide

theorem token_white {c : Char} (h : white c = true) (s : List Char) : token c s = (some .white, dropWhite s) := by
  unfold token
  rw [if_neg (fun h' => white_slash h h'.1), if_pos h]

theorem dropWhite_dropWhite : ∀ s : List Char, dropWhite (dropWhite s) = dropWhite s
  | [] => rfl
  | c :: s => by
    simp only [dropWhite]
    split
    · exact dropWhite_dropWhite s
    · rename_i h; simp [dropWhite, h]

theorem toks_dropWhite (s : List Char) : toks (dropWhite s) = toks s := by
  cases s with
  | nil => rfl
  | cons c s =>
    simp only [dropWhite]
    split
    · rename_i h
      rw [toks_cons, token_white h]
      rfl
    · rfl

theorem toks_white {c : Char} (h : white c = true) (s : List Char) : toks (c :: s) = toks s := by
  rw [toks_cons, token_white h]
  exact toks_dropWhite s

theorem toks_comment {b s : List Char} (h : afterComment (b ++ '*' :: '/' :: s) = s) : toks ('/' :: '*' :: b ++ '*' :: '/' :: s) = toks s := by
  have ht : token '/' ('*' :: b ++ '*' :: '/' :: s) = (none, s) := by
    unfold token
    rw [if_pos ⟨rfl, rfl⟩]
    simp [h]
  rw [List.cons_append, toks_cons, ht]

/-- Blanks and comments. -/
inductive Skip : List Char → Prop
  | nil : Skip []
  | blank {c : Char} {g : List Char} : isBlank c = true → Skip g → Skip (c :: g)
  | comment {b g : List Char} : (∀ s, afterComment (b ++ '*' :: '/' :: s) = s) → Skip g → Skip ('/' :: '*' :: b ++ '*' :: '/' :: g)

theorem Skip.append {g h : List Char} (hg : Skip g) (hh : Skip h) : Skip (g ++ h) := by
  induction hg with
  | nil => exact hh
  | blank hc _ ih => exact .blank hc ih
  | comment hb _ ih =>
    have := Skip.comment hb ih
    simpa using this

theorem toks_skip {g : List Char} (hg : Skip g) (s : List Char) : toks (g ++ s) = toks s := by
  induction hg with
  | nil => rfl
  | blank hc _ ih => rw [List.cons_append, toks_white (isBlank_white hc), ih]
  | @comment b g hb _ ih =>
    have := toks_comment (hb (g ++ s))
    rw [← ih, ← this]
    simp

theorem skip_blanks {w : List Char} (h : ∀ c ∈ w, isBlank c = true) : Skip w := by
  induction w with
  | nil => exact .nil
  | cons c w ih => exact .blank (h c (by simp)) (ih (fun d hd => h d (by simp [hd])))

/-- What a gap starts with. -/
theorem Skip.head {g : List Char} (hg : Skip g) : g = [] ∨ ∃ c r, g = c :: r ∧ (isBlank c = true ∨ (c = '/' ∧ r.head? = some '*')) := by
  cases hg with
  | nil => exact .inl rfl
  | blank hc _ => exact .inr ⟨_, _, rfl, .inl hc⟩
  | comment _ _ => exact .inr ⟨_, _, rfl, .inr ⟨rfl, rfl⟩⟩

/-! ## The relation -/

/-- A string literal: it is read as the same string whatever follows. -/
def StrText (t : List Char) : Prop :=
  ∃ q b v, quote q = true ∧ t = q :: b ∧ ∀ n r, (b ++ r).length ≤ n → stringF q n (b ++ r) = (some v, r)

/-- `p` is the character before both texts, if nothing stands in between. -/
inductive Rel : Option Char → List Char → List Char → Prop
  | nil {p w} : (∀ c ∈ w, isBlank c = true) → Rel p [] w
  | chr {p c s o} : isBlank c = false → quote c = false → c ≠ '\\' → (c = '/' → s.head? ≠ some '*') → Rel (some c) s o →
      Rel p (c :: s) (c :: o)
  | esc {p c s o} : hex c = false → newline c = false → Rel (some 'x') s o → Rel p ('\\' :: c :: s) ('\\' :: c :: o)
  | str {p t s o} : StrText t → Rel none s o → Rel p (t ++ s) (t ++ o)
  | gap {p g h s o} : Skip g → g ≠ [] → Skip h → h ≠ [] → ((∀ c ∈ g, isBlank c = true) → ∀ c ∈ h, isBlank c = true) → Rel none s o →
      Rel p (g ++ s) (h ++ o)
  | drop {p g s o} : Skip g → g ≠ [] → glues p o = false → Rel none s o → Rel p (g ++ s) o
  | media {p n w s o} : (p = none ∨ p = some ';' ∨ p = some '{' ∨ p = some '}') → startsName n = true → n.all nameChar = true →
      (∀ c, s.head? = some c → nameChar c = false ∧ c ≠ '\\') → (∀ c ∈ w, isBlank c = true) → w ≠ [] → Rel none s o →
      Rel p ('@' :: n ++ s) ('@' :: n ++ (w ++ o))

/-- The punctuation characters. -/
theorem punct_mem {c : Char} (h : isPunct c = true) :
    c ∈ ['\'', '"', ',', '(', ')', '{', '}', '[', ']', ':', ';', '/', '*', '+', '=', ' ', '\t', '\n', '\r', '>', '|', '~', '$', '^', '\\'] := by
  have e : "'\",(){}[]:;/*+= \t\n\r>|~$^\\".toList =
    ['\'', '"', ',', '(', ')', '{', '}', '[', ']', ':', ';', '/', '*', '+', '=', ' ', '\t', '\n', '\r', '>', '|', '~', '$', '^', '\\'] := by
    decide +kernel
  unfold isPunct at h
  rw [e] at h
  exact of_decide_eq_true h

theorem punct_all {P : Char → Bool}
    (hP : (['\'', '"', ',', '(', ')', '{', '}', '[', ']', ':', ';', '/', '*', '+', '=', ' ', '\t', '\n', '\r', '>', '|', '~', '$', '^', '\\'].all P) = true)
    {c : Char} (h : isPunct c = true) : P c = true := List.all_eq_true.mp hP c (punct_mem h)

theorem nameChar_word {c : Char} (h : nameChar c = true) : isPunct c = false := by
  cases hp : isPunct c with
  | false => rfl
  | true => have := punct_all (P := fun c => !nameChar c) (by decide +kernel) hp; simp [h] at this

theorem punct_name {c : Char} (h : isPunct c = true) : nameChar c = false := by
  cases hn : nameChar c with
  | false => rfl
  | true => rw [nameChar_word hn] at h; cases h

theorem digit_name {c : Char} (h : digit c = true) : nameChar c = true := by simp [nameChar, h]

theorem nameStart_name {c : Char} (h : nameStart c = true) : nameChar c = true := by simp [nameChar, h]

theorem isBlank_punct {c : Char} (h : isBlank c = true) : isPunct c = true := by
  simp only [isBlank, Bool.or_eq_true, beq_iff_eq] at h
  rcases h with ((rfl | rfl) | rfl) | rfl <;> decide +kernel

/-- Nothing grows together with a blank, a slash or a quote. -/
theorem glues_stop {p y : Char} (h : isBlank y = true ∨ y = '/' ∨ quote y = true) (r : List Char) : glues (some p) (y :: r) = false := by
  have hy : y = ' ' ∨ y = '\t' ∨ y = '\n' ∨ y = '\r' ∨ y = '/' ∨ y = '"' ∨ y = '\'' := by
    rcases h with h | h | h
    · simp only [isBlank, Bool.or_eq_true, beq_iff_eq] at h; rcases h with ((h | h) | h) | h <;> simp [h]
    · simp [h]
    · simp only [quote, Bool.or_eq_true, beq_iff_eq] at h; rcases h with h | h <;> simp [h]
  rcases hy with rfl | rfl | rfl | rfl | rfl | rfl | rfl
  all_goals simp (decide := true) [glues, isPunct]

theorem glues_nil (p : Option Char) : glues p [] = false := by cases p <;> rfl

theorem Skip.glues {g : List Char} (hg : Skip g) (hn : g ≠ []) (p : Char) (s : List Char) : glues (some p) (g ++ s) = false := by
  rcases hg.head with h | ⟨c, r, rfl, h⟩
  · exact absurd h hn
  · rw [List.cons_append]
    refine glues_stop ?_ _
    rcases h with h | h
    · exact .inl h
    · exact .inr (.inl h.1)

/-- How two related texts begin, after the character `p`. -/
theorem Rel.head {p : Char} {s o : List Char} (h : Rel (some p) s o) :
    (∃ c s' o', s = c :: s' ∧ o = c :: o' ∧ isBlank c = false ∧ quote c = false ∧ c ≠ '\\' ∧ (c = '/' → s'.head? ≠ some '*') ∧
      Rel (some c) s' o') ∨
    (∃ c s' o', s = '\\' :: c :: s' ∧ o = '\\' :: c :: o' ∧ hex c = false ∧ newline c = false ∧ Rel (some 'x') s' o') ∨
    (glues (some p) s = false ∧ glues (some p) o = false) := by
  cases h with
  | nil hw =>
    refine .inr (.inr ⟨rfl, ?_⟩)
    cases o with
    | nil => rfl
    | cons c w => exact glues_stop (.inl (hw c (by simp))) _
  | chr h1 h2 h3 h4 h5 => exact .inl ⟨_, _, _, rfl, rfl, h1, h2, h3, h4, h5⟩
  | esc h1 h2 h3 => exact .inr (.inl ⟨_, _, _, rfl, rfl, h1, h2, h3⟩)
  | str ht h =>
    obtain ⟨q, b, v, hq, rfl, _⟩ := ht
    exact .inr (.inr ⟨glues_stop (.inr (.inr hq)) _, glues_stop (.inr (.inr hq)) _⟩)
  | gap hg hgn hh hhn _ h => exact .inr (.inr ⟨hg.glues hgn p _, hh.glues hhn p _⟩)
  | drop hg hgn hp h => exact .inr (.inr ⟨hg.glues hgn p _, hp⟩)
  | media hp hn ha hs hw hwn h =>
    have : ∀ l, glues (some p) ('@' :: l) = false := by
      intro l
      simp only [Option.some.injEq, reduceCtorEq, false_or] at hp
      rcases hp with rfl | rfl | rfl <;> rfl
    exact .inr (.inr ⟨this _, this _⟩)

/-- What follows a word, if it does not grow together with it. -/
theorem glues_word {p : Char} (hp : isPunct p = false) {s : List Char} (h : glues (some p) s = false) :
    s = [] ∨ ∃ y r, s = y :: r ∧ isPunct y = true ∧ y ≠ '\\' := by
  cases s with
  | nil => exact .inl rfl
  | cons y r =>
    refine .inr ⟨y, r, rfl, ?_⟩
    simp only [glues, hp, Bool.not_false, Bool.true_and, Bool.or_eq_false_iff, Bool.not_eq_false'] at h
    have := h.1.1.1.1.1
    exact ⟨this.1, by simpa using this.2⟩

end Verif.Spec.CssSyntax
