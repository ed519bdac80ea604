import Verif.Proofs.JsShape
import Verif.Model.JsTools
/-!
# The text that `js::minify` writes, in terms of lexemes
-/
set_option linter.unusedSimpArgs false
namespace Verif.Js
open Spec.Js

/-! ## Floating numbers -/

def NoSign (w : List Char) : Prop := '+' ∉ w ∧ '-' ∉ w

theorem NoSign.tail {c : Char} {w : List Char} (h : NoSign (c :: w)) : NoSign w :=
  ⟨fun hm => h.1 (List.mem_cons_of_mem _ hm), fun hm => h.2 (List.mem_cons_of_mem _ hm)⟩

theorem NoSign.dropSign {w : List Char} (h : NoSign w) : dropSign w = w := by
  unfold Js.dropSign
  split
  · exact absurd List.mem_cons_self h.1
  · exact absurd List.mem_cons_self h.2
  · rfl

private def acc (st : NumState) (w : List Char) : Bool := (w.foldl NumState.step st).accepts

private theorem acc_cons (st : NumState) (c : Char) (w : List Char) : acc st (c :: w) = acc (st.step c) w := rfl

private theorem acc_fail (w : List Char) : acc .fail w = false := by
  induction w with
  | nil => rfl
  | cons c w ih => rw [acc_cons]; exact ih

private theorem acc_expDigits (w : List Char) : acc .expDigits w = w.all Js.isDigit := by
  induction w with
  | nil => rfl
  | cons c w ih =>
    rw [acc_cons, List.all_cons, isDigit_eq]
    by_cases h : Spec.Js.isDigit c = true
    · simp [NumState.step, ih, h]
    · simp only [NumState.step, if_neg h, acc_fail]; simp [h]

private theorem acc_exp (w : List Char) : acc .exp w = (!w.isEmpty && w.all Js.isDigit) := by
  cases w with
  | nil => rfl
  | cons c w =>
    rw [acc_cons, List.all_cons, isDigit_eq]
    by_cases h : Spec.Js.isDigit c = true
    · simp [NumState.step, acc_expDigits, h]
    · simp only [NumState.step, if_neg h, acc_fail]; simp [h]

private theorem digit_e {c : Char} (h : c = 'e' ∨ c = 'E') : Spec.Js.isDigit c = false ∧ c ≠ '.' := by
  rcases h with rfl | rfl <;> decide

private theorem acc_frac (w : List Char) (hs : NoSign w) : acc .frac w = isExponent (w.dropWhile Js.isDigit) := by
  induction w with
  | nil => rfl
  | cons c w ih =>
    rw [acc_cons, List.dropWhile_cons, isDigit_eq]
    by_cases h : Spec.Js.isDigit c = true
    · simp only [NumState.step, if_pos h, ih hs.tail]
    · simp only [NumState.step, if_neg h]
      rw [isExponent, hs.tail.dropSign]
      by_cases he : c = 'e' ∨ c = 'E'
      · rw [if_pos he, acc_exp]
        have : (c == 'e' || c == 'E') = true := by simpa using he
        rw [this, Bool.true_and]
      · rw [if_neg he, acc_fail]
        have : (c == 'e' || c == 'E') = false := by
          cases hh : (c == 'e' || c == 'E') with
          | false => rfl
          | true => exact absurd (by simpa using hh) he
        rw [this]; rfl

private theorem acc_int (w : List Char) (hs : NoSign w) : acc .int w =
    match w.dropWhile Js.isDigit with
    | '.' :: r => isExponent (r.dropWhile Js.isDigit)
    | r => isExponent r := by
  induction w with
  | nil => rfl
  | cons c w ih =>
    rw [acc_cons, List.dropWhile_cons, isDigit_eq]
    by_cases h : Spec.Js.isDigit c = true
    · simp only [NumState.step, if_pos h, ih hs.tail]
    · simp only [NumState.step, if_neg h]
      by_cases hd : c = '.'
      · subst hd
        rw [if_pos rfl, acc_frac w hs.tail]
        rfl
      · rw [if_neg hd]
        have hm : (match c :: w with
          | '.' :: r => isExponent (r.dropWhile Js.isDigit)
          | r => isExponent r) = isExponent (c :: w) := by
          split
          · rename_i heq; simp at heq; exact absurd heq.1 hd
          · rfl
        rw [hm, isExponent, hs.tail.dropSign]
        by_cases he : c = 'e' ∨ c = 'E'
        · rw [if_pos he, acc_exp]
          have : (c == 'e' || c == 'E') = true := by simpa using he
          rw [this, Bool.true_and]
        · rw [if_neg he, acc_fail]
          have : (c == 'e' || c == 'E') = false := by
            cases hh : (c == 'e' || c == 'E') with
            | false => rfl
            | true => exact absurd (by simpa using hh) he
          rw [this]; rfl

private theorem acc_start (w : List Char) (hs : NoSign w) : acc .start w =
    match w.dropWhile Js.isDigit with
    | '.' :: r => (!(w.takeWhile Js.isDigit).isEmpty || !(r.takeWhile Js.isDigit).isEmpty) && isExponent (r.dropWhile Js.isDigit)
    | r => !(w.takeWhile Js.isDigit).isEmpty && isExponent r := by
  cases w with
  | nil => rfl
  | cons c w =>
    rw [acc_cons, List.dropWhile_cons, List.takeWhile_cons, isDigit_eq]
    by_cases h : Spec.Js.isDigit c = true
    · simp only [NumState.step, if_pos h, acc_int w hs.tail]
      generalize w.dropWhile Js.isDigit = x
      split <;> simp
    · simp only [NumState.step, if_neg h]
      by_cases hd : c = '.'
      · subst hd
        rw [if_pos rfl]
        cases w with
        | nil => rfl
        | cons x w =>
          rw [acc_cons]
          simp only [List.dropWhile_cons, List.takeWhile_cons, isDigit_eq, List.isEmpty_nil, Bool.not_true, Bool.false_or]
          by_cases hx : Spec.Js.isDigit x = true
          · simp only [NumState.step, if_pos hx, acc_frac w hs.tail.tail]; simp
          · simp only [NumState.step, if_neg hx, acc_fail]; simp
      · rw [if_neg hd, acc_fail]
        split
        · rename_i heq; simp at heq; exact absurd heq.1 hd
        · rfl

private theorem sameLetter_eq {c d : Char} (hd : ¬(65 ≤ d.toNat ∧ d.toNat ≤ 90)) : sameLetter c d = (lowerAscii c == d) := by
  unfold sameLetter lowerAscii
  by_cases h : 65 ≤ c.toNat ∧ c.toNat ≤ 90
  · rw [if_pos h]
    have hcd : (c == d) = false := by
      simp only [beq_eq_false_iff_ne]; rintro rfl; exact hd h
    rw [hcd, Bool.false_or]
    simp only [h.1, h.2, decide_true, Bool.true_and]
    have hv : (Char.ofNat (c.toNat + 32)).toNat = c.toNat + 32 := by
      have : (c.toNat + 32).isValidChar := .inl (by omega)
      unfold Char.ofNat
      rw [dif_pos this]; rfl
    rw [Bool.eq_iff_iff]
    simp only [beq_iff_eq]
    constructor
    · intro he; exact Char.toNat_inj.1 (hv.trans he)
    · intro he; rw [← he, hv]
  · rw [if_neg h]
    have : (decide (65 ≤ c.toNat) && decide (c.toNat ≤ 90) && c.toNat + 32 == d.toNat) = false := by
      simp only [Bool.and_eq_false_imp, Bool.and_eq_true, decide_eq_true_eq]
      intro hh; exact absurd hh h
    rw [this, Bool.or_false]

private theorem sameWord_eq : ∀ (w t : List Char), (∀ d ∈ t, ¬(65 ≤ d.toNat ∧ d.toNat ≤ 90)) →
    sameWord w t = (w.map lowerAscii == t)
  | [], [], _ => rfl
  | [], _ :: _, _ => rfl
  | _ :: _, [], _ => rfl
  | c :: w, d :: t, h => by
    rw [sameWord, sameLetter_eq (h d List.mem_cons_self), sameWord_eq w t fun x hx => h x (List.mem_cons_of_mem _ hx)]
    rfl

theorem isF64_eq {w : List Char} (hs : NoSign w) : isF64 w = isFloat w := by
  have hf : isFloat w = (acc .start w || sameWord w "inf".toList || sameWord w "infinity".toList || sameWord w "nan".toList) := rfl
  rw [hf, sameWord_eq w _ (by decide +kernel), sameWord_eq w _ (by decide +kernel), sameWord_eq w _ (by decide +kernel),
    acc_start w hs]
  unfold isF64
  simp only [hs.dropSign]
  by_cases hm : w.map lowerAscii ∈ ["inf".toList, "infinity".toList, "nan".toList]
  · rw [if_pos hm]
    simp only [List.mem_cons, List.not_mem_nil, or_false] at hm
    rcases hm with h | h | h <;> rw [h] <;> simp
  · rw [if_neg hm]
    simp only [List.mem_cons, List.not_mem_nil, or_false, not_or] at hm
    have e1 : (w.map lowerAscii == "inf".toList) = false := by simpa using hm.1
    have e2 : (w.map lowerAscii == "infinity".toList) = false := by simpa using hm.2.1
    have e3 : (w.map lowerAscii == "nan".toList) = false := by simpa using hm.2.2
    rw [e1, e2, e3]
    simp only [Bool.or_false]
    rfl

/-! ## Integers -/

private theorem digitsRev_fuel : ∀ (f g n : Nat), n < f → n < g → natDigitsRev f n = natDigitsRev g n
  | 0, _, _, h, _ => by omega
  | _ + 1, 0, _, _, h => by omega
  | f + 1, g + 1, n, hf, hg => by
    rw [natDigitsRev, natDigitsRev]
    split
    · rfl
    · rw [digitsRev_fuel f g (n / 10) (by omega) (by omega)]

private theorem digitsRev_step {m : Nat} (hm : 0 < m) {d : Nat} (hd : d < 10) :
    natDigitsRev (10 * m + d + 1) (10 * m + d) = Char.ofNat (48 + d) :: natDigitsRev (m + 1) m := by
  rw [natDigitsRev, if_neg (by omega), show (10 * m + d) % 10 = d by omega, show (10 * m + d) / 10 = m by omega,
    digitsRev_fuel (10 * m + d) (m + 1) m (by omega) (by omega)]

theorem digit_lt {c : Char} (h : Spec.Js.isDigit c = true) : digit c < 10 ∧ Char.ofNat (48 + digit c) = c ∧ (digit c = 0 → c = '0') := by
  have hs : ∀ c ∈ "0123456789".toList, digit c < 10 ∧ Char.ofNat (48 + digit c) = c ∧ (digit c = 0 → c = '0') := by decide +kernel
  exact hs c (by simpa [Spec.Js.isDigit] using h)

theorem value_snoc (w : List Char) (c : Char) : value (w ++ [c]) = 10 * value w + digit c := by
  unfold value; rw [List.foldl_append]; rfl

private theorem natDisplay_value_rev : ∀ (l : List Char), l ≠ [] → (∀ c ∈ l, Spec.Js.isDigit c = true) → l.getLast? ≠ some '0' →
    0 < value l.reverse ∧ natDigitsRev (value l.reverse + 1) (value l.reverse) = l
  | [], h, _, _ => absurd rfl h
  | [c], _, hd, hz => by
    obtain ⟨h1, h2, h3⟩ := digit_lt (hd c List.mem_cons_self)
    have hv : value [c].reverse = digit c := by simp [value]
    rw [hv]
    refine ⟨Nat.pos_of_ne_zero fun h => hz (by simp [h3 h]), ?_⟩
    rw [natDigitsRev, if_pos h1, h2]
  | c :: d :: l, _, hd, hz => by
    obtain ⟨h1, h2, h3⟩ := digit_lt (hd c List.mem_cons_self)
    obtain ⟨i1, i2⟩ := natDisplay_value_rev (d :: l) (by simp) (fun x hx => hd x (List.mem_cons_of_mem _ hx))
      (by rw [List.getLast?_cons_cons] at hz; exact hz)
    rw [List.reverse_cons, value_snoc]
    refine ⟨by omega, ?_⟩
    rw [digitsRev_step i1 h1, i2, h2]

theorem value_zero (w : List Char) : value ('0' :: w) = value w := rfl

theorem value_dropZeros (w : List Char) : value (w.dropWhile (· == '0')) = value w := by
  induction w with
  | nil => rfl
  | cons c w ih =>
    rw [List.dropWhile_cons]
    split
    · rename_i h
      simp only [beq_iff_eq] at h
      rw [h, ih, value_zero]
    · rfl

private theorem dropZeros_head (w : List Char) : (w.dropWhile (· == '0')).head? ≠ some '0' := by
  induction w with
  | nil => simp
  | cons c w ih =>
    rw [List.dropWhile_cons]
    split
    · exact ih
    · rename_i h; simpa using h

theorem natDisplay_value {w : List Char} (h : ∀ c ∈ w, Spec.Js.isDigit c = true) : natDisplay (value w) = shortest w := by
  unfold shortest natDisplay
  have hv := value_dropZeros w
  have hh := dropZeros_head w
  have hd : ∀ c ∈ w.dropWhile (· == '0'), Spec.Js.isDigit c = true :=
    fun c hc => h c ((List.dropWhile_suffix _).subset hc)
  generalize w.dropWhile (· == '0') = x at hv hh hd
  cases x with
  | nil => rw [← hv]; rfl
  | cons c x =>
    simp only
    have := (natDisplay_value_rev (c :: x).reverse (by simp) (fun d hd' => hd d (List.mem_reverse.1 hd'))
      (by rw [List.getLast?_reverse]; exact hh)).2
    rw [List.reverse_reverse] at this
    rw [← hv, this, List.reverse_reverse]

theorem isInteger_iff {w : List Char} : isInteger w = true ↔ w ≠ [] ∧ (∀ c ∈ w, Spec.Js.isDigit c = true) ∧ value w < 2 ^ 64 := by
  unfold isInteger
  cases w <;> simp [List.all_eq_true, and_assoc]

theorem shortest_ok {w : List Char} (h : isInteger w = true) : isInteger (shortest w) = true ∧ value (shortest w) = value w ∧
    shortest (shortest w) = shortest w ∧ shortest w ≠ [] := by
  obtain ⟨h1, h2, h3⟩ := isInteger_iff.1 h
  have hv := value_dropZeros w
  have hh := dropZeros_head w
  have hd : ∀ c ∈ w.dropWhile (· == '0'), Spec.Js.isDigit c = true :=
    fun c hc => h2 c ((List.dropWhile_suffix _).subset hc)
  have he : shortest w = match w.dropWhile (· == '0') with | [] => ['0'] | w => w := rfl
  rw [he]
  generalize w.dropWhile (· == '0') = x at hv hh hd
  cases x with
  | nil =>
    simp only
    refine ⟨by decide, ?_, by decide, by simp⟩
    rw [← hv]; rfl
  | cons c x =>
    simp only
    refine ⟨isInteger_iff.2 ⟨by simp, hd, by rw [hv]; exact h3⟩, hv, ?_, by simp⟩
    unfold shortest
    have hc : (c == '0') = false := by simpa using hh
    rw [List.dropWhile_cons, hc]; rfl

/-! ## Words -/

theorem keyword_some {w : List Char} {k : Keyword} (h : Keyword.ofStr w = some k) : w ∈ keywords ∧ k.display = w := by
  have hs : ∀ p ∈ keywordTable, p.1 ∈ keywords ∧ p.2.display = p.1 := by decide +kernel
  have : (w, k) ∈ keywordTable := by
    unfold Keyword.ofStr at h
    revert h
    generalize keywordTable = t
    induction t with
    | nil => intro h; cases h
    | cons p t ih =>
      intro h
      obtain ⟨a, b⟩ := p
      rw [List.lookup_cons] at h
      split at h
      · rename_i he
        simp only [beq_iff_eq] at he
        cases h; rw [he]; exact List.mem_cons_self
      · exact List.mem_cons_of_mem _ (ih h)
  exact hs _ this

theorem keyword_none {w : List Char} (h : Keyword.ofStr w = none) : w ∉ keywords := by
  have hs : ∀ w ∈ keywords, Keyword.ofStr w ≠ none := by decide +kernel
  exact fun hm => hs w hm h

theorem word_cases {w : List Char} (h : NoSign w) :
    (w ∈ keywords ∧ ∃ k, wordToken w = .keyword k ∧ k.display = w) ∨
    (w ∉ keywords ∧ isInteger w = true ∧ wordToken w = .number (value w)) ∨
    (w ∉ keywords ∧ isInteger w = false ∧ isFloat w = true ∧ wordToken w = .float w) ∨
    (w ∉ keywords ∧ isInteger w = false ∧ isFloat w = false ∧ wordToken w = .other w) := by
  unfold wordToken
  cases hk : Keyword.ofStr w with
  | some k => exact .inl ⟨(keyword_some hk).1, k, rfl, (keyword_some hk).2⟩
  | none =>
    have := keyword_none hk
    simp only
    rw [parseU64_eq h.1]
    cases hi : isInteger w with
    | true => exact .inr (.inl ⟨this, rfl, by simp⟩)
    | false =>
      simp only [Bool.false_eq_true, if_false]
      rw [isF64_eq h]
      cases hf : isFloat w with
      | true => exact .inr (.inr (.inl ⟨this, trivial, rfl, by simp⟩))
      | false => exact .inr (.inr (.inr ⟨this, trivial, rfl, by simp⟩))

theorem keywords_name : ∀ w ∈ keywords, isInteger w = false ∧ isFloat w = false := by decide +kernel

theorem WordOk.noSign {w : List Char} (h : WordOk w) : NoSign w := by
  obtain ⟨-, cs, -, hw⟩ := h
  have key : ∀ c ∈ w, isPunct c = false ∨ c = '.' := by
    intro c hc
    obtain ⟨p, r, rfl⟩ := List.append_of_mem hc
    rcases (hw p c r rfl).2 with h | h
    · exact .inl h
    · exact .inr h.1
  constructor
  · intro hm
    rcases key _ hm with h | h <;> revert h <;> decide
  · intro hm
    rcases key _ hm with h | h <;> revert h <;> decide

/-! ## Cleaning -/

/-- A token that `clean_tokens` does not look at. -/
def keepTok (t : Token) : Bool := !(t.isComment || t.isWhite)

theorem getNext_eq (ts : List Token) : getNext ts =
    match ts.dropWhile (fun t => !keepTok t) with
    | [] => none
    | t :: ts => some (t, ts) := by
  induction ts with
  | nil => rfl
  | cons t ts ih =>
    rw [getNext, List.dropWhile_cons]
    have hk : keepTok t = !(t.isComment || t.isWhite) := rfl
    rw [hk]
    cases h : (t.isComment || t.isWhite) with
    | true => simpa using ih
    | false => simp

private theorem filter_dropWhile (ts : List Token) : (ts.dropWhile (fun t => !keepTok t)).filter keepTok = ts.filter keepTok := by
  induction ts with
  | nil => rfl
  | cons t ts ih =>
    rw [List.dropWhile_cons]
    cases h : keepTok t with
    | true => simp [h]
    | false => simpa [h] using ih

/-- The tokens kept after `v`. -/
private def kept (v : List Token) (us : List Token) : List Token :=
  if v.isEmpty then us.dropWhile (· == .char .semiColon) else us

private theorem cleanLoop_eq : ∀ (n : Nat) (v ts : List Token), ts.length < n →
    (cleanLoop n v ts).reverse = v.reverse ++ kept v (ts.filter keepTok) := by
  intro n
  induction n with
  | zero => intro v ts h; omega
  | succ n ih =>
    intro v ts hl
    rw [cleanLoop, getNext_eq, ← filter_dropWhile]
    have hle : (ts.dropWhile (fun t => !keepTok t)).length ≤ ts.length := (List.dropWhile_suffix _).length_le
    have hk : ∀ t us, ts.dropWhile (fun t => !keepTok t) = t :: us → keepTok t = true := by
      clear hl hle
      induction ts with
      | nil => intro t us h; cases h
      | cons x ts ih' =>
        intro t us h
        rw [List.dropWhile_cons] at h
        cases hx : keepTok x with
        | true => simp [hx] at h; rw [← h.1, hx]
        | false => simp [hx] at h; exact ih' t us h
    generalize ts.dropWhile (fun t => !keepTok t) = ds at hle hk
    cases ds with
    | nil => simp [kept]
    | cons t us =>
      have ht := hk t us rfl
      have hus : us.length < n := by simp at hle; omega
      simp only
      have hw : t.isWhite = false := by
        unfold keepTok at ht
        cases hx : t.isWhite with
        | false => rfl
        | true => rw [hx] at ht; simp at ht
      rw [hw]
      simp only [Bool.false_eq_true, if_false]
      rw [List.filter_cons_of_pos ht]
      by_cases hs : (t.getChar == some .semiColon && v.isEmpty) = true
      · rw [if_pos hs, ih v us hus]
        simp only [Bool.and_eq_true, beq_iff_eq] at hs
        have he : t = .char .semiColon := by
          cases t with
          | char c => have := hs.1; simp [Token.getChar] at this; rw [this]
          | _ => exact absurd hs.1 (by simp [Token.getChar])
        simp only [kept, hs.2, if_true, he]
        rw [List.dropWhile_cons]
        simp
      · rw [if_neg hs, ih (t :: v) us hus]
        simp only [List.reverse_cons, List.append_assoc, kept, List.isEmpty_cons, Bool.false_eq_true, if_false]
        congr 1
        cases hv : v.isEmpty with
        | false => simp
        | true =>
          rw [if_pos rfl, List.dropWhile_cons]
          have : (t == Token.char .semiColon) = false := by
            rw [hv, Bool.and_true] at hs
            simp only [beq_eq_false_iff_ne]
            rintro rfl
            exact hs (by simp [Token.getChar])
          rw [this]; rfl

theorem cleanTokens_eq (ts : List Token) :
    cleanTokens ts = (ts.filter keepTok).dropWhile (· == .char .semiColon) := by
  unfold cleanTokens
  rw [cleanLoop_eq _ _ _ (Nat.lt_succ_self _)]
  simp [kept]

/-! ## From lexemes to tokens -/

theorem word_shape {w : List Char} (h : WordOk w) : (wordToken w).isComment = false ∧ (wordToken w).isWhite = false ∧
    wordToken w ≠ .char .semiColon ∧ (wordToken w).isChar = false ∧ (wordToken w).isStr = false ∧
    (wordToken w).getRequired = some ' ' ∧
    ((wordToken w).isKeyword || (wordToken w).isOther) = isName w ∧ (wordToken w).requiresBefore = wordOperator w ∧
    (∀ n, spaceAfter (wordToken w) n = if isName w then n.bind Token.getRequired else none) ∧
    (wordToken w).display = text (shorten (.word w)) := by
  have hs := h.noSign
  have hop : ∀ w, w ∉ keywords → wordOperator w = false := by
    intro w hw
    cases hx : wordOperator w with
    | false => rfl
    | true =>
      exfalso
      apply hw
      unfold wordOperator at hx
      simp only [Bool.or_eq_true, beq_iff_eq] at hx
      rcases hx with rfl | rfl <;> decide
  rcases word_cases hs with ⟨h1, k, h2, h3⟩ | ⟨h1, h2, h3⟩ | ⟨h1, h2, h3, h4⟩ | ⟨h1, h2, h3, h4⟩
  · obtain ⟨n1, n2⟩ := keywords_name w h1
    have hkw : k.requiresBefore = wordOperator k.display := by cases k <;> decide +kernel
    rw [h2]
    simp [Token.isComment, Token.isWhite, Token.isChar, Token.isStr, Token.getRequired, Token.isKeyword, Token.isOther,
      Token.requiresBefore, isName, n1, n2, spaceAfter, Token.display, shorten, text, h3, hkw]
  · rw [h3]
    simp [Token.isComment, Token.isWhite, Token.isChar, Token.isStr, Token.getRequired, Token.isKeyword, Token.isOther,
      Token.requiresBefore, isName, h2, hop w h1, spaceAfter, Token.display, shorten, text,
      natDisplay_value (isInteger_iff.1 h2).2.1]
  · rw [h4]
    simp [Token.isComment, Token.isWhite, Token.isChar, Token.isStr, Token.getRequired, Token.isKeyword, Token.isOther,
      Token.requiresBefore, isName, h2, h3, hop w h1, spaceAfter, Token.display, shorten, text]
  · rw [h4]
    simp [Token.isComment, Token.isWhite, Token.isChar, Token.isStr, Token.getRequired, Token.isKeyword, Token.isOther,
      Token.requiresBefore, isName, h2, h3, hop w h1, spaceAfter, Token.display, shorten, text]

theorem punct_shape : ∀ t ∈ puncts, keepTok (tokOf (.punct t)) = true ∧
    (tokOf (.punct t) = .char .semiColon ↔ t = [';']) ∧ (tokOf (.punct t)).isChar = isDelimiter t ∧
    (tokOf (.punct t)).isStr = false ∧ (tokOf (.punct t)).isKeyword = false ∧ (tokOf (.punct t)).isOther = false ∧
    (tokOf (.punct t)).getRequired = none ∧
    (tokOf (.punct t)).requiresBefore = false ∧ (tokOf (.punct t)).display = t := by
  decide +kernel

/-- Solid lexemes of a reading without open ones. -/
def Solid (l : Lexeme) : Prop := isOpen l = false ∧ solid l = true ∧ ∃ v, LexOk v l

theorem blank_tok {c : Char} (h : isBlank c = true) : keepTok (tokOf (.blank c)) = false := by
  have hs : ∀ c ∈ [' ', '\t', '\n', '\r'], keepTok (tokOf (.blank c)) = false := by decide +kernel
  apply hs c
  simp only [isBlank, Bool.or_eq_true, beq_iff_eq] at h
  simp only [List.mem_cons, List.not_mem_nil, or_false]
  rcases h with ((h | h) | h) | h <;> simp [h]

theorem keepTok_tokOf {v : List Lexeme} {l : Lexeme} (h : LexOk v l) (ho : isOpen l = false) :
    keepTok (tokOf l) = solid l := by
  cases l with
  | word w =>
    have := word_shape h
    show (!((wordToken w).isComment || (wordToken w).isWhite)) = true
    rw [this.1, this.2.1]; rfl
  | blank c => exact blank_tok h.1
  | punct t => exact (punct_shape t h).1
  | str t => rfl
  | regex b fl => rfl
  | comment b => rfl
  | license b => rfl
  | openStr _ => cases ho
  | openTemplate _ => cases ho
  | tooDeep => cases ho
  | openLine _ => cases ho
  | openBlock _ => cases ho
  | openRegex _ => cases ho

theorem tokOf_semi {l : Lexeme} (h : Solid l) : (tokOf l == .char .semiColon) = (l == .punct [';']) := by
  obtain ⟨ho, hs, v, hl⟩ := h
  rw [Bool.eq_iff_iff]
  simp only [beq_iff_eq]
  cases l with
  | word w =>
    have := word_shape hl
    exact ⟨fun e => absurd e this.2.2.1, fun e => by cases e⟩
  | blank c => cases hs
  | punct t =>
    rw [(punct_shape t hl).2.1]
    constructor
    · rintro rfl; rfl
    · intro e; cases e; rfl
  | str t => simp [tokOf]
  | regex b fl => simp [tokOf]
  | comment b => simp [tokOf]
  | license b => simp [tokOf]
  | openStr _ => cases ho
  | openTemplate _ => cases ho
  | tooDeep => cases ho
  | openLine _ => cases ho
  | openBlock _ => cases ho
  | openRegex _ => cases ho

theorem Wf.mem {v : List Lexeme} (h : Wf v) : ∀ l ∈ v, ∃ u, LexOk u l := by
  induction v with
  | nil => simp
  | cons x v ih =>
    intro l hl
    rcases List.mem_cons.1 hl with rfl | hl
    · exact ⟨v, h.1⟩
    · exact ih h.2 l hl

theorem clean_strip {ls : List Lexeme} (h : ∀ l ∈ ls, isOpen l = false ∧ ∃ v, LexOk v l) :
    cleanTokens (ls.map tokOf) = (strip ls).map tokOf := by
  rw [cleanTokens_eq]
  unfold strip
  have h1 : (ls.map tokOf).filter keepTok = (ls.filter solid).map tokOf := by
    rw [List.filter_map]
    congr 1
    apply List.filter_congr
    intro l hl
    obtain ⟨ho, v, hv⟩ := h l hl
    exact keepTok_tokOf hv ho
  rw [h1]
  have h2 : ∀ l ∈ ls.filter solid, Solid l := by
    intro l hl
    obtain ⟨hl, hs⟩ := List.mem_filter.1 hl
    exact ⟨(h l hl).1, hs, (h l hl).2⟩
  generalize ls.filter solid = us at h2
  induction us with
  | nil => rfl
  | cons l us ih =>
    rw [List.map_cons, List.dropWhile_cons, List.dropWhile_cons, tokOf_semi (h2 l List.mem_cons_self)]
    split
    · exact ih fun x hx => h2 x (List.mem_cons_of_mem _ hx)
    · rfl

theorem strip_solid {ls : List Lexeme} (h : ∀ l ∈ ls, isOpen l = false ∧ ∃ v, LexOk v l) : ∀ l ∈ strip ls, Solid l := by
  intro l hl
  have := (List.dropWhile_suffix _).subset hl
  obtain ⟨hl, hs⟩ := List.mem_filter.1 this
  exact ⟨(h l hl).1, hs, (h l hl).2⟩

/-! ## Writing -/

theorem display_tokOf {l : Lexeme} (h : Solid l) : (tokOf l).display = text (shorten l) := by
  obtain ⟨ho, hs, v, hl⟩ := h
  cases l with
  | word w => exact (word_shape hl).2.2.2.2.2.2.2.2.2
  | blank c => cases hs
  | punct t => exact (punct_shape t hl).2.2.2.2.2.2.2.2
  | str t => rfl
  | regex b fl => simp [tokOf, Token.display, shorten, text, shortFlags]
  | comment b => cases hs
  | license b => rfl
  | openStr _ => cases ho
  | openTemplate _ => cases ho
  | tooDeep => cases ho
  | openLine _ => cases ho
  | openBlock _ => cases ho
  | openRegex _ => cases ho

theorem wordOperator_integer {w : List Char} (h : isInteger w = true) : wordOperator w = false := by
  cases hx : wordOperator w with
  | false => rfl
  | true =>
    unfold wordOperator at hx
    simp only [Bool.or_eq_true, beq_iff_eq] at hx
    rcases hx with rfl | rfl <;> exact absurd h (by decide)

private theorem isName_shortest {w : List Char} (h : isInteger w = true) : isName (shortest w) = false ∧ isName w = false := by
  unfold isName
  rw [(shortest_ok h).1, h]; simp

theorem gap_shorten (a b : Lexeme) : gap (shorten a) (shorten b) = gap a b := by
  cases b with
  | word w' =>
    by_cases hb : isInteger w' = true
    · have e1 := wordOperator_integer hb
      have e2 := wordOperator_integer (shortest_ok hb).1
      cases a with
      | word w =>
        by_cases ha : isInteger w = true
        · simp [shorten, ha, hb, gap, e1, e2, isName_shortest ha]
        · simp [shorten, ha, hb, gap, e1, e2]
      | _ => simp [shorten, hb, gap, e1, e2]
    · cases a with
      | word w =>
        by_cases ha : isInteger w = true
        · simp [shorten, ha, hb, gap, isName_shortest ha]
        · simp [shorten, ha, hb, gap]
      | _ => simp [shorten, hb, gap]
  | _ => cases a <;> simp only [shorten] <;> first | rfl | (split <;> rfl)

/-- A word. -/
def wordy : Lexeme → Bool
  | .word _ => true
  | _ => false

/-- `in` or `instanceof`. -/
def opWord : Lexeme → Bool
  | .word w => wordOperator w
  | _ => false

theorem required_eq {b : Lexeme} (h : Solid b) : (tokOf b).getRequired = (if wordy b then some ' ' else none) ∧
    (tokOf b).requiresBefore = opWord b := by
  obtain ⟨ho, hs, v, hl⟩ := h
  cases b with
  | word w => exact ⟨(word_shape hl).2.2.2.2.2.1, (word_shape hl).2.2.2.2.2.2.2.1⟩
  | blank c => cases hs
  | punct t => exact ⟨(punct_shape t hl).2.2.2.2.2.2.1, (punct_shape t hl).2.2.2.2.2.2.2.1⟩
  | comment b => cases hs
  | openStr _ => cases ho
  | openTemplate _ => cases ho
  | tooDeep => cases ho
  | openLine _ => cases ho
  | openBlock _ => cases ho
  | openRegex _ => cases ho
  | str _ => exact ⟨rfl, rfl⟩
  | regex _ _ => exact ⟨rfl, rfl⟩
  | license _ => exact ⟨rfl, rfl⟩

private def blankIf (b : Bool) : List Char := if b then [' '] else []

/-- The blank between two neighbours. -/
theorem gap_eq {a b : Lexeme} (ha : Solid a) (hb : Solid b) :
    (spaceAfter (tokOf a) (some (tokOf b))).toList ++ (if spaceBefore (some (tokOf a)) (tokOf b) then [' '] else []) =
      if gap a b then [' '] else [] := by
  obtain ⟨hreq, hbef⟩ := required_eq hb
  obtain ⟨hao, has, va, hal⟩ := ha
  show _ ++ blankIf (spaceBefore (some (tokOf a)) (tokOf b)) = blankIf (gap a b)
  generalize hT : tokOf b = T at hreq hbef
  cases a with
  | word w =>
    obtain ⟨-, -, -, h4, h5, -, h7, -, h9, -⟩ := word_shape hal
    show (spaceAfter (wordToken w) (some T)).toList ++ blankIf (spaceBefore (some (wordToken w)) T) = _
    have hsb : spaceBefore (some (wordToken w)) T = (T.requiresBefore && !isName w) := by
      unfold spaceBefore
      simp only [h4, h5, ← h7]
      cases T.requiresBefore <;> cases (wordToken w).isKeyword <;> cases (wordToken w).isOther <;> rfl
    rw [h9, hsb, hbef]
    simp only [Option.bind_some, hreq]
    have hg : gap (.word w) b = ((wordy b && isName w) || opWord b) := by cases b <;> simp [gap, wordy, opWord]
    have ho : opWord b = true → wordy b = true := by cases b <;> simp [opWord, wordy]
    rw [hg]
    revert ho
    generalize wordy b = x
    generalize opWord b = y
    generalize isName w = z
    revert x y z
    decide
  | punct t =>
    obtain ⟨-, -, h3, h4, h5, h6, -, -, -⟩ := punct_shape t hal
    have hsb : spaceBefore (some (tokOf (.punct t))) T = (T.requiresBefore && !isDelimiter t) := by
      unfold spaceBefore
      simp only [h3, h4, h5, h6]
      cases T.requiresBefore <;> cases isDelimiter t <;> rfl
    have hsa : spaceAfter (tokOf (.punct t)) (some T) = none := by
      unfold spaceAfter
      split
      · rename_i heq; rw [heq] at h5; cases h5
      · rename_i heq; rw [heq] at h6; cases h6
      · rfl
    have hg : gap (.punct t) b = (!isDelimiter t && opWord b) := by cases b <;> simp [gap, opWord]
    rw [hsa, hsb, hbef, hg, Bool.and_comm]
    rfl
  | str t =>
    have hsb : spaceBefore (some (tokOf (.str t))) T = false := by simp [spaceBefore, tokOf, Token.isStr]
    have hg : gap (.str t) b = false := by cases b <;> rfl
    rw [hsb, hg]
    rfl
  | regex bd fl =>
    have hsb : spaceBefore (some (tokOf (.regex bd fl))) T = T.requiresBefore := by
      simp [spaceBefore, tokOf, Token.isKeyword, Token.isOther, Token.isChar, Token.isStr]
    have hg : gap (.regex bd fl) b = opWord b := by cases b <;> simp [gap, opWord]
    rw [hsb, hbef, hg]
    rfl
  | license bd =>
    have hsb : spaceBefore (some (tokOf (.license bd))) T = T.requiresBefore := by
      simp [spaceBefore, tokOf, Token.isKeyword, Token.isOther, Token.isChar, Token.isStr]
    have hg : gap (.license bd) b = opWord b := by cases b <;> simp [gap, opWord]
    rw [hsb, hbef, hg]
    rfl
  | blank c => cases has
  | comment c => cases has
  | openStr _ => cases hao
  | openTemplate _ => cases hao
  | tooDeep => cases hao
  | openLine _ => cases hao
  | openBlock _ => cases hao
  | openRegex _ => cases hao

theorem textOf_cons (a : Lexeme) (ls : List Lexeme) : textOf (a :: ls) = text a ++ textOf ls := rfl

theorem displayFrom_eq : ∀ (ls : List Lexeme) (a : Lexeme) (prev : Option Token), Solid a → (∀ l ∈ ls, Solid l) →
    displayFrom prev ((a :: ls).map tokOf) =
      (if spaceBefore prev (tokOf a) then [' '] else []) ++ textOf (spaced ((a :: ls).map shorten))
  | [], a, prev, ha, _ => by
    have hsa : spaceAfter (tokOf a) none = none := by
      unfold spaceAfter; split <;> rfl
    simp only [List.map_cons, List.map_nil, displayFrom, List.head?_nil, hsa, spaced, textOf_cons, display_tokOf ha]
    simp [textOf]
  | b :: ls, a, prev, ha, h => by
    have hb := h b List.mem_cons_self
    have ih := displayFrom_eq ls b (some (tokOf a)) hb (fun l hl => h l (List.mem_cons_of_mem _ hl))
    have hun : displayFrom prev ((a :: b :: ls).map tokOf) =
        (if spaceBefore prev (tokOf a) then [' '] else []) ++ (tokOf a).display ++
          (spaceAfter (tokOf a) (some (tokOf b))).toList ++ displayFrom (some (tokOf a)) ((b :: ls).map tokOf) := rfl
    rw [hun, ih, display_tokOf ha]
    simp only [List.map_cons, spaced, gap_shorten]
    have hg := gap_eq ha hb
    simp only [List.append_assoc]
    congr 1
    rw [← List.append_assoc (spaceAfter _ _).toList, hg]
    split
    · simp [textOf_cons, text]
    · simp [textOf_cons]

theorem display_eq {ls : List Lexeme} (h : ∀ l ∈ ls, Solid l) :
    display (ls.map tokOf) = textOf (spaced (ls.map shorten)) := by
  cases ls with
  | nil => rfl
  | cons a ls =>
    unfold display
    rw [displayFrom_eq ls a none (h a List.mem_cons_self) fun l hl => h l (List.mem_cons_of_mem _ hl)]
    rfl

theorem closed_lex {s : List Char} (h : Closed s) : ∀ l ∈ lex s, isOpen l = false ∧ ∃ v, LexOk v l := by
  intro l hl
  exact ⟨h l hl, (lexRev_wf s).mem l (List.mem_reverse.1 hl)⟩

theorem tokenize_closed {s : List Char} (h : Closed s) : tokenize s = .ok ((lex s).map tokOf) := by
  have hr : ∀ r, Lexeme.openRegex r ∉ lexRev s := by
    intro r hr
    have := h _ (List.mem_reverse.2 hr)
    cases this
  rw [tokenize_eq s hr, finish_closed fun l hl => h l (List.mem_reverse.2 hl)]
  simp [lex, List.map_reverse]

theorem minify_closed {s : List Char} (h : Closed s) : minify s = .ok (minimal (lex s)) := by
  unfold minify minifyTokens
  rw [tokenize_closed h]
  simp only [Out.bind_ok]
  rw [clean_strip (closed_lex h), display_eq (strip_solid (closed_lex h))]
  rfl

end Verif.Js
