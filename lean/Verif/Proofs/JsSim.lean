import Verif.Proofs.JsLoops
/-!
# The JavaScript tokenizer against the lexical grammar

`tokOf` is the token that stands for a lexeme. The main result, `tokLoop_eq`, says that the tokenizer delivers the tokens
of the lexemes that `Spec.Js.lexFrom` reads.
-/
set_option linter.unusedSimpArgs false

namespace Verif.Js
open Spec.Js

/-! ## Tokens of lexemes -/

def punctTable : List (List Char × Token) :=
  [([','], .char .comma), (['('], .char .openParen), ([')'], .char .closeParen), (['{'], .char .openCurly),
   (['}'], .char .closeCurly), (['['], .char .openBracket), ([']'], .char .closeBracket), ([':'], .char .colon),
   ([';'], .char .semiColon), (['.'], .char .dot), (['!'], .char .exclamationMark), (['?'], .char .questionMark),
   (['\\'], .char .backslash), (['|'], .char .pipe), (['&'], .char .ampersand),
   (['/'], .op .divide), (['%'], .op .modulo), (['*'], .op .multiply), (['-'], .op .subtract), (['+'], .op .addition),
   (['='], .op .equal), (['<'], .cond .inferiorThan), (['>'], .cond .superiorThan),
   (['=', '='], .cond .equalTo), (['=', '=', '='], .cond .superEqualTo), (['!', '='], .cond .differentThan),
   (['!', '=', '='], .cond .superDifferentThan), (['/', '='], .op .divideEqual), (['*', '='], .op .multiplyEqual),
   (['+', '='], .op .additionEqual), (['-', '='], .op .subtractEqual), (['%', '='], .op .moduloEqual),
   (['>', '='], .cond .superiorOrEqualTo), (['<', '='], .cond .inferiorOrEqualTo), (['|', '|'], .cond .or),
   (['&', '&'], .cond .and)]

/-- The punctuation that a script can contain. -/
def puncts : List (List Char) := punctTable.map Prod.fst

def tokOf : Lexeme → Token
  | .word w => wordToken w
  | .blank c => .char ((RChar.ofChar c).getD .space)
  | .punct t => (punctTable.lookup t).getD (.other t)
  | .str t => .str t
  | .regex b fl => .regex b (fl.contains 'g') (fl.contains 'i')
  | .comment b => .comment b
  | .license b => .license b
  | _ => .other []

def addWordTok (v : List Token) (w : List Char) : List Token := if w.isEmpty then v else wordToken w :: v

theorem map_addWord (v : List Lexeme) (w : List Char) : (addWord v w).map tokOf = addWordTok (v.map tokOf) w := by
  unfold addWord addWordTok
  split <;> rfl

/-- What the tokenizer answers for the lexemes of a script (last one first). -/
def finish : List Lexeme → Out (List Token)
  | .openStr r :: v => .ok (addWordTok (v.map tokOf) r)
  | .openTemplate r :: v => .ok (addWordTok (v.map tokOf) r)
  | .tooDeep :: _ => .err "Too nested backtick (`) string"
  | .openLine r :: v =>
    match r with
    | [] => .ok (v.map tokOf)
    | c :: r => if c.utf8Size = 1 then .ok (addWordTok (v.map tokOf) r) else .panic "slice"
  | .openBlock r :: v =>
    if (r.getLast?.getD ' ').utf8Size = 1 then .ok (tokOf (blockLexeme r) :: v.map tokOf) else .panic "slice"
  | v => .ok (v.map tokOf)

theorem finish_closed {v : List Lexeme} (h : ∀ l ∈ v, isOpen l = false) : finish v = .ok (v.map tokOf) := by
  cases v with
  | nil => rfl
  | cons l v =>
    have := h l List.mem_cons_self
    cases l <;> simp [isOpen] at this <;> rfl

/-! ## Characters -/

theorem ofChar_none {c : Char} (h : RChar.ofChar c = none) : isBlank c = false ∧ isPunct c = false ∧ c ≠ '.' := by
  refine ⟨?_, ?_, ?_⟩
  · cases hb : isBlank c with
    | false => rfl
    | true =>
      simp only [isBlank, Bool.or_eq_true, beq_iff_eq] at hb
      rcases hb with ((hb | hb) | hb) | hb <;> subst hb <;> cases h
  · cases hb : isPunct c with
    | false => rfl
    | true =>
      have hb : c ∈ ",(){}[]:;.'\"!?/%*-+=\\<>|&`".toList := by simpa [isPunct] using hb
      have : ∀ c ∈ ",(){}[]:;.'\"!?/%*-+=\\<>|&`".toList, (RChar.ofChar c).isSome = true := by decide +kernel
      have := this c hb
      rw [h] at this; cases this
  · intro hc; subst hc; cases h

theorem ofChar_blank {c : Char} {rc : RChar} (h : RChar.ofChar c = some rc) (hb : isBlank c = true) :
    rc = .space ∨ rc = .tab ∨ rc = .backline := by
  simp only [isBlank, Bool.or_eq_true, beq_iff_eq] at hb
  rcases hb with ((hb | hb) | hb) | hb <;> subst hb <;> cases h <;> simp

theorem ofChar_not_blank {c : Char} {rc : RChar} (h : RChar.ofChar c = some rc) (hb : isBlank c = false) :
    c = rc.toChar ∧ isPunct c = true := by
  rcases ofChar_inv h with h' | ⟨h', _⟩
  · subst h'
    cases rc <;> first | (exact ⟨rfl, by decide⟩) | (revert hb; decide)
  · subst h'; cases hb

theorem isDigit_eq (c : Char) : Js.isDigit c = Spec.Js.isDigit c := by
  have hs : ∀ c ∈ "0123456789".toList, Js.isDigit c = true := by decide +kernel
  cases h : Spec.Js.isDigit c with
  | true => exact hs c (by simpa [Spec.Js.isDigit] using h)
  | false =>
    cases h' : Js.isDigit c with
    | false => rfl
    | true =>
      simp only [Js.isDigit, Bool.and_eq_true, decide_eq_true_eq] at h'
      have : c.toNat = 48 ∨ c.toNat = 49 ∨ c.toNat = 50 ∨ c.toNat = 51 ∨ c.toNat = 52 ∨ c.toNat = 53 ∨ c.toNat = 54 ∨
        c.toNat = 55 ∨ c.toNat = 56 ∨ c.toNat = 57 := by omega
      have key : ∀ n, c.toNat = n → c = Char.ofNat n := by
        intro n hn; rw [← hn]; exact (Char.ofNat_toNat c).symm
      rcases this with h | h | h | h | h | h | h | h | h | h <;>
        (have := key _ h; rename_i h0; rw [this] at h0; revert h0; decide)

theorem digit_eq (c : Char) : c.toNat - 48 = digit c := by
  have h0 : '0'.toNat = 48 := by decide
  unfold digit
  rw [h0]

private theorem step_eq (n : Nat) (c : Char) : n * 10 + (c.toNat - 48) = 10 * n + digit c := by rw [digit_eq, Nat.mul_comm]

private theorem digitsVal_cons (n : Nat) (c : Char) (w) : digitsVal n (c::w) = digitsVal (10*n + digit c) w := by
  rw [← step_eq]; rfl

private def addDigit (n : Nat) (c : Char) := 10 * n + digit c

private theorem digitsVal_foldl (w : List Char) : ∀ (n : Nat), digitsVal n w = w.foldl addDigit n := by
  induction w with
  | nil => intro n; rfl
  | cons c w ih =>
    intro n
    rw [digitsVal_cons]
    exact ih _

theorem digitsVal_eq (w : List Char) : digitsVal 0 w = value w := digitsVal_foldl w 0

theorem parseU64_eq {w : List Char} (h : '+' ∉ w) :
    parseU64 w = if isInteger w then some (value w) else none := by
  have hd : dropPlus w = w := by
    unfold dropPlus
    split
    · simp at h
    · rfl
  have he : (w.all Js.isDigit) = w.all Spec.Js.isDigit := by congr 1; funext c; exact isDigit_eq c
  have hi : isInteger w = (!w.isEmpty && w.all Spec.Js.isDigit && decide (value w < 2 ^ 64)) := rfl
  have hp : parseU64 w = if (dropPlus w).isEmpty || !(dropPlus w).all Js.isDigit then none
    else if digitsVal 0 (dropPlus w) < 2 ^ 64 then some (digitsVal 0 (dropPlus w)) else none := rfl
  rw [hp, hd, he, digitsVal_eq, hi]
  by_cases hlt : value w < 2 ^ 64
  · rw [if_pos hlt, decide_eq_true hlt]
    cases w.isEmpty <;> cases w.all Spec.Js.isDigit <;> rfl
  · rw [if_neg hlt, decide_eq_false hlt]
    cases w.isEmpty <;> cases w.all Spec.Js.isDigit <;> rfl

theorem afterDot_eq (c : Char) : afterDot.contains c = endsNumber c := by
  have gen : ∀ l : List Char, l.contains c = decide (c ∈ l) := fun l => List.contains_eq_mem c l
  exact gen _

/-! ## Words and dots -/

theorem fillOther_eq {source p w cs : List Char} (v : List Token) (hs : source = p ++ (w ++ cs)) :
    fillOther source v (blen p) (blen p + blen w) = .ok (addWordTok v w) := by
  unfold fillOther addWordTok
  cases w with
  | nil => simp
  | cons c w =>
    have : 0 < c.utf8Size := c.utf8Size_pos
    rw [if_pos (by simp; omega), sub_eq hs rfl rfl]
    rfl

/-- A word contains no plus sign. -/
def PlainWord (w : List Char) : Prop := ∀ c ∈ w, isPunct c = false ∨ c = '.'

theorem PlainWord.no_plus {w : List Char} (h : PlainWord w) : '+' ∉ w := by
  intro hm
  rcases h _ hm with h | h
  · revert h; decide
  · revert h; decide

theorem lowByte_digit {x : Char} (h : Spec.Js.isDigit x = true) : lowByteIsDigit x = true := by
  have hs : ∀ c ∈ "0123456789".toList, lowByteIsDigit c = true := by decide +kernel
  exact hs x (by simpa [Spec.Js.isDigit] using h)

theorem digit_endsNumber {x : Char} (h : Spec.Js.isDigit x = true) : endsNumber x = true := by
  have hs : ∀ c ∈ "0123456789".toList, endsNumber c = true := by decide +kernel
  exact hs x (by simpa [Spec.Js.isDigit] using h)

theorem lowByte_ends {x : Char} (h : lowByteIsDigit x = true) (he : endsNumber x = true) : Spec.Js.isDigit x = true := by
  have hs : ∀ c ∈ "0123456789,; \t\n<>/*&|{}[]-+=~%^:!".toList, lowByteIsDigit c = true → Spec.Js.isDigit c = true := by
    decide +kernel
  have hm : x ∈ "0123456789,; \t\n<>/*&|{}[]-+=~%^:!".toList := of_decide_eq_true he
  exact hs x hm h

theorem dotCheck_eq {source p w cs : List Char} {off : Nat} (v : List Token) {it : Peek} (hs : source = p ++ (w ++ '.' :: cs))
    (hw : PlainWord w) (ha : At it off cs) (hsv : it.saved = []) :
    if dotInWord w cs = true then ∃ it', dotCheck source v (blen p) (blen p + blen w) it = .ok (none, it') ∧ At it' off cs
    else ∃ V st it', dotCheck source v (blen p) (blen p + blen w) it = .ok (some (V, st), it') ∧ At it' off cs ∧
      fillOther source V st (blen p + blen w) = .ok (addWordTok v w) := by
  have hfill : fillOther source v (blen p) (blen p + blen w) = .ok (addWordTok v w) := fillOther_eq v hs
  have hnop : ∀ V : List Token, fillOther source V (blen p + blen w) (blen p + blen w) = .ok V := by
    intro V; unfold fillOther; rw [if_neg (by omega)]
  unfold dotCheck checkIfNumber
  rw [sub_eq (p := p) (m := w) (t := '.' :: cs) hs rfl rfl]
  simp only [Out.bind_ok]
  by_cases hd : w.contains '.' = true
  · rw [if_pos hd, if_neg (by simp only [dotInWord, hd]; simp)]
    simp only [Out.bind_ok]
    exact ⟨_, _, _, rfl, ha, hfill⟩
  · have hd' : w.contains '.' = false := by simpa using hd
    rw [if_neg hd, parseU64_eq hw.no_plus]
    cases hi : isInteger w with
    | true =>
      rw [if_pos rfl, if_pos (show (some (value w)).isSome = true from rfl)]
      simp only [Out.bind_ok]
      rw [if_pos trivial]
      cases cs with
      | nil =>
        rw [if_pos (by simp only [dotInWord, hd', hi]; simp), ha.peek_nil]
        exact ⟨_, rfl, ha⟩
      | cons x cs =>
        obtain ⟨it', hp, ha', -⟩ := ha.peek_cons hsv
        rw [hp]
        have hdw : dotInWord w (x :: cs) = endsNumber x := by
          simp only [dotInWord, hd', hi, Bool.not_false, Bool.true_and]
          cases h : Spec.Js.isDigit x with
          | true => rw [digit_endsNumber h]; rfl
          | false => rfl
        simp only [afterDot_eq]
        rw [hdw]
        cases he : endsNumber x with
        | true => exact ⟨_, rfl, ha'⟩
        | false =>
          rw [if_neg (by simp), if_pos (by simp), hfill]
          exact ⟨_, _, _, rfl, ha', hnop _⟩
    | false =>
      rw [if_neg (show ¬ false = true by simp), if_neg (show ¬ (none : Option Nat).isSome = true by simp)]
      cases cs with
      | nil =>
        rw [if_neg (by simp only [dotInWord, hd', hi]; simp), ha.peek_nil]
        exact ⟨_, _, _, rfl, ha, hfill⟩
      | cons x cs =>
        obtain ⟨it', hp, ha', hs', hpk, -⟩ := ha.peek_cons hsv
        rw [hp]
        have hdw : dotInWord w (x :: cs) = Spec.Js.isDigit x := by
          simp only [dotInWord, hd', hi, Bool.not_false, Bool.true_and, Bool.false_and, Bool.or_false]
        simp only [Out.bind_ok]
        rw [hdw]
        cases hl : lowByteIsDigit x with
        | false =>
          rw [if_neg (show ¬ false = true by simp), if_neg (fun h => by rw [lowByte_digit h] at hl; cases hl)]
          exact ⟨_, _, _, rfl, ha', hfill⟩
        | true =>
          rw [if_pos (show true = true from rfl)]
          obtain ⟨it2, hp2, ha2, -⟩ := ha'.peek_cons hs'
          rw [hp2]
          simp only [afterDot_eq]
          cases he : endsNumber x with
          | true =>
            rw [if_pos (lowByte_ends hl he)]
            exact ⟨_, rfl, ha2⟩
          | false =>
            rw [if_neg (fun h => by rw [digit_endsNumber h] at he; cases he), if_pos (by simp), hfill]
            exact ⟨_, _, _, rfl, ha2, hnop _⟩

/-! ## Punctuation -/

/-- The token that replaces `t` when `rc` follows it. -/
def joinTok (t : Token) (rc : RChar) : Option Token :=
  match rc with
  | .equalSign => (handleEqualSign [t] .equalSign).map fun v => v.head?.getD t
  | .pipe => if t.eqChar .pipe then some (.cond .or) else none
  | .ampersand => if t.eqChar .ampersand then some (.cond .and) else none
  | _ => none

def joined (v : List Token) (rc : RChar) : List Token :=
  match v with
  | [] => [charToken rc]
  | t :: v =>
    match joinTok t rc with
    | some u => u :: v
    | none => charToken rc :: t :: v

theorem joined_none {rc : RChar} (h : ∀ t, joinTok t rc = none) (v : List Token) : joined v rc = charToken rc :: v := by
  unfold joined
  cases v <;> simp [h]

theorem defaultArm_eq (v : List Token) (rc : RChar) (h : rc ≠ .pipe ∧ rc ≠ .ampersand) : defaultArm v rc = joined v rc := by
  unfold defaultArm joined
  by_cases he : rc = .equalSign
  · subst he
    cases v with
    | nil => rfl
    | cons t v =>
      simp only [joinTok, handleEqualSign, List.head?_cons, List.tail_cons]
      cases t with
      | char c => cases c <;> rfl
      | op o => cases o <;> rfl
      | cond o => cases o <;> rfl
      | _ => rfl
  · have h1 : handleEqualSign v rc = none := by
      unfold handleEqualSign
      rw [if_pos (by cases rc <;> simp_all)]
    rw [h1]
    cases v with
    | nil => rfl
    | cons t v =>
      have : joinTok t rc = none := by
        unfold joinTok
        cases rc <;> simp_all
      simp [this]

/-- A character that is added as punctuation. -/
def plainRC (rc : RChar) : Bool :=
  rc != .quote && rc != .doubleQuote && rc != .backTick && rc != .slash

theorem reserved_plain (source : List Char) (v : List Token) (it : Peek) (pos : Nat) {rc : RChar} (h : plainRC rc = true)
    (hd : rc = .star → (lastToken v).eqOp .divide = false) : reserved source v it pos rc = .ok (joined v rc, it, pos) := by
  cases rc with
  | pipe =>
    unfold reserved joined
    cases v with
    | nil => rfl
    | cons t v =>
      simp only [lastToken, List.head?_cons, Option.getD_some, joinTok, List.tail_cons]
      by_cases ht : t.eqChar .pipe = true
      · simp [ht]
      · simp [ht, defaultArm, handleEqualSign]
  | ampersand =>
    unfold reserved joined
    cases v with
    | nil => rfl
    | cons t v =>
      simp only [lastToken, List.head?_cons, Option.getD_some, joinTok, List.tail_cons]
      by_cases ht : t.eqChar .ampersand = true
      · simp [ht]
      · simp [ht, defaultArm, handleEqualSign]
  | star =>
    unfold reserved
    simp only [hd rfl]
    rw [if_neg (by simp), defaultArm_eq _ _ (by simp)]
  | quote => cases h
  | doubleQuote => cases h
  | backTick => cases h
  | slash => cases h
  | _ => unfold reserved; simp only; rw [defaultArm_eq _ _ (by simp)]

theorem joinTok_punct {t : List Char} (ht : t ∈ puncts) (rc : RChar) (hp : plainRC rc = true) (hb : rc.isWhite = false) :
    joinTok (tokOf (.punct t)) rc =
      if compounds.contains (t ++ [rc.toChar]) then some (tokOf (.punct (t ++ [rc.toChar]))) else none := by
  have all : ∀ t ∈ puncts, ∀ rc ∈ [RChar.comma, .openParen, .closeParen, .openCurly, .closeCurly, .openBracket,
      .closeBracket, .colon, .semiColon, .dot, .exclamationMark, .questionMark, .modulo, .star, .minus, .plus, .equalSign,
      .backslash, .lessThan, .superiorThan, .pipe, .ampersand],
      joinTok (tokOf (.punct t)) rc =
        if compounds.contains (t ++ [rc.toChar]) then some (tokOf (.punct (t ++ [rc.toChar]))) else none := by
    decide +kernel
  refine all t ht rc ?_
  cases rc <;> first | (cases hp; done) | (cases hb; done) | simp

theorem wordToken_shape (w : List Char) : (∃ k, wordToken w = .keyword k) ∨ (∃ n, wordToken w = .number n) ∨
    wordToken w = .float w ∨ wordToken w = .other w := by
  unfold wordToken
  split
  · exact .inl ⟨_, rfl⟩
  · split
    · exact .inr (.inl ⟨_, rfl⟩)
    · split
      · exact .inr (.inr (.inl rfl))
      · exact .inr (.inr (.inr rfl))

theorem joinTok_other {l : Lexeme} (h : ∀ t, l ≠ .punct t) (hb : ∀ c, l = .blank c → isBlank c = true) (rc : RChar) :
    joinTok (tokOf l) rc = none ∧ (tokOf l).eqOp .divide = false := by
  cases l with
  | punct t => exact absurd rfl (h t)
  | word w =>
    simp only [tokOf]
    rcases wordToken_shape w with ⟨k, h⟩ | ⟨k, h⟩ | h | h <;> rw [h] <;> cases rc <;> exact ⟨rfl, rfl⟩
  | blank c =>
    have := hb c rfl
    simp only [isBlank, Bool.or_eq_true, beq_iff_eq] at this
    rcases this with ((h | h) | h) | h <;> subst h <;> cases rc <;> exact ⟨rfl, rfl⟩
  | _ => cases rc <;> exact ⟨rfl, rfl⟩

/-- The lexemes read so far, last one first, are well formed. -/
def WellRead (v : List Lexeme) : Prop :=
  ∀ l ∈ v, isOpen l = false ∧ (∀ t, l = .punct t → t ∈ puncts) ∧ (∀ c, l = .blank c → isBlank c = true)

theorem single_punct : ∀ rc ∈ [RChar.comma, .openParen, .closeParen, .openCurly, .closeCurly, .openBracket,
      .closeBracket, .colon, .semiColon, .dot, .exclamationMark, .questionMark, .slash, .modulo, .star, .minus, .plus, .equalSign,
      .backslash, .lessThan, .superiorThan, .pipe, .ampersand], charToken rc = tokOf (.punct [rc.toChar]) ∧ [rc.toChar] ∈ puncts := by
  decide +kernel

theorem map_addPunct {v : List Lexeme} (hv : WellRead v) (rc : RChar) (hp : plainRC rc = true) (hb : rc.isWhite = false) :
    (addPunct v rc.toChar).map tokOf = joined (v.map tokOf) rc := by
  have hsingle : charToken rc = tokOf (.punct [rc.toChar]) := by
    refine (single_punct rc ?_).1
    cases rc <;> first | (cases hp; done) | (cases hb; done) | simp
  cases v with
  | nil => simp [addPunct, joined, hsingle]
  | cons l v =>
    have hl := hv l List.mem_cons_self
    by_cases hl' : ∃ t, l = .punct t
    · obtain ⟨t, rfl⟩ := hl'
      simp only [addPunct, List.map_cons, joined]
      rw [joinTok_punct (hl.2.1 t rfl) rc hp hb]
      by_cases hc : compounds.contains (t ++ [rc.toChar]) = true
      · rw [if_pos hc, if_pos hc]; rfl
      · rw [if_neg hc, if_neg hc, hsingle]; rfl
    · have hl' : ∀ t, l ≠ .punct t := fun t ht => hl' ⟨t, ht⟩
      have : addPunct (l :: v) rc.toChar = .punct [rc.toChar] :: l :: v := by
        unfold addPunct
        split
        · rename_i h; simp at h; exact absurd h.1 (hl' _)
        · rfl
      rw [this]
      simp only [List.map_cons, joined]
      rw [(joinTok_other hl' hl.2.2 rc).1, hsingle]

theorem WellRead.cons {v : List Lexeme} {l : Lexeme} (hv : WellRead v)
    (hl : isOpen l = false ∧ (∀ t, l = .punct t → t ∈ puncts) ∧ (∀ c, l = .blank c → isBlank c = true)) :
    WellRead (l :: v) := by
  intro x hx
  simp only [List.mem_cons] at hx
  rcases hx with hx | hx
  · rw [hx]; exact hl
  · exact hv x hx

theorem WellRead.addWord {v : List Lexeme} (hv : WellRead v) (w : List Char) : WellRead (addWord v w) := by
  unfold Spec.Js.addWord
  split
  · exact hv
  · exact hv.cons ⟨rfl, by simp, by simp⟩

theorem WellRead.addPunct {v : List Lexeme} (hv : WellRead v) {c : Char} (hc : [c] ∈ puncts) : WellRead (addPunct v c) := by
  have single : WellRead (.punct [c] :: v) := hv.cons ⟨rfl, by simpa using hc, by simp⟩
  unfold Spec.Js.addPunct
  split
  · rename_i t v'
    split
    · rename_i hcomp
      refine WellRead.cons (fun x hx => hv x (List.mem_cons_of_mem _ hx)) ⟨rfl, ?_, by simp⟩
      intro t' ht'
      cases ht'
      have : ∀ t ∈ compounds, t ∈ puncts := by decide +kernel
      exact this _ (by simpa using hcomp)
    · exact single
  · exact single

/-! ## Comments -/

theorem getLineComment_eq {source p cs : List Char} {it : Peek} {pos : Nat} (hs : source = p ++ cs) (hp : pos + 1 = blen p)
    (ha : At it (blen p) cs) :
    match closeLine cs with
    | some (b, r) => ∃ it', getLineComment source it pos = .ok (some (.comment b), it', blen p + blen b) ∧
        At it' (blen p + blen b + 1) r ∧ ∃ nl, cs = b ++ nl :: r ∧ isNewline nl = true
    | none => ∃ it', getLineComment source it pos = .ok (none, it', blen p) ∧ At it' (blen source) [] := by
  have := lineLoop_eq source cs p [] (it.weight + 1) it (by simpa using hs) (by simpa using ha) (Nat.lt_succ_self _)
  unfold getLineComment
  rw [hp]
  cases h : closeLine cs with
  | none =>
    rw [h] at this
    obtain ⟨it', h1, h2⟩ := this
    exact ⟨it', by rw [h1]; rfl, h2⟩
  | some br =>
    rw [h] at this
    obtain ⟨it', h1, h2, h3⟩ := this
    exact ⟨it', by rw [h1]; simp, by simpa using h2, h3⟩

theorem lastOff_eq (c : Char) (cs : List Char) (cur off : Nat) :
    lastOff cur off (c :: cs) + ((c :: cs).getLast?.getD ' ').utf8Size = off + blen (c :: cs) := by
  induction cs generalizing c cur off with
  | nil => simp [lastOff]
  | cons d cs ih =>
    have := ih d off (off + c.utf8Size)
    simp only [List.getLast?_cons_cons, lastOff, blen_cons] at this ⊢
    omega

theorem cutAt_mid {p t : List Char} {c : Char} {a : Nat} (h1 : blen p < a) (h2 : a < blen p + c.utf8Size) :
    cutAt (p ++ c :: t) a = none := by
  induction p generalizing a with
  | nil =>
    simp only [blen_nil] at h1 h2
    cases a with
    | zero => omega
    | succ a => simp only [List.nil_append, cutAt]; rw [if_neg (by omega)]
  | cons d p ih =>
    simp only [blen_cons] at h1 h2
    cases a with
    | zero => omega
    | succ a =>
      simp only [List.cons_append, cutAt]
      rw [if_pos (by omega), ih (by omega) (by omega)]
      rfl

theorem sub_panic {source p m t : List Char} {c : Char} {a b : Nat} (hs : source = p ++ (m ++ c :: t)) (ha : a = blen p)
    (h1 : blen p + blen m < b) (h2 : b < blen p + blen m + c.utf8Size) : sub source a b = .panic "slice" := by
  unfold sub slice
  rw [if_pos (by omega), hs, ha, cutAt_append]
  simp only
  rw [cutAt_mid (by omega) (by omega)]
  rfl

theorem sub_panic_start {source p t : List Char} {c : Char} {a b : Nat} (hs : source = p ++ c :: t)
    (h1 : blen p < a) (h2 : a < blen p + c.utf8Size) : sub source a b = .panic "slice" := by
  unfold sub slice
  split
  · rw [hs, cutAt_mid h1 h2]; rfl
  · rfl

/-- The end of `get_comment`, after the search for the end of the comment. -/
private def commentEnd (source : List Char) (license : Bool) (startPos : Nat) (cur : Nat) (it : Peek) :
    Out (Token × Peek × Nat) :=
  if blen source < 1 then .panic "attempt to subtract with overflow"
  else do
    let s ← sub source startPos (min cur (blen source - 1) + 1)
    .ok (if license then .license s else .comment s, it, min cur (blen source - 1) + 2)

private theorem commentEnd_closed {source p b r : List Char} (lic : Bool) (it : Peek) {cur : Nat}
    (hs : source = p ++ (b ++ '*' :: '/' :: r)) (hc : cur + 1 = blen p + blen b) :
    commentEnd source lic (blen p) cur it =
      .ok (if lic then .license b else .comment b, it, blen p + blen b + 1) := by
  have e1 : ('*' : Char).utf8Size = 1 := rfl
  have e2 : ('/' : Char).utf8Size = 1 := rfl
  have hl : blen source = blen p + blen b + 2 + blen r := by rw [hs]; simp [e1, e2]; omega
  unfold commentEnd
  rw [if_neg (by omega)]
  simp only [Nat.min_eq_left (show cur ≤ blen source - 1 by omega)]
  rw [sub_eq hs rfl hc]
  simp only [Out.bind_ok]
  rw [show cur + 2 = blen p + blen b + 1 by omega]

private theorem commentEnd_open {source p cs : List Char} (lic : Bool) (it : Peek) (cur : Nat) (hp : 1 ≤ blen p)
    (hs : source = p ++ cs) (hcur : cs = [] → blen p ≤ cur + 1) :
    (if (cs.getLast?.getD ' ').utf8Size = 1 then
      ∃ q, commentEnd source lic (blen p) (lastOff cur (blen p) cs) it =
        .ok (if lic then .license cs else .comment cs, it, q) ∧ blen source ≤ q + 1
    else commentEnd source lic (blen p) (lastOff cur (blen p) cs) it = .panic "slice") := by
  have hl : blen source = blen p + blen cs := by rw [hs]; simp
  unfold commentEnd
  rw [if_neg (show ¬ blen source < 1 by omega)]
  cases cs with
  | nil =>
    simp only [blen_nil, Nat.add_zero] at hl
    have := hcur rfl
    rw [if_pos (by rfl)]
    simp only [lastOff]
    rw [Nat.min_eq_right (by omega), sub_eq (p := p) (m := []) (t := []) (by simpa using hs) rfl (by simp; omega)]
    exact ⟨_, rfl, by omega⟩
  | cons c cs =>
    have hlast := lastOff_eq c cs cur (blen p)
    obtain ⟨m, d, hm⟩ : ∃ m d, c :: cs = m ++ [d] :=
      ⟨(c :: cs).dropLast, (c :: cs).getLast (by simp), (List.dropLast_concat_getLast (by simp)).symm⟩
    have hd : ((c :: cs).getLast?.getD ' ') = d := by rw [hm]; simp
    have hpos : 0 < d.utf8Size := d.utf8Size_pos
    rw [hd] at hlast ⊢
    have hb : blen (c :: cs) = blen m + d.utf8Size := by rw [hm]; simp
    rw [Nat.min_eq_left (by omega)]
    by_cases h1 : d.utf8Size = 1
    · rw [if_pos h1, sub_eq (p := p) (m := c :: cs) (t := []) (by simpa using hs) rfl (by omega)]
      exact ⟨_, rfl, by omega⟩
    · rw [if_neg h1, sub_panic (p := p) (m := m) (t := []) (c := d) (by rw [hs, hm]) rfl (by omega) (by omega)]
      rfl

theorem closeBlock_bang (cs : List Char) : closeBlock ('!' :: cs) = (closeBlock cs).map fun p => ('!' :: p.1, p.2) := by
  rw [closeBlock]
  intro r h; exact absurd h (by decide)

theorem getComment_eq {source p cs : List Char} {it : Peek} {pos : Nat} (hs : source = p ++ cs) (hp : pos + 1 = blen p)
    (hp2 : 2 ≤ blen p) (ha : At it (blen p) cs) :
    match closeBlock cs with
    | some (b, r) => ∃ it', getComment source it pos = .ok (tokOf (blockLexeme b), it', blen p + blen b + 1) ∧
        At it' (blen p + blen b + 2) r ∧ cs = b ++ '*' :: '/' :: r
    | none =>
      if (cs.getLast?.getD ' ').utf8Size = 1 then
        ∃ it' q, getComment source it pos = .ok (tokOf (blockLexeme cs), it', q) ∧ At it' (blen source) [] ∧
          blen source ≤ q + 1
      else getComment source it pos = .panic "slice" := by
  have bang1 : ('!' : Char).utf8Size = 1 := rfl
  unfold getComment
  rw [hp]
  cases cs with
  | nil =>
    rw [ha.next_nil]
    simp only [closeBlock]
    rw [if_pos (by rfl)]
    have hcl := commentLoop_eq [] (blen p) (it.weight + 1) .quote (blen p) it hp2 ha (Nat.lt_succ_self _)
    rw [if_neg (by simp)] at hcl
    simp only [closeBlock, lastOff] at hcl
    obtain ⟨it', h1, h2⟩ := hcl
    rw [h1]
    have := commentEnd_open false it' (blen p) (by omega) hs (by omega)
    rw [if_pos (by rfl)] at this
    obtain ⟨q, h3, h4⟩ := this
    exact ⟨it', q, h3, by rw [hs]; simpa using h2, h4⟩
  | cons c cs =>
    obtain ⟨it1, hn, ha1, hw1, -⟩ := ha.next_cons
    rw [hn]
    simp only
    by_cases hb : c = '!'
    · subst hb
      rw [if_pos (by rfl), closeBlock_bang]
      simp only
      have hcl := commentLoop_eq cs (blen p + 1) (it1.weight + 1) .quote (blen p + 1) it1 (by omega) ha1 (Nat.lt_succ_self _)
      rw [if_neg (by simp)] at hcl
      have hs' : source = (p ++ ['!']) ++ cs := by simpa using hs
      have hp' : blen (p ++ ['!']) = blen p + 1 := by simp [bang1]
      cases hcb : closeBlock cs with
      | some br =>
        rw [hcb] at hcl
        obtain ⟨it', h1, h2, h3⟩ := hcl
        rw [h1]
        have := commentEnd_closed (source := source) (p := p ++ ['!']) (b := br.1) (r := br.2) true it'
          (cur := blen p + 1 + blen br.1 - 1) (by rw [← h3]; exact hs') (by omega)
        rw [hp'] at this
        refine ⟨it', this.trans ?_, ?_, by rw [h3]; rfl⟩
        · simp [blockLexeme, tokOf, bang1]; omega
        · rw [show blen p + blen ('!' :: br.1) + 2 = blen p + 1 + blen br.1 + 2 by simp [bang1]; omega]
          exact h2
      | none =>
        rw [hcb] at hcl
        obtain ⟨it', h1, h2⟩ := hcl
        rw [h1]
        have := commentEnd_open (p := p ++ ['!']) true it' (blen p + 1) (by omega) hs' (by omega)
        rw [hp'] at this
        have hlast : (('!' :: cs).getLast?.getD ' ').utf8Size = (cs.getLast?.getD ' ').utf8Size := by
          cases cs <;> simp [List.getLast?_cons_cons] <;> rfl
        simp only [Option.map_none]
        rw [hlast]
        by_cases hsz : (cs.getLast?.getD ' ').utf8Size = 1
        · rw [if_pos hsz] at this ⊢
          obtain ⟨q, h3, h4⟩ := this
          refine ⟨it', q, h3, ?_, h4⟩
          rw [hs]; simpa [bang1, Nat.add_assoc] using h2
        · rw [if_neg hsz] at this ⊢
          exact this
    · have hb' : ¬ ((c == '!') = true) := by simpa using hb
      have hbl : ∀ b, blockLexeme (c :: b) = .comment (c :: b) := by
        intro b; unfold blockLexeme; split
        · rename_i h; simp at h; exact absurd h.1 hb
        · rfl
      rw [if_neg hb']
      simp only
      have hcl := commentLoop_eq cs (blen p + c.utf8Size) (it1.weight + 1) ((RChar.ofChar c).getD .quote) (blen p) it1
        (by omega) ha1 (Nat.lt_succ_self _)
      by_cases hst : c = '*' ∧ cs.head? = some '/'
      · obtain ⟨rfl, h2⟩ := hst
        cases cs with
        | nil => simp at h2
        | cons d cs =>
          simp only [List.head?_cons, Option.some.injEq] at h2
          subst h2
          have e : (RChar.ofChar '*').getD .quote = .star := rfl
          have e1 : ('*' : Char).utf8Size = 1 := rfl
          rw [e] at hcl ⊢
          rw [if_pos (by simp)] at hcl
          obtain ⟨it', h1, h2⟩ := hcl
          rw [h1, e1] at *
          simp only [closeBlock]
          have := commentEnd_closed (source := source) (p := p) (b := []) (r := cs) false it'
            (cur := blen p + 1 - 2) (by simpa using hs) (by simp; omega)
          refine ⟨it', this, ?_, rfl⟩
          simpa using h2
      · have hcb : closeBlock (c :: cs) = (closeBlock cs).map fun p => (c :: p.1, p.2) := by
          rw [closeBlock]
          intro r h1 h2
          exact hst ⟨h1, by simp [h2]⟩
        have hneg : ¬ ((RChar.ofChar c).getD .quote = .star ∧ cs.head? = some '/') := by
          rintro ⟨h1, h2⟩
          cases h : RChar.ofChar c with
          | none => rw [h] at h1; simp at h1
          | some rc =>
            rw [h] at h1
            simp only [Option.getD_some] at h1
            subst h1
            have h3 : (RChar.ofChar c == some .star) = true := by rw [h]; rfl
            exact hst ⟨(ofChar_eq_iff (by decide)).1 h3, h2⟩
        rw [if_neg hneg] at hcl
        rw [hcb]
        cases hcb : closeBlock cs with
        | some br =>
          rw [hcb] at hcl
          obtain ⟨it', h1, h2, h3⟩ := hcl
          have hpos : 0 < c.utf8Size := c.utf8Size_pos
          rw [h1]
          have := commentEnd_closed (source := source) (p := p) (b := c :: br.1) (r := br.2) false it'
            (cur := blen p + c.utf8Size + blen br.1 - 1) (by rw [hs, h3]; rfl) (by simp; omega)
          simp only [Option.map_some]
          rw [hbl]
          refine ⟨it', this, ?_, by rw [h3]; rfl⟩
          simpa [Nat.add_assoc] using h2
        | none =>
          rw [hcb] at hcl
          obtain ⟨it', h1, h2⟩ := hcl
          rw [h1]
          have := commentEnd_open (p := p) (cs := c :: cs) false it' (blen p) (by omega) hs (by simp)
          simp only [Option.map_none]
          rw [hbl]
          by_cases hsz : ((c :: cs).getLast?.getD ' ').utf8Size = 1
          · rw [if_pos hsz] at this ⊢
            obtain ⟨q, h3, h4⟩ := this
            refine ⟨it', q, h3, ?_, h4⟩
            rw [hs]; simpa [Nat.add_assoc] using h2
          · rw [if_neg hsz] at this ⊢
            exact this

/-! ## The main loop -/

theorem tokLoop_next {source p w cs : List Char} {c : Char} {rc : RChar} {it : Peek} {fuel : Nat} (V : List Token)
    (hs : source = p ++ (w ++ c :: cs)) (ha : At it (blen p + blen w) (c :: cs)) (hrc : RChar.ofChar c = some rc)
    (hw : PlainWord w) (hf : it.weight < fuel + 1) :
    if c = '.' ∧ dotInWord w cs = true then
      ∃ it2, tokLoop source (fuel + 1) V (blen p) it = tokLoop source fuel V (blen p) it2 ∧
        At it2 (blen p + blen w + 1) cs ∧ it2.weight < fuel
    else
      ∃ it2, tokLoop source (fuel + 1) V (blen p) it = (do
          let (v, it, pos) ← reserved source (addWordTok V w) it2 (blen p + blen w) rc
          tokLoop source fuel v (pos + 1) it) ∧
        At it2 (blen p + blen w + 1) cs ∧ it2.weight < fuel ∧ (c = '/' → it2.saved = []) := by
  obtain ⟨it1, hn, ha1, hw1, hsv⟩ := ha.next_cons
  rw [ofChar_size hrc] at ha1
  have hun : tokLoop source (fuel + 1) V (blen p) it = (do
      let (r, it) ← dotStep source V (blen p) (blen p + blen w) it1 rc
      match r with
      | none => tokLoop source fuel V (blen p) it
      | some (v, start) => do
        let v ← fillOther source v start (blen p + blen w)
        let (v, it, pos) ← reserved source v it (blen p + blen w) rc
        tokLoop source fuel v (pos + 1) it) := by
    rw [tokLoop, hn]; simp only [hrc]; rfl
  rw [hun]
  by_cases hd : c = '.'
  · subst hd
    cases hrc
    have hdc := dotCheck_eq V hs hw ha1 (hsv (.inl rfl))
    have hgood := (dotCheck_good source V (blen p) (blen p + blen w) it1).2
    have hstep : dotStep source V (blen p) (blen p + blen w) it1 .dot = dotCheck source V (blen p) (blen p + blen w) it1 := rfl
    rw [hstep]
    by_cases hdw : dotInWord w cs = true
    · rw [if_pos hdw] at hdc
      rw [if_pos ⟨rfl, hdw⟩]
      obtain ⟨it2, h1, h2⟩ := hdc
      have := hgood _ h1
      simp only [w2] at this
      rw [h1]
      exact ⟨it2, rfl, h2, by omega⟩
    · rw [if_neg hdw] at hdc
      rw [if_neg (fun h => hdw h.2)]
      obtain ⟨V', st, it2, h1, h2, h3⟩ := hdc
      have := hgood _ h1
      simp only [w2] at this
      rw [h1]
      simp only [Out.bind_ok]
      rw [h3]
      exact ⟨it2, rfl, h2, by omega, by intro h; exact absurd h (by decide)⟩
  · rw [if_neg (fun h => hd h.1)]
    have hstep : dotStep source V (blen p) (blen p + blen w) it1 rc = .ok (some (V, blen p), it1) := by
      unfold dotStep
      rw [if_neg]
      intro h
      have := eq_of_beq h
      subst this
      have h3 : (RChar.ofChar c == some .dot) = true := by rw [hrc]; rfl
      exact hd ((ofChar_eq_iff (by decide)).1 h3)
    rw [hstep]
    simp only [Out.bind_ok]
    rw [fillOther_eq V hs]
    exact ⟨it1, rfl, ha1, by omega, fun h => hsv (.inr (.inl h))⟩

theorem regexAllowed_eq {v : List Lexeme} (hv : WellRead v) : regexAllowed (v.map tokOf) = regexPossible v := by
  induction v with
  | nil => rfl
  | cons l v ih =>
    have ih := ih (fun x hx => hv x (List.mem_cons_of_mem _ hx))
    have hl := hv l List.mem_cons_self
    simp only [List.map_cons]
    cases l with
    | word w =>
      simp only [tokOf, regexPossible]
      rcases wordToken_shape w with ⟨k, h⟩ | ⟨k, h⟩ | h | h <;> rw [h] <;> rfl
    | blank c =>
      have := hl.2.2 c rfl
      simp only [isBlank, Bool.or_eq_true, beq_iff_eq] at this
      simp only [regexPossible, ← ih]
      rcases this with ((h | h) | h) | h <;> subst h <;> rfl
    | punct t =>
      have ht := hl.2.1 t rfl
      simp only [regexPossible]
      have all : ∀ t ∈ puncts, (tokOf (.punct t)).isWhite = false ∧ (tokOf (.punct t)).isComment = false ∧
          (tokOf (.punct t)).isLicense = false ∧ regexAllowed [tokOf (.punct t)] = beforeOperand.contains t := by
        decide +kernel
      obtain ⟨h1, h2, h3, h4⟩ := all t ht
      rw [← h4]
      unfold regexAllowed
      rw [h1, h2, h3]
      rfl
    | comment b => simp only [regexPossible, ← ih]; rfl
    | license b => simp only [regexPossible, ← ih]; rfl
    | _ => rfl

theorem firstUseful_other {v : List Token} (h : ((firstUseful v).getD (.str [])).isOther = true) : regexAllowed v = false := by
  induction v with
  | nil => cases h
  | cons t v ih =>
    unfold firstUseful at h
    unfold regexAllowed
    cases hw : t.isWhite with
    | true => rw [hw, if_pos rfl] at h; simp only [Bool.true_or, if_true]; exact ih h
    | false =>
      rw [hw, if_neg (by simp)] at h
      cases t <;> first | (cases h; done) | rfl

theorem addPunct_slash (v : List Lexeme) : addPunct v '/' = .punct ['/'] :: v := by
  unfold addPunct
  split
  · rename_i t v'
    rw [if_neg]
    intro h
    have all : ∀ x ∈ compounds, x.getLast? ≠ some '/' := by decide +kernel
    exact all _ (by simpa using h) (by simp)
  · rfl

/-- A division sign that has been read is not followed by what would make it the beginning of a comment. -/
def Quiet (v : List Lexeme) (w cs : List Char) : Prop :=
  ∀ v', v = .punct ['/'] :: v' → w = [] → cs.head? ≠ some '/' ∧ cs.head? ≠ some '*'

theorem divide_head {v : List Lexeme} {w : List Char} {c : Char} {cs : List Char} (hv : WellRead v) (hq : Quiet v w (c :: cs))
    (hc : c = '/' ∨ c = '*') : (lastToken ((addWord v w).map tokOf)).eqOp .divide = false := by
  by_cases hw : w = []
  · subst hw
    simp only [addWord, List.isEmpty_nil, if_true]
    cases v with
    | nil => rfl
    | cons l v =>
      have hl := hv l List.mem_cons_self
      simp only [List.map_cons, lastToken, List.head?_cons, Option.getD_some]
      by_cases hp : ∃ t, l = .punct t
      · obtain ⟨t, rfl⟩ := hp
        have all : ∀ t ∈ puncts, t ≠ ['/'] → (tokOf (.punct t)).eqOp .divide = false := by decide +kernel
        refine all t (hl.2.1 t rfl) ?_
        intro ht
        have := hq v (by rw [ht]) rfl
        rcases hc with hc | hc <;> subst hc <;> simp at this
      · exact (joinTok_other (fun t ht => hp ⟨t, ht⟩) hl.2.2 .dot).2
  · have : addWord v w = .word w :: v := by simp [addWord, hw]
    rw [this]
    simp only [List.map_cons, lastToken, List.head?_cons, Option.getD_some]
    exact (joinTok_other (by simp) (by simp) .dot).2

theorem quiet_addPunct {v : List Lexeme} {c : Char} (cs : List Char) (hc : c ≠ '/') : Quiet (addPunct v c) [] cs := by
  intro v' hv' _
  exfalso
  unfold addPunct at hv'
  split at hv'
  · rename_i t v2
    split at hv'
    · simp only [List.cons.injEq, Lexeme.punct.injEq] at hv'
      have h1 := congrArg List.getLast? hv'.1
      simp at h1; exact hc h1
    · simp at hv'; exact hc hv'.1
  · simp at hv'; exact hc hv'.1

theorem tokLoop_end {source : List Char} {fuel start off : Nat} {V : List Token} {it : Peek} (ha : At it off [])
    (hf : it.weight < fuel) : tokLoop source fuel V start it = fillOther source V start (blen source) := by
  cases fuel with
  | zero => omega
  | succ fuel => unfold tokLoop; rw [ha.next_nil]

theorem tokLoop_end_noop {source : List Char} {fuel start off : Nat} {V : List Token} {it : Peek} (ha : At it off [])
    (hf : it.weight < fuel) (h : blen source ≤ start) : tokLoop source fuel V start it = .ok V := by
  rw [tokLoop_end ha hf]; unfold fillOther; rw [if_neg (by omega)]

theorem getBacktick_eq {source p cs : List Char} {it : Peek} (hs : source = p ++ '`' :: cs) (ha : At it (blen p + 1) cs) :
    match closeTemplate 1000 (.text []) cs with
    | .closed t r => ∃ it', getBacktick source it (blen p) = .ok (some (.str ('`' :: t)), it', blen p + 1 + blen t - 1) ∧
        At it' (blen p + 1 + blen t) r ∧ cs = t ++ r ∧ t ≠ []
    | .unclosed => ∃ it', getBacktick source it (blen p) = .ok (none, it', blen p) ∧ At it' (blen source) []
    | .tooDeep => getBacktick source it (blen p) = .err "Too nested backtick (`) string" := by
  have hb := (backtick_eq source (it.weight + 1)).1 p ['`'] cs it 0 (by simpa using hs)
    (by simpa [show ('`' : Char).utf8Size = 1 from rfl] using ha) (Nat.lt_succ_self _)
  have e1 : blen ['`'] = 1 := rfl
  rw [e1] at hb
  unfold getBacktick
  simp only [Nat.sub_zero] at hb
  cases hx : closeTemplate 1000 (.text []) cs with
  | closed t r =>
    rw [hx] at hb
    obtain ⟨it', h1, h2⟩ := hb
    refine ⟨it', by rw [h1]; rfl, h2, closeTemplate_split _ _ _ _ (Nat.lt_succ_self _) hx, ?_⟩
    intro ht
    subst ht
    -- the closing quote is part of the text
    cases cs with
    | nil => rw [ct_nil] at hx; cases hx
    | cons c cs =>
      have nc : ∀ (d : Char) (x : Close), x.cons d ≠ .closed [] r := by
        intro d x hxx; cases x <;> simp [Close.cons] at hxx
      by_cases hc : c = '\\'
      · subst hc
        cases cs with
        | nil => rw [ct_last] at hx; cases hx
        | cons d cs => rw [ct_esc] at hx; exact nc _ _ hx
      · rw [ct_text _ _ _ hc] at hx
        split at hx
        · exact nc _ _ hx
        · split at hx
          · cases hx
          · exact nc _ _ hx
  | unclosed =>
    rw [hx] at hb
    obtain ⟨it', h1, h2⟩ := hb
    exact ⟨it', by rw [h1]; rfl, h2⟩
  | tooDeep =>
    rw [hx] at hb
    simp only [TextOk] at hb
    simp only [hb]
    rfl

theorem getRegex_eq {source p cs : List Char} {it : Peek} {v : List Token} (hs : source = p ++ '/' :: cs)
    (ha : At it (blen p + 1) cs) (hsv : it.saved = []) (hv : regexAllowed v = true) :
    match closeRegex cs with
    | some (b, r) => ∃ it', getRegex source it (blen p) v =
          .ok (some (tokOf (.regex b (r.takeWhile isFlag))), it', blen p + 1 + blen b + (r.takeWhile isFlag).length) ∧
        At it' (blen p + 1 + blen b + 1 + (r.takeWhile isFlag).length) (r.dropWhile isFlag) ∧ cs = b ++ '/' :: r
    | none => calm (regexLine cs) = true → ∃ it', getRegex source it (blen p) v = .ok (none, it', blen p) ∧
        At it' (blen p + 1) cs := by
  have := regexLoop_eq source (cs.length + 1) cs p [] (it.startSave.weight + 1) it.startSave (Nat.lt_succ_self _)
    (by simpa using hs) (ha.startSave hsv) (Nat.lt_succ_self _)
  unfold getRegex
  rw [hv, if_neg (by simp)]
  cases h : closeRegex cs with
  | none =>
    rw [h] at this
    intro hc
    obtain ⟨it', h1, h2⟩ := this (by simpa using hc)
    exact ⟨it', by simp only [h1]; rfl, by simpa using h2⟩
  | some br =>
    rw [h] at this
    obtain ⟨it', h1, h2, h3⟩ := this
    refine ⟨it', ?_, by simpa using h2, h3⟩
    simp only [h1]
    simp [tokOf]

theorem tokLoop_eq (source : List Char) : ∀ (n : Nat) (v : List Lexeme) (w cs p : List Char) (fuel : Nat) (it : Peek),
    cs.length < n → source = p ++ (w ++ cs) → At it (blen p + blen w) cs → it.weight < fuel → PlainWord w → WellRead v →
    Quiet v w cs → ∀ L, lexFrom n v w cs = L → (∀ r, .openRegex r ∉ L) →
    tokLoop source fuel (v.map tokOf) (blen p) it = finish L := by
  intro n
  induction n with
  | zero => intros; omega
  | succ n ih =>
    intro v w cs p fuel it hl hs ha hf hpw hv hq L hL hno
    cases fuel with
    | zero => omega
    | succ fuel =>
      cases cs with
      | nil =>
        rw [lexFrom] at hL
        subst hL
        rw [finish_closed (fun l h => (hv.addWord w l h).1), map_addWord]
        rw [tokLoop_end ha hf]
        have := fillOther_eq (source := source) (p := p) (w := w) (cs := []) (v.map tokOf) hs
        rw [show blen source = blen p + blen w by rw [hs]; simp]
        exact this
      | cons c cs =>
        have hlen : cs.length < n := by simpa using hl
        rw [lexFrom] at hL
        cases hrc : RChar.ofChar c with
        | none =>
          obtain ⟨h1, h2, h3⟩ := ofChar_none hrc
          rw [if_neg (fun h => h3 h.1), if_neg (by simp [h1]), if_pos (by simp [h2])] at hL
          obtain ⟨it1, hn, ha1, hw1, -⟩ := ha.next_cons
          have hun : tokLoop source (fuel + 1) (v.map tokOf) (blen p) it = tokLoop source fuel (v.map tokOf) (blen p) it1 := by
            rw [tokLoop, hn]; simp only [hrc]
          rw [hun]
          refine ih v (w ++ [c]) cs p fuel it1 hlen (by simpa using hs) (by simpa [Nat.add_assoc] using ha1) (by omega) ?_ hv
            (fun _ _ h => absurd h (by simp)) L hL hno
          intro x hx
          simp only [List.mem_append, List.mem_singleton] at hx
          rcases hx with hx | hx
          · exact hpw x hx
          · rw [hx]; exact .inl h2
        | some rc =>
          have hc1 := ofChar_size hrc
          have hnext := tokLoop_next (v.map tokOf) hs ha hrc hpw hf
          by_cases hdot : c = '.' ∧ dotInWord w cs = true
          · rw [if_pos hdot] at hnext hL
            obtain ⟨it2, h1, h2, h3⟩ := hnext
            rw [h1]
            refine ih v (w ++ [c]) cs p fuel it2 hlen (by simpa using hs) (by simpa [Nat.add_assoc, hc1] using h2) h3 ?_ hv
              (fun _ _ h => absurd h (by simp)) L hL hno
            intro x hx
            simp only [List.mem_append, List.mem_singleton] at hx
            rcases hx with hx | hx
            · exact hpw x hx
            · rw [hx]; exact .inr hdot.1
          · rw [if_neg hdot] at hnext hL
            obtain ⟨it2, h1, h2, h3, h4⟩ := hnext
            rw [h1, ← map_addWord]
            have hva := hv.addWord w
            have hs' : source = (p ++ w) ++ c :: cs := by simpa using hs
            have hpos : blen p + blen w = blen (p ++ w) := by simp
            -- going on after `q` has been read
            have go : ∀ (v' : List Lexeme) (cs' q : List Char) (it' : Peek), cs'.length < n → source = q ++ cs' →
                At it' (blen q) cs' → it'.weight < fuel → WellRead v' → Quiet v' [] cs' → lexFrom n v' [] cs' = L →
                tokLoop source fuel (v'.map tokOf) (blen q) it' = finish L := by
              intro v' cs' q it' g1 g2 g3 g4 g5 g6 g7
              exact ih v' [] cs' q fuel it' g1 (by simpa using g2) (by simpa using g3) g4 (by simp [PlainWord]) g5 g6 L g7 hno
            have go1 : ∀ (v' : List Lexeme) (cs' q : List Char) (it' : Peek) (fuel' : Nat), cs'.length < n → source = q ++ cs' →
                At it' (blen q) cs' → it'.weight < fuel' → WellRead v' → Quiet v' [] cs' → lexFrom n v' [] cs' = L →
                tokLoop source fuel' (v'.map tokOf) (blen q) it' = finish L := by
              intro v' cs' q it' fuel' g1 g2 g3 g4 g5 g6 g7
              exact ih v' [] cs' q fuel' it' g1 (by simpa using g2) (by simpa using g3) g4 (by simp [PlainWord]) g5 g6 L g7 hno
            by_cases hb : isBlank c = true
            · rw [if_pos hb] at hL
              have hrcs := ofChar_blank hrc hb
              rw [reserved_plain _ _ _ _ (by rcases hrcs with h | h | h <;> subst h <;> rfl)
                (by rcases hrcs with h | h | h <;> subst h <;> intro h <;> cases h)]
              simp only [Out.bind_ok]
              have hj : joined ((addWord v w).map tokOf) rc =
                  (Lexeme.blank (if c = '\r' then '\n' else c) :: addWord v w).map tokOf := by
                have hjt : ∀ t, joinTok t rc = none := by
                  intro t; rcases hrcs with h | h | h <;> subst h <;> rfl
                have hct : charToken rc = tokOf (.blank (if c = '\r' then '\n' else c)) := by
                  simp only [isBlank, Bool.or_eq_true, beq_iff_eq] at hb
                  rcases hb with ((hb | hb) | hb) | hb <;> subst hb <;> cases hrc <;> rfl
                rw [joined_none hjt, hct]; rfl
              rw [hj, show blen p + blen w + 1 = blen (p ++ (w ++ [c])) by simp [hc1]; omega]
              refine go _ cs _ it2 hlen (by simpa using hs) (by simpa [hc1, Nat.add_assoc] using h2) h3 ?_ ?_ hL
              · refine hva.cons ⟨rfl, by simp, ?_⟩
                intro x hx
                cases hx
                split
                · rfl
                · exact hb
              · intro v' hv'; simp at hv'
            · have hb' : isBlank c = false := by simpa using hb
              obtain ⟨hct, hpc⟩ := ofChar_not_blank hrc hb'
              rw [if_neg hb, if_neg (by simp [hpc])] at hL
              simp only at hL
              by_cases hqt : c = '"' ∨ c = '\''
              · rw [if_pos hqt] at hL
                obtain ⟨hqq, hres⟩ : (rc = .quote ∨ rc = .doubleQuote) ∧
                    reserved source ((addWord v w).map tokOf) it2 (blen p + blen w) rc = (do
                      let (s, it, pos) ← getString source it2 (blen p + blen w) rc
                      .ok (pushOpt ((addWord v w).map tokOf) s, it, pos)) := by
                  rcases hqt with h | h <;> subst h <;> cases hrc
                  · exact ⟨.inr rfl, rfl⟩
                  · exact ⟨.inl rfl, rfl⟩
                rw [hres]
                have hg := (getString_good source it2 (blen p + blen w) rc).2
                rw [hpos] at hg ⊢
                have hgs := getString_eq (source := source) hqq (cs := cs) (pre := p ++ w) (acc := [c]) (it := it2)
                  (by simpa using hs) (by simpa [hc1] using h2)
                rw [← hct] at hgs
                cases hcs : closeString c cs with
                | some tr =>
                  rw [hcs] at hgs hL
                  obtain ⟨it3, g1, g2, g3, g4⟩ := hgs
                  have hw3 := hg _ g1
                  simp only [w3] at hw3
                  rw [g1]
                  simp only [Out.bind_ok, pushOpt]
                  have hb1 : 1 ≤ blen tr.1 := by
                    have := length_le_blen tr.1
                    have : tr.1.length ≠ 0 := by simpa using g4
                    omega
                  have hlt : tr.2.length < n := by
                    have := congrArg List.length g3
                    simp at this; omega
                  rw [show blen (p ++ w) + blen [c] + blen tr.1 - 1 + 1 = blen (p ++ (w ++ (c :: tr.1))) by
                    simp [hc1]; omega]
                  refine go (.str (c :: tr.1) :: addWord v w) tr.2 _ it3 hlt (by rw [hs, g3]; simp) ?_ (by omega)
                    (hva.cons ⟨rfl, by simp, by simp⟩) (fun v' hv' => by simp at hv') hL
                  simpa [hc1, Nat.add_assoc] using g2
                | none =>
                  rw [hcs] at hgs hL
                  obtain ⟨it3, g1, g2⟩ := hgs
                  have hw3 := hg _ g1
                  simp only [w3] at hw3
                  rw [g1]
                  simp only [Out.bind_ok, pushOpt]
                  rw [tokLoop_end g2 (by omega)]
                  simp only at hL
                  subst hL
                  simp only [finish]
                  have := fillOther_eq (source := source) (p := p ++ (w ++ [c])) (w := cs) (cs := []) ((addWord v w).map tokOf)
                    (by simpa using hs)
                  rw [← this]
                  congr 1
                  · simp [hc1]; omega
                  · rw [hs]; simp [hc1]; omega
              · rw [if_neg hqt] at hL
                by_cases hbt : c = '`'
                · rw [if_pos hbt] at hL
                  subst hbt
                  cases hrc
                  have hres : reserved source ((addWord v w).map tokOf) it2 (blen p + blen w) .backTick = (do
                      let (s, it, pos) ← getBacktick source it2 (blen p + blen w)
                      .ok (pushOpt ((addWord v w).map tokOf) s, it, pos)) := rfl
                  rw [hres]
                  have hg := (getBacktick_good source it2 (blen p + blen w)).2
                  rw [hpos] at hg h2 ⊢
                  have hgs := getBacktick_eq hs' h2
                  simp only [maxNesting] at hL
                  cases hcs : closeTemplate 1000 (.text []) cs with
                  | closed t r =>
                    rw [hcs] at hgs hL
                    obtain ⟨it3, g1, g2, g3, g4⟩ := hgs
                    have hw3 := hg _ g1
                    simp only [w3] at hw3
                    rw [g1]
                    simp only [Out.bind_ok, pushOpt]
                    have hb1 : 1 ≤ blen t := by
                      have := length_le_blen t
                      have : t.length ≠ 0 := by simpa using g4
                      omega
                    have hlt : r.length < n := by
                      have := congrArg List.length g3
                      simp at this; omega
                    rw [show blen (p ++ w) + 1 + blen t - 1 + 1 = blen (p ++ (w ++ ('`' :: t))) by
                      simp [hc1]; omega]
                    refine go (.str ('`' :: t) :: addWord v w) r _ it3 hlt (by rw [hs, g3]; simp) ?_ (by omega)
                      (hva.cons ⟨rfl, by simp, by simp⟩) (fun v' hv' => by simp at hv') hL
                    simpa [hc1, Nat.add_assoc] using g2
                  | unclosed =>
                    rw [hcs] at hgs hL
                    obtain ⟨it3, g1, g2⟩ := hgs
                    have hw3 := hg _ g1
                    simp only [w3] at hw3
                    rw [g1]
                    simp only [Out.bind_ok, pushOpt]
                    rw [tokLoop_end g2 (by omega)]
                    simp only at hL
                    subst hL
                    simp only [finish]
                    have := fillOther_eq (source := source) (p := p ++ (w ++ ['`'])) (w := cs) (cs := [])
                      ((addWord v w).map tokOf) (by simpa using hs)
                    rw [← this]
                    congr 1
                    · simp [hc1]; omega
                    · rw [hs]; simp [hc1]; omega
                  | tooDeep =>
                    rw [hcs] at hgs hL
                    simp only at hgs hL
                    rw [hgs, ← hL]
                    rfl
                · rw [if_neg hbt] at hL
                  by_cases hsl : c = '/'
                  · rw [if_pos hsl] at hL
                    subst hsl
                    cases hrc
                    have hdiv := divide_head hv hq (.inl rfl)
                    have hunit : blen p + blen w + 1 = blen (p ++ (w ++ ['/'])) := by simp [hc1]; omega
                    have hres : reserved source ((addWord v w).map tokOf) it2 (blen p + blen w) .slash =
                        if (regexGuard it2 ((addWord v w).map tokOf)).1 then do
                          match ← getRegex source (regexGuard it2 ((addWord v w).map tokOf)).2 (blen p + blen w)
                              ((addWord v w).map tokOf) with
                          | (some r, it, pos) => .ok (r :: (addWord v w).map tokOf, it, pos)
                          | (none, it, pos) => .ok (.op .divide :: (addWord v w).map tokOf, it, pos)
                        else .ok (defaultArm ((addWord v w).map tokOf) .slash,
                          (regexGuard it2 ((addWord v w).map tokOf)).2, blen p + blen w) := by
                      unfold reserved
                      simp only [hdiv]
                      rw [if_neg (by simp)]
                      rfl
                    have hda : ∀ V : List Token, defaultArm V .slash = .op .divide :: V := fun _ => rfl
                    have htok : tokOf (.punct ['/']) = .op .divide := by decide
                    rw [hres, hda]
                    have hsv2 := h4 rfl
                    have hgle := regexGuard_le it2 ((addWord v w).map tokOf)
                    cases cs with
                    | nil =>
                      have hgd : regexGuard it2 ((addWord v w).map tokOf) = (false, it2) := by
                        unfold regexGuard; rw [h2.peek_nil]
                      rw [hgd, if_neg (by simp)]
                      simp only [Out.bind_ok]
                      rw [tokLoop_end_noop h2 h3 (by rw [hs]; simp [hc1]; omega)]
                      simp only at hL
                      rw [← hL, addPunct_slash, finish_closed]
                      · simp [htok]
                      · intro l hl
                        simp only [List.mem_cons] at hl
                        rcases hl with hl | hl
                        · rw [hl]; rfl
                        · exact (hva l hl).1
                    | cons d cs =>
                      obtain ⟨it3, hp3, ha3, hs3, hpk3, hw3⟩ := h2.peek_cons hsv2
                      have hgd : regexGuard it2 ((addWord v w).map tokOf) =
                          (d != '/' && d != '*' && !((firstUseful ((addWord v w).map tokOf)).getD (.str [])).isOther, it3) := by
                        unfold regexGuard; rw [hp3]
                      rw [hgd]
                      simp only at hL ⊢
                      -- the next step, when the second character makes a comment
                      by_cases hd1 : d = '/'
                      · subst hd1
                        rw [if_pos rfl] at hL
                        rw [if_neg (by simp)]
                        simp only [Out.bind_ok]
                        cases fuel with
                        | zero => omega
                        | succ fuel =>
                          have hn2 := tokLoop_next (source := source) (p := p ++ (w ++ ['/'])) (w := []) (cs := cs) (c := '/') (rc := .slash)
                            (it := it3) (fuel := fuel) (.op .divide :: (addWord v w).map tokOf) (by simpa using hs)
                            (by rw [← hunit]; simpa using ha3) rfl (by simp [PlainWord]) (by omega)
                          rw [if_neg (by simp)] at hn2
                          obtain ⟨it4, g1, g2, g3, -⟩ := hn2
                          rw [hunit, g1]
                          have hres2 : reserved source (addWordTok (.op .divide :: (addWord v w).map tokOf) []) it4
                              (blen (p ++ (w ++ ['/'])) + blen []) .slash = (do
                                let (s, it, pos) ← getLineComment source it4 (blen (p ++ (w ++ ['/'])))
                                .ok (pushOpt ((addWord v w).map tokOf) s, it, pos)) := rfl
                          rw [hres2]
                          have hg := (getLineComment_good source it4 (blen (p ++ (w ++ ['/'])))).2
                          have hp2 : blen (p ++ (w ++ ['/'])) + 1 = blen (p ++ (w ++ ['/', '/'])) := by simp [hc1]; omega
                          have hgs := getLineComment_eq (source := source) (p := p ++ (w ++ ['/', '/'])) (cs := cs) (it := it4)
                            (by simpa using hs) hp2 (by rw [← hp2]; simpa using g2)
                          cases hcl : closeLine cs with
                          | some br =>
                            rw [hcl] at hgs hL
                            obtain ⟨it5, k1, k2, nl, k3, k4⟩ := hgs
                            have hw5 := hg _ k1
                            simp only [w3] at hw5
                            have hnl : nl.utf8Size = 1 := by
                              simp only [isNewline, Bool.or_eq_true, beq_iff_eq] at k4
                              rcases k4 with h | h <;> subst h <;> rfl
                            rw [k1]
                            simp only [Out.bind_ok, pushOpt]
                            have hlt : br.2.length < n := by
                              have := congrArg List.length k3
                              simp at this hlen; omega
                            rw [show blen (p ++ (w ++ ['/', '/'])) + blen br.1 + 1 =
                              blen (p ++ (w ++ ('/' :: '/' :: (br.1 ++ [nl])))) by simp [hc1, hnl]; omega]
                            refine go1 (.comment br.1 :: addWord v w) br.2 _ it5 fuel hlt (by rw [hs, k3]; simp) ?_ (by omega)
                              (hva.cons ⟨rfl, by simp, by simp⟩) (fun v' hv' => by simp at hv') hL
                            rw [show blen (p ++ (w ++ ('/' :: '/' :: (br.1 ++ [nl])))) =
                              blen (p ++ (w ++ ['/', '/'])) + blen br.1 + 1 by simp [hc1, hnl]; omega]
                            exact k2
                          | none =>
                            rw [hcl] at hgs hL
                            obtain ⟨it5, k1, k2⟩ := hgs
                            have hw5 := hg _ k1
                            simp only [w3] at hw5
                            rw [k1]
                            simp only [Out.bind_ok, pushOpt]
                            rw [tokLoop_end k2 (by omega)]
                            simp only at hL
                            subst hL
                            cases cs with
                            | nil =>
                              simp only [finish]
                              unfold fillOther
                              rw [if_neg (by rw [hs]; simp)]
                            | cons e cs =>
                              simp only [finish]
                              have he : 0 < e.utf8Size := e.utf8Size_pos
                              by_cases hsz : e.utf8Size = 1
                              · rw [if_pos hsz]
                                have := fillOther_eq (source := source) (p := p ++ (w ++ ['/', '/', e])) (w := cs) (cs := [])
                                  ((addWord v w).map tokOf) (by simpa using hs)
                                rw [← this]
                                congr 1
                                · simp [hc1, hsz]; omega
                                · rw [hs]; simp [hc1, hsz]; omega
                              · rw [if_neg hsz]
                                unfold fillOther
                                rw [if_pos (by rw [hs]; simp [hc1]; omega)]
                                rw [sub_panic_start (p := p ++ (w ++ ['/', '/'])) (c := e) (t := cs) (by simpa using hs)
                                  (by omega) (by omega)]
                                rfl
                      · rw [if_neg hd1] at hL
                        by_cases hd2 : d = '*'
                        · subst hd2
                          rw [if_pos rfl] at hL
                          rw [if_neg (by simp)]
                          simp only [Out.bind_ok]
                          cases fuel with
                          | zero => omega
                          | succ fuel =>
                            have hn2 := tokLoop_next (source := source) (p := p ++ (w ++ ['/'])) (w := []) (cs := cs) (c := '*') (rc := .star)
                              (it := it3) (fuel := fuel) (.op .divide :: (addWord v w).map tokOf) (by simpa using hs)
                              (by rw [← hunit]; simpa using ha3) rfl (by simp [PlainWord]) (by omega)
                            rw [if_neg (by simp)] at hn2
                            obtain ⟨it4, g1, g2, g3, -⟩ := hn2
                            rw [hunit, g1]
                            have e2 : ('*' : Char).utf8Size = 1 := rfl
                            have hres2 : reserved source (addWordTok (.op .divide :: (addWord v w).map tokOf) []) it4
                                (blen (p ++ (w ++ ['/'])) + blen []) .star = (do
                                  let (s, it, pos) ← getComment source it4 (blen (p ++ (w ++ ['/'])))
                                  .ok (s :: (addWord v w).map tokOf, it, pos)) := rfl
                            rw [hres2]
                            have hg := (getComment_good source it4 (blen (p ++ (w ++ ['/'])))).2
                            have hp2 : blen (p ++ (w ++ ['/'])) + 1 = blen (p ++ (w ++ ['/', '*'])) := by simp [hc1, e2]; omega
                            have hgs := getComment_eq (source := source) (p := p ++ (w ++ ['/', '*'])) (cs := cs) (it := it4)
                              (by simpa using hs) hp2 (by simp [hc1, e2]; omega) (by rw [← hp2]; simpa using g2)
                            cases hcl : closeBlock cs with
                            | some br =>
                              rw [hcl] at hgs hL
                              obtain ⟨it5, k1, k2, k3⟩ := hgs
                              have hw5 := hg _ k1
                              simp only [w3] at hw5
                              rw [k1]
                              simp only [Out.bind_ok]
                              have hlt : br.2.length < n := by
                                have := congrArg List.length k3
                                simp at this hlen; omega
                              rw [show blen (p ++ (w ++ ['/', '*'])) + blen br.1 + 1 + 1 =
                                blen (p ++ (w ++ ('/' :: '*' :: (br.1 ++ ['*', '/'])))) by simp [hc1, e2]; omega]
                              refine go1 (blockLexeme br.1 :: addWord v w) br.2 _ it5 fuel hlt (by rw [hs, k3]; simp) ?_ (by omega)
                                (hva.cons ?_) (fun v' hv' => ?_) hL
                              · rw [show blen (p ++ (w ++ ('/' :: '*' :: (br.1 ++ ['*', '/'])))) =
                                  blen (p ++ (w ++ ['/', '*'])) + blen br.1 + 2 by simp [hc1, e2]; omega]
                                exact k2
                              · unfold blockLexeme
                                split <;> exact ⟨rfl, by simp, by simp⟩
                              · exfalso
                                unfold blockLexeme at hv'
                                split at hv' <;> simp at hv'
                            | none =>
                              rw [hcl] at hgs hL
                              simp only at hL hgs
                              subst hL
                              simp only [finish]
                              by_cases hsz : (cs.getLast?.getD ' ').utf8Size = 1
                              · rw [if_pos hsz] at hgs ⊢
                                obtain ⟨it5, q, k1, k2, k3⟩ := hgs
                                have hw5 := hg _ k1
                                simp only [w3] at hw5
                                rw [k1]
                                simp only [Out.bind_ok]
                                exact tokLoop_end_noop k2 (by omega) k3
                              · rw [if_neg hsz] at hgs ⊢
                                rw [hgs]; rfl
                        · rw [if_neg hd2] at hL
                          have hra := regexAllowed_eq hva
                          have hg1 : (d != '/') = true := by simpa using hd1
                          have hg2 : (d != '*') = true := by simpa using hd2
                          have hquiet : Quiet (.punct ['/'] :: addWord v w) [] (d :: cs) := by
                            intro v' _ _
                            simp [hd1, hd2]
                          have hwr : WellRead (.punct ['/'] :: addWord v w) :=
                            hva.cons ⟨rfl, by intro t ht; cases ht; decide, by simp⟩
                          have slash : ∀ it', At it' (blen p + blen w + 1) (d :: cs) → it'.weight < fuel →
                              lexFrom n (.punct ['/'] :: addWord v w) [] (d :: cs) = L →
                              tokLoop source fuel (.op .divide :: (addWord v w).map tokOf) (blen p + blen w + 1) it' = finish L := by
                            intro it' g1 g2 g3
                            rw [hunit, ← htok]
                            exact go (.punct ['/'] :: addWord v w) (d :: cs) _ it' hlen (by simpa using hs)
                              (by rw [← hunit]; exact g1) g2 hwr hquiet g3
                          rw [hg1, hg2]
                          simp only [Bool.true_and]
                          cases hrp : regexPossible (addWord v w) with
                          | false =>
                            rw [hrp, if_neg (by simp), addPunct_slash] at hL
                            rw [hrp] at hra
                            have hgr : getRegex source it3 (blen p + blen w) ((addWord v w).map tokOf) =
                                .ok (none, it3, blen p + blen w) := by
                              unfold getRegex; rw [hra]; rfl
                            rw [hgr]
                            cases hfu : ((firstUseful ((addWord v w).map tokOf)).getD (.str [])).isOther with
                            | true =>
                              simp only [Bool.not_true, Bool.false_eq_true, if_false, Out.bind_ok]
                              exact slash it3 ha3 (by omega) hL
                            | false =>
                              simp only [Bool.not_false, if_true, Out.bind_ok]
                              exact slash it3 ha3 (by omega) hL
                          | true =>
                            rw [hrp, if_pos rfl] at hL
                            rw [hrp] at hra
                            have hfu : ((firstUseful ((addWord v w).map tokOf)).getD (.str [])).isOther = false := by
                              cases hx : ((firstUseful ((addWord v w).map tokOf)).getD (.str [])).isOther with
                              | false => rfl
                              | true => rw [firstUseful_other hx] at hra; cases hra
                            rw [hfu, if_pos (by rfl)]
                            have hg := (getRegex_good source it3 (blen p + blen w) ((addWord v w).map tokOf)).2
                            rw [hpos] at hg ha3 ⊢
                            have hgs := getRegex_eq (v := (addWord v w).map tokOf) hs' ha3 hs3 hra
                            cases hcr : closeRegex (d :: cs) with
                            | some br =>
                              rw [hcr] at hgs hL
                              obtain ⟨it4, g1, g2, g3⟩ := hgs
                              have hw4 := hg _ g1
                              simp only [w3] at hw4
                              rw [g1]
                              simp only [Out.bind_ok]
                              have hfl := flags_size br.2
                              have htd : br.2 = br.2.takeWhile isFlag ++ br.2.dropWhile isFlag := (List.takeWhile_append_dropWhile).symm
                              have hlt : (br.2.dropWhile isFlag).length < n := by
                                have e1 := congrArg List.length g3
                                have e2 := congrArg List.length htd
                                simp only [List.length_append, List.length_cons] at e1 e2 hlen
                                omega
                              have e1 : ('/' : Char).utf8Size = 1 := rfl
                              rw [show blen (p ++ w) + 1 + blen br.1 + (br.2.takeWhile isFlag).length + 1 =
                                blen (p ++ (w ++ ('/' :: (br.1 ++ ('/' :: br.2.takeWhile isFlag))))) by
                                  simp [hc1, hfl]; omega]
                              refine go (.regex br.1 (br.2.takeWhile isFlag) :: addWord v w) (br.2.dropWhile isFlag) _ it4 hlt ?_ ?_
                                (by omega) (hva.cons ⟨rfl, by simp, by simp⟩) (fun v' hv' => by simp at hv') hL
                              · rw [hs, g3]
                                conv => lhs; rw [htd]
                                simp
                              · rw [show blen (p ++ (w ++ ('/' :: (br.1 ++ ('/' :: br.2.takeWhile isFlag))))) =
                                  blen (p ++ w) + 1 + blen br.1 + 1 + (br.2.takeWhile isFlag).length by simp [hc1, hfl]; omega]
                                exact g2
                            | none =>
                              rw [hcr] at hgs hL
                              simp only at hgs hL
                              cases hcalm : calm (regexLine (d :: cs)) with
                              | false =>
                                rw [hcalm, if_neg (by simp)] at hL
                                exact absurd (by rw [← hL]; exact List.mem_cons_self) (hno (d :: cs))
                              | true =>
                                rw [hcalm, if_pos rfl] at hL
                                obtain ⟨it4, g1, g2⟩ := hgs hcalm
                                have hw4 := hg _ g1
                                simp only [w3] at hw4
                                rw [g1]
                                simp only [Out.bind_ok]
                                rw [← hpos]
                                exact slash it4 (by rw [hpos]; exact g2) (by omega) hL
                  · rw [if_neg hsl] at hL
                    have hplain : plainRC rc = true := by
                      cases rc <;> first | rfl | (exact absurd hct (by simpa [RChar.toChar] using hbt)) | skip
                      all_goals first | (exfalso; apply hqt; rw [hct]; decide) | (exfalso; apply hsl; rw [hct]; rfl) | (exfalso; apply hbt; rw [hct]; rfl)
                    have hwht : rc.isWhite = false := by
                      cases rc <;> first | rfl | (exfalso; rw [hct] at hb'; cases hb')
                    rw [reserved_plain _ _ _ _ hplain (fun h => divide_head hv hq (.inr (by rw [hct, h]; rfl)))]
                    simp only [Out.bind_ok]
                    rw [← map_addPunct hva rc hplain hwht, ← hct]
                    rw [show blen p + blen w + 1 = blen (p ++ (w ++ [c])) by simp [hc1]; omega]
                    refine go _ cs _ it2 hlen (by simpa using hs) (by simpa [hc1, Nat.add_assoc] using h2) h3 ?_
                      (quiet_addPunct cs hsl) hL
                    refine hva.addPunct ?_
                    rw [hct]
                    refine (single_punct rc ?_).2
                    cases rc <;> first | (cases hplain; done) | (cases hwht; done) | simp

/-- The tokenizer on a whole script. -/
theorem tokenize_eq (source : List Char) (h : ∀ r, Lexeme.openRegex r ∉ lexRev source) :
    tokenize source = (finish (lexRev source) >>= fun v => .ok v.reverse) := by
  unfold tokenize
  have := tokLoop_eq source (source.length + 1) [] [] source [] (Peek.weight { inner := indices source } + 1)
    { inner := indices source } (Nat.lt_succ_self _) rfl (by simpa using At.init source) (Nat.lt_succ_self _)
    (by simp [PlainWord]) (by simp [WellRead]) (by intro v' hv'; simp at hv') _ rfl h
  simp only [List.map_nil, blen_nil] at this
  simp only [this]
  rfl

end Verif.Js
