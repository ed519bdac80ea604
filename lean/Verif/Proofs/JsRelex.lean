import Verif.Proofs.JsOut
/-!
# Reading minified scripts back
-/
set_option linter.unusedSimpArgs false
namespace Verif.Js
open Spec.Js

/-! ## The reading does not depend on the bound -/

private theorem closeLine_le : ∀ (cs b r : List Char), closeLine cs = some (b, r) → r.length ≤ cs.length
  | [], b, r, h => by simp [closeLine] at h
  | x :: cs, b, r, h => by
    rw [closeLine] at h
    split at h
    · simp at h; simp [← h.2]
    · cases hc : closeLine cs with
      | none => rw [hc] at h; cases h
      | some p =>
        rw [hc] at h
        simp at h
        have := closeLine_le cs p.1 p.2 hc
        rw [← h.2]; simp; omega

theorem lexFrom_fuel : ∀ (n m : Nat) (v : List Lexeme) (w cs : List Char), cs.length < n → cs.length < m →
    lexFrom n v w cs = lexFrom m v w cs := by
  intro n
  induction n with
  | zero => intro m v w cs h; omega
  | succ n ih =>
    intro m v w cs hn hm
    cases m with
    | zero => omega
    | succ m =>
      cases cs with
      | nil => rfl
      | cons c cs =>
        have hn1 : cs.length < n := by simpa using hn
        have hm1 : cs.length < m := by simpa using hm
        rw [lexFrom, lexFrom]
        by_cases h1 : c = '.' ∧ dotInWord w cs = true
        · rw [if_pos h1, if_pos h1, ih m v (w ++ [c]) cs hn1 hm1]
        rw [if_neg h1, if_neg h1]
        by_cases h2 : isBlank c = true
        · rw [if_pos h2, if_pos h2, ih m _ [] cs hn1 hm1]
        rw [if_neg h2, if_neg h2]
        by_cases h3 : (!isPunct c) = true
        · rw [if_pos h3, if_pos h3, ih m v (w ++ [c]) cs hn1 hm1]
        rw [if_neg h3, if_neg h3]
        simp only
        generalize Spec.Js.addWord v w = u
        by_cases h4 : c = '"' ∨ c = '\''
        · simp only [if_pos h4]
          cases hc : closeString c cs with
          | none => rfl
          | some p =>
            obtain ⟨t, r⟩ := p
            obtain ⟨-, hs, -⟩ := closeString_stable c _ cs t r (Nat.lt_succ_self _) hc
            have : r.length ≤ cs.length := by rw [hs]; simp
            exact ih m _ [] r (by omega) (by omega)
        simp only [if_neg h4]
        by_cases h5 : c = '`'
        · simp only [if_pos h5]
          cases hc : closeTemplate maxNesting (.text []) cs with
          | unclosed => rfl
          | tooDeep => rfl
          | closed t r =>
            have hs := closeTemplate_split _ _ _ cs (Nat.lt_succ_self _) hc
            have : r.length ≤ cs.length := by rw [hs]; simp
            exact ih m _ [] r (by omega) (by omega)
        simp only [if_neg h5]
        by_cases h6 : c = '/'
        case neg => simp only [if_neg h6]; exact ih m _ [] cs hn1 hm1
        simp only [if_pos h6]
        cases cs with
        | nil => rfl
        | cons d cs =>
          have hl : cs.length < n ∧ cs.length < m := by simp at hn1 hm1; omega
          simp only
          by_cases h7 : d = '/'
          · simp only [if_pos h7]
            cases hc : closeLine cs with
            | none => rfl
            | some p =>
              have := closeLine_le cs p.1 p.2 hc
              exact ih m _ [] p.2 (by omega) (by omega)
          simp only [if_neg h7]
          by_cases h8 : d = '*'
          · simp only [if_pos h8]
            cases hc : closeBlock cs with
            | none => rfl
            | some p =>
              have hs := (closeBlock_stable cs p.1 p.2 hc).1
              have : p.2.length ≤ cs.length := by rw [hs]; simp; omega
              exact ih m _ [] p.2 (by omega) (by omega)
          simp only [if_neg h8]
          by_cases h9 : regexPossible u = true
          · simp only [if_pos h9]
            cases hc : closeRegex (d :: cs) with
            | none => simp only; rw [ih m _ [] (d :: cs) hn1 hm1]
            | some p =>
              have hs := (closeRegex_stable _ (d :: cs) p.1 p.2 (Nat.lt_succ_self _) hc).1
              have h1 : p.2.length ≤ (d :: cs).length := by rw [hs]; simp; omega
              have h2 := (List.dropWhile_suffix (l := p.2) isFlag).length_le
              exact ih m _ [] _ (by omega) (by omega)
          · simp only [if_neg h9]
            exact ih m _ [] _ hn1 hm1

/-- Reading with the smallest bound. -/
def L (v : List Lexeme) (w cs : List Char) : List Lexeme := lexFrom (cs.length + 1) v w cs

theorem L_eq {n : Nat} {v : List Lexeme} {w cs : List Char} (h : cs.length < n) : lexFrom n v w cs = L v w cs :=
  lexFrom_fuel _ _ _ _ _ h (Nat.lt_succ_self _)

/-! ## Steps of the reading -/

theorem L_nil (v : List Lexeme) (w : List Char) : L v w [] = addWord v w := rfl

theorem L_wordChar {v : List Lexeme} {w cs : List Char} {c : Char} (hb : isBlank c = false)
    (hc : isPunct c = false ∨ (c = '.' ∧ dotInWord w cs = true)) : L v w (c :: cs) = L v (w ++ [c]) cs := by
  unfold L
  rw [lexFrom]
  by_cases h1 : c = '.' ∧ dotInWord w cs = true
  · rw [if_pos h1]; rfl
  · rw [if_neg h1, if_neg (by simp [hb])]
    have : isPunct c = false := by
      rcases hc with h | h
      · exact h
      · exact absurd h h1
    rw [if_pos (by simp [this])]; rfl

theorem L_blank {v : List Lexeme} {w cs : List Char} {c : Char} (hb : isBlank c = true) :
    L v w (c :: cs) = L (.blank (if c = '\r' then '\n' else c) :: addWord v w) [] cs := by
  unfold L
  rw [lexFrom, if_neg (by rintro ⟨rfl, -⟩; exact absurd hb (by decide)), if_pos hb]
  rfl

/-- A word is complete when something else comes. -/
theorem L_flush {v : List Lexeme} {w cs : List Char} (he : WordEnd cs)
    (hd : ∀ cs', cs = '.' :: cs' → dotInWord w cs' = false ∧ dotInWord [] cs' = false) : L v w cs = L (addWord v w) [] cs := by
  have ha : addWord (addWord v w) [] = addWord v w := rfl
  rcases he with rfl | ⟨x, cs, rfl, hx⟩
  · rw [L_nil, L_nil, ha]
  · by_cases hb : isBlank x = true
    · rw [L_blank hb, L_blank hb, ha]
    · have hp : isPunct x = true := by
        rcases hx with h | h
        · exact absurd h hb
        · exact h
      unfold L
      rw [lexFrom, lexFrom, ha]
      have h1 : ¬(x = '.' ∧ dotInWord w cs = true) := by
        rintro ⟨rfl, h⟩; rw [(hd cs rfl).1] at h; cases h
      have h2 : ¬(x = '.' ∧ dotInWord [] cs = true) := by
        rintro ⟨rfl, h⟩; rw [(hd cs rfl).2] at h; cases h
      rw [if_neg h1, if_neg h2, if_neg hb, if_neg hb]
      have h3 : ¬((!isPunct x) = true) := by simp [hp]
      rw [if_neg h3, if_neg h3]

theorem L_word {v : List Lexeme} : ∀ (r p cs : List Char), WordSoFar (p ++ r) cs → L v p (r ++ cs) = L v (p ++ r) cs
  | [], p, cs, _ => by simp
  | c :: r, p, cs, h => by
    have := h p c r rfl
    have ih := L_word (v := v) r (p ++ [c]) cs (by simpa using h)
    simp only [List.cons_append]
    rw [L_wordChar this.1 this.2, ih]
    simp

/-- A character of punctuation that is no quote and no slash. -/
def simplePunct (c : Char) : Bool := isPunct c && c != '"' && c != '\'' && c != '`' && c != '/'

theorem L_punct {v : List Lexeme} {cs : List Char} {c : Char} (h : simplePunct c = true)
    (hd : c = '.' → dotInWord [] cs = false) : L v [] (c :: cs) = L (addPunct v c) [] cs := by
  simp only [simplePunct, Bool.and_eq_true, bne_iff_ne, ne_eq] at h
  obtain ⟨⟨⟨⟨h1, h2⟩, h3⟩, h4⟩, h5⟩ := h
  have hb : isBlank c = false := by
    cases hb : isBlank c with
    | false => rfl
    | true =>
      simp only [isBlank, Bool.or_eq_true, beq_iff_eq] at hb
      rcases hb with ((rfl | rfl) | rfl) | rfl <;> exact absurd h1 (by decide)
  unfold L
  rw [lexFrom, if_neg (by rintro ⟨rfl, h⟩; rw [hd rfl] at h; cases h), if_neg (by simp [hb]), if_neg (by simp [h1])]
  simp only
  rw [if_neg (by simp [h2, h3]), if_neg h4, if_neg h5]
  rfl

theorem addPunct_new {v : List Lexeme} {c : Char} (h : ∀ t v', v = .punct t :: v' → compounds.contains (t ++ [c]) = false) :
    addPunct v c = .punct [c] :: v := by
  unfold addPunct
  split
  · rename_i t v'
    rw [if_neg (by rw [h t v' rfl]; simp)]
  · rfl

theorem addPunct_join {v : List Lexeme} {t : List Char} {c : Char} (h : compounds.contains (t ++ [c]) = true) :
    addPunct (.punct t :: v) c = .punct (t ++ [c]) :: v := by
  unfold addPunct
  simp only
  rw [if_pos h]

theorem L_slash {v : List Lexeme} {cs : List Char} (hr : regexPossible v = false) (h1 : cs.head? ≠ some '/')
    (h2 : cs.head? ≠ some '*') : L v [] ('/' :: cs) = L (.punct ['/'] :: v) [] cs := by
  have hrp : ∀ n, lexFrom (n + 1) v [] ('/' :: cs) = match cs with
      | [] => addPunct v '/'
      | d :: cs' =>
          if d = '/' then
            match closeLine cs' with
            | some (b, cs) => lexFrom n (.comment b :: v) [] cs
            | none => .openLine cs' :: v
          else if d = '*' then
            match closeBlock cs' with
            | some (b, cs) => lexFrom n (blockLexeme b :: v) [] cs
            | none => .openBlock cs' :: v
          else lexFrom n (addPunct v '/') [] cs := by
    intro n
    rw [lexFrom, if_neg (by rintro ⟨h, -⟩; exact absurd h (by decide)), if_neg (by decide), if_neg (by decide)]
    simp only
    rw [if_neg (by decide), if_neg (by decide), if_pos (by decide)]
    have ha : addWord v [] = v := rfl
    rw [ha]
    cases cs with
    | nil => rfl
    | cons d cs => simp only [hr, Bool.false_eq_true, if_false]; rfl
  rw [← addPunct_slash]
  unfold L
  rw [hrp]
  cases cs with
  | nil => rfl
  | cons d cs =>
    simp only
    rw [if_neg (by rintro rfl; exact h1 rfl), if_neg (by rintro rfl; exact h2 rfl)]
    rfl

theorem L_quoted {v : List Lexeme} {q : Char} {b cs : List Char} (hq : q = '"' ∨ q = '\'')
    (h : closeString q (b ++ cs) = some (b, cs)) : L v [] (q :: b ++ cs) = L (.str (q :: b) :: v) [] cs := by
  have h1 : isBlank q = false ∧ isPunct q = true ∧ q ≠ '.' := by rcases hq with rfl | rfl <;> decide
  unfold L
  rw [List.cons_append, lexFrom, if_neg (by rintro ⟨h, -⟩; exact h1.2.2 h), if_neg (by simp [h1]), if_neg (by simp [h1])]
  simp only
  rw [if_pos hq, h]
  exact L_eq (by simp; omega)

theorem L_template {v : List Lexeme} {b cs : List Char}
    (h : closeTemplate maxNesting (.text []) (b ++ cs) = .closed b cs) : L v [] ('`' :: b ++ cs) = L (.str ('`' :: b) :: v) [] cs := by
  unfold L
  rw [List.cons_append, lexFrom, if_neg (by rintro ⟨h, -⟩; exact absurd h (by decide)), if_neg (by decide), if_neg (by decide)]
  simp only
  rw [if_neg (by decide), if_pos (by decide), h]
  exact L_eq (by simp; omega)

theorem L_license {v : List Lexeme} {b cs : List Char} (h : closeBlock ('!' :: b ++ '*' :: '/' :: cs) = some ('!' :: b, cs)) :
    L v [] ('/' :: '*' :: '!' :: b ++ ['*', '/'] ++ cs) = L (.license b :: v) [] cs := by
  have hs : '/' :: '*' :: '!' :: b ++ ['*', '/'] ++ cs = '/' :: '*' :: ('!' :: b ++ '*' :: '/' :: cs) := by simp
  rw [hs]
  unfold L
  rw [lexFrom, if_neg (by rintro ⟨h, -⟩; exact absurd h (by decide)), if_neg (by decide), if_neg (by decide)]
  simp only
  rw [if_neg (by decide), if_neg (by decide), if_pos (by decide), if_neg (by decide), if_pos (by decide), h]
  exact L_eq (by simp; omega)

theorem L_regex {v : List Lexeme} {b fl cs : List Char} (hr : regexPossible v = true)
    (hd : ∃ d b', b = d :: b' ∧ d ≠ '/' ∧ d ≠ '*') (h : closeRegex (b ++ '/' :: (fl ++ cs)) = some (b, fl ++ cs))
    (hf : ∀ c ∈ fl, isFlag c = true) (hc : ∀ c, cs.head? = some c → isFlag c = false) :
    L v [] ('/' :: b ++ '/' :: fl ++ cs) = L (.regex b fl :: v) [] cs := by
  obtain ⟨d, b', rfl, h1, h2⟩ := hd
  have hs : '/' :: (d :: b') ++ '/' :: fl ++ cs = '/' :: (d :: b' ++ '/' :: (fl ++ cs)) := by simp
  rw [hs]
  have ht : (fl ++ cs).takeWhile isFlag = fl ∧ (fl ++ cs).dropWhile isFlag = cs := by
    clear h hs
    induction fl with
    | nil =>
      cases cs with
      | nil => exact ⟨rfl, rfl⟩
      | cons c cs => simp [List.takeWhile_cons, List.dropWhile_cons, hc c rfl]
    | cons c fl ih =>
      have := ih fun x hx => hf x (List.mem_cons_of_mem _ hx)
      simp [List.takeWhile_cons, List.dropWhile_cons, hf c List.mem_cons_self, this]
  unfold L
  rw [lexFrom, if_neg (by rintro ⟨h, -⟩; exact absurd h (by decide)), if_neg (by decide), if_neg (by decide)]
  simp only
  rw [if_neg (by decide), if_neg (by decide), if_pos (by decide)]
  have ha : addWord v [] = v := rfl
  simp only [List.cons_append] at h ⊢
  rw [if_neg h1, if_neg h2, ha, if_pos hr, h]
  simp only [ht]
  exact L_eq (by simp; omega)

/-! ## Lists of lexemes that can be read back -/

theorem LexOk.congr {v v' : List Lexeme} {l : Lexeme} (h : LexOk v l) (hr : regexPossible v' = regexPossible v) : LexOk v' l := by
  cases l <;> first | exact h | (refine ⟨?_, h.2⟩; rw [hr]; exact h.1)

/-- Each lexeme may stand after those before it. -/
def Placed (v : List Lexeme) : List Lexeme → Prop
  | [] => True
  | a :: ls => LexOk v a ∧ Placed (a :: v) ls

theorem Placed.of_wf : ∀ (ls v : List Lexeme), Wf (ls.reverse ++ v) → Placed v ls
  | [], _, _ => trivial
  | a :: ls, v, h => by
    have h' : Wf (ls.reverse ++ a :: v) := by simpa using h
    refine ⟨?_, Placed.of_wf ls (a :: v) h'⟩
    clear h
    generalize ls.reverse = us at h'
    induction us with
    | nil => exact h'.1
    | cons u us ih => exact ih h'.2

theorem Placed.filter : ∀ (ls v v' : List Lexeme), regexPossible v' = regexPossible v → Placed v ls → Placed v' (ls.filter solid)
  | [], _, _, _, _ => trivial
  | a :: ls, v, v', hr, h => by
    have step : ∀ {u u' : List Lexeme} (l : Lexeme), regexPossible u' = regexPossible u →
        regexPossible (l :: u') = regexPossible (l :: u) := by
      intro u u' l hu
      cases l <;> simp only [regexPossible] <;> exact hu
    cases hs : solid a with
    | true =>
      rw [List.filter_cons_of_pos hs]
      exact ⟨h.1.congr hr, Placed.filter ls (a :: v) (a :: v') (step a hr) h.2⟩
    | false =>
      rw [List.filter_cons_of_neg (by simp [hs])]
      refine Placed.filter ls (a :: v) v' ?_ h.2
      cases a <;> simp [solid] at hs <;> simpa [regexPossible] using hr

theorem Placed.mono : ∀ (ls v v' : List Lexeme), regexPossible v' = regexPossible v → Placed v ls → Placed v' ls
  | [], _, _, _, _ => trivial
  | a :: ls, v, v', hr, h => by
    refine ⟨h.1.congr hr, Placed.mono ls (a :: v) (a :: v') ?_ h.2⟩
    cases a <;> simp only [regexPossible] <;> exact hr

theorem Placed.dropSemi : ∀ (ls v : List Lexeme), regexPossible v = true → Placed v ls →
    Placed v (ls.dropWhile (· == .punct [';']))
  | [], _, _, _ => trivial
  | a :: ls, v, hr, h => by
    rw [List.dropWhile_cons]
    split
    · rename_i he
      simp only [beq_iff_eq] at he
      refine Placed.dropSemi ls v hr (Placed.mono ls (a :: v) v ?_ h.2)
      rw [hr, he]
      show true = beforeOperand.contains [';']
      decide
    · exact h

private theorem digit_plain {c : Char} (h : Spec.Js.isDigit c = true) : isBlank c = false ∧ isPunct c = false := by
  have hs : ∀ c ∈ "0123456789".toList, isBlank c = false ∧ isPunct c = false := by decide +kernel
  exact hs c (by simpa [Spec.Js.isDigit] using h)

theorem wordOk_integer {w : List Char} (h : isInteger w = true) : WordOk w := by
  obtain ⟨h1, h2, -⟩ := isInteger_iff.1 h
  refine ⟨h1, [], .inl rfl, ?_⟩
  rintro p c r rfl
  have := digit_plain (h2 c (by simp))
  exact ⟨this.1, .inl this.2⟩

theorem shortFlags_flag (fl : List Char) : ∀ c ∈ shortFlags fl, isFlag c = true := by
  intro c hc
  unfold shortFlags at hc
  rcases List.mem_append.1 hc with h | h <;> split at h <;> simp at h <;> subst h <;> decide

theorem LexOk.shorten {v : List Lexeme} {l : Lexeme} (h : LexOk v l) : LexOk v (shorten l) := by
  cases l with
  | word w =>
    show LexOk v (if isInteger w then .word (shortest w) else .word w)
    split
    · rename_i hi; exact wordOk_integer (shortest_ok hi).1
    · exact h
  | regex b fl => exact ⟨h.1, h.2.1, h.2.2.1, shortFlags_flag fl⟩
  | _ => exact h

theorem shorten_class (l : Lexeme) : solid (shorten l) = solid l ∧ isOpen (shorten l) = isOpen l ∧
    ∀ v v', regexPossible v = regexPossible v' → regexPossible (shorten l :: v) = regexPossible (l :: v') := by
  cases l with
  | word w =>
    have : shorten (.word w) = .word (shortest w) ∨ shorten (.word w) = .word w := by
      show (if isInteger w then Lexeme.word (shortest w) else .word w) = _ ∨ (if isInteger w then Lexeme.word (shortest w) else .word w) = _
      split
      · exact .inl rfl
      · exact .inr rfl
    rcases this with h | h <;> rw [h] <;> exact ⟨rfl, rfl, fun _ _ _ => rfl⟩
  | _ => refine ⟨rfl, rfl, fun v v' h => ?_⟩ <;> simp only [Spec.Js.shorten, regexPossible] <;> exact h

theorem Placed.shorten : ∀ (ls v v' : List Lexeme), regexPossible v' = regexPossible v → Placed v ls →
    Placed v' (ls.map Spec.Js.shorten)
  | [], _, _, _, _ => trivial
  | a :: ls, v, v', hr, h =>
    ⟨(h.1.congr hr).shorten, Placed.shorten ls (a :: v) (Spec.Js.shorten a :: v') ((shorten_class a).2.2 _ _ hr) h.2⟩

/-! ## Reading back -/

theorem dotInWord_head (w cs : List Char) : dotInWord w cs = dotInWord w cs.head?.toList := by
  cases cs <;> rfl

/-- A word can be read before another text, if its last dot stays a dot. -/
theorem WordOk.before {w cs : List Char} (h : WordOk w) (hd : w.getLast? = some '.' → ∀ x, cs.head? = some x → endsNumber x = true) :
    WordSoFar w cs := by
  obtain ⟨-, cs0, he, hw⟩ := h
  intro p c r hs
  obtain ⟨h1, h2⟩ := hw p c r hs
  refine ⟨h1, ?_⟩
  rcases h2 with h2 | ⟨rfl, h2⟩
  · exact .inl h2
  · refine .inr ⟨rfl, ?_⟩
    cases r with
    | cons x r => exact h2
    | nil =>
      simp only [List.nil_append] at h2 ⊢
      have hi : isInteger p = true ∧ p.contains '.' = false := by
        unfold dotInWord at h2
        simp only [Bool.and_eq_true, Bool.not_eq_true'] at h2
        refine ⟨?_, h2.1⟩
        rcases he with rfl | ⟨x, cs', rfl, hx⟩
        · exact h2.2
        · have := h2.2
          simp only [Bool.or_eq_true, Bool.and_eq_true] at this
          rcases this with h | h
          · have := digit_plain h
            rw [this.1, this.2] at hx
            simp at hx
          · exact h.1
      unfold dotInWord
      rw [hi.2]
      simp only [Bool.not_false, Bool.true_and]
      cases cs with
      | nil => exact hi.1
      | cons x cs =>
        have := hd (by rw [hs]; simp) x rfl
        simp [hi.1, this]

/-- Lexemes that are written as what they are: closed ones, apart from comments. -/
def plain : Lexeme → Bool
  | .blank _ => true
  | l => solid l && !isOpen l

theorem plain_of {l : Lexeme} (h : solid l = true ∧ isOpen l = false) : plain l = true := by
  cases l <;> simp_all [plain, solid, isOpen]

theorem text_ne {v : List Lexeme} {l : Lexeme} (h : LexOk v l) (hs : plain l = true) : text l ≠ [] := by
  have hp : ∀ t ∈ puncts, t ≠ [] := by decide +kernel
  cases l with
  | word w => exact h.1
  | punct t => exact hp t h
  | str t => obtain ⟨q, b, rfl, -⟩ := h; simp [text]
  | regex b fl => simp [text]
  | license b => simp [text]
  | blank c => simp [text]
  | _ => cases hs

/-- The text of the lexemes after `a`. -/
def after (a : Lexeme) (ls : List Lexeme) : List Char :=
  match ls with
  | [] => []
  | b :: _ => if gap a b then ' ' :: textOf (spaced ls) else textOf (spaced ls)

theorem textOf_spaced_cons (a : Lexeme) (ls : List Lexeme) : textOf (spaced (a :: ls)) = text a ++ after a ls := by
  cases ls with
  | nil => simp [spaced, textOf, after]
  | cons b ls =>
    simp only [spaced, after]
    split
    · simp [textOf_cons, text]
    · simp [textOf_cons]

theorem after_head {v : List Lexeme} {a : Lexeme} {ls : List Lexeme} (h : Placed v ls) (hs : ∀ l ∈ ls, plain l = true) :
    (after a ls).head? = nextChar a ls := by
  cases ls with
  | nil => rfl
  | cons b ls =>
    simp only [after, nextChar]
    split
    · rfl
    · rw [textOf_spaced_cons]
      have := text_ne h.1 (hs b List.mem_cons_self)
      cases hx : text b with
      | nil => exact absurd hx this
      | cons => rfl

/-- No punctuation at the end of `v` joins the next character. -/
def Sep (v : List Lexeme) (cs : List Char) : Prop :=
  ∀ t v', v = .punct t :: v' → ∀ c, cs.head? = some c → compounds.contains (t ++ [c]) = false

theorem punct_chars : ∀ t ∈ puncts, t = ['/'] ∨ t = ['/', '='] ∨ (∃ c, t = [c] ∧ simplePunct c = true) ∨
    (∃ c d, t = [c, d] ∧ simplePunct c = true ∧ simplePunct d = true ∧ d ≠ '.' ∧ c ≠ '.' ∧ compounds.contains [c, d] = true) ∨
    (∃ c d e, t = [c, d, e] ∧ simplePunct c = true ∧ simplePunct d = true ∧ simplePunct e = true ∧ e ≠ '.' ∧ d ≠ '.' ∧ c ≠ '.' ∧
      compounds.contains [c, d] = true ∧ compounds.contains [c, d, e] = true) := by
  intro t ht
  have h1 : ∀ t ∈ puncts, (t = ['/'] ∨ t = ['/', '=']) ∨ (match t with
    | [c] => simplePunct c
    | [c, d] => simplePunct c && simplePunct d && d != '.' && c != '.' && compounds.contains [c, d]
    | [c, d, e] => simplePunct c && simplePunct d && simplePunct e && e != '.' && d != '.' && c != '.' &&
      compounds.contains [c, d] && compounds.contains [c, d, e]
    | _ => false) = true := by decide +kernel
  rcases h1 t ht with (h | h) | h
  · exact .inl h
  · exact .inr (.inl h)
  · match t, h with
    | [c], h => exact .inr (.inr (.inl ⟨c, rfl, h⟩))
    | [c, d], h =>
      simp only [Bool.and_eq_true, bne_iff_ne, and_assoc] at h
      exact .inr (.inr (.inr (.inl ⟨c, d, rfl, h⟩)))
    | [c, d, e], h =>
      simp only [Bool.and_eq_true, bne_iff_ne, and_assoc] at h
      exact .inr (.inr (.inr (.inr ⟨c, d, e, rfl, h⟩)))

/-- Reading one lexeme back. -/
theorem L_lexeme {v V : List Lexeme} {a : Lexeme} {ls : List Lexeme} (hp : Placed v (a :: ls))
    (hs : ∀ l ∈ a :: ls, plain l = true) (hr : regexPossible V = regexPossible v)
    (hsafe : safeFrom v (a :: ls) = true) (hsep : Sep V (text a ++ after a ls)) :
    L V [] (text a ++ after a ls) = L (a :: V) [] (after a ls) := by
  have hnext := after_head (a := a) hp.2 (fun l hl => hs l (List.mem_cons_of_mem _ hl))
  have hsa := hs a List.mem_cons_self
  simp only [safeFrom, Bool.and_eq_true] at hsafe
  obtain ⟨hh, hrest⟩ := hsafe
  have hl := hp.1
  cases a with
  | word w =>
    simp only [safeHere, Bool.and_eq_true, Bool.or_eq_true, bne_iff_ne, ne_eq] at hh
    obtain ⟨hdot, hgl⟩ := hh
    have hw : WordSoFar w (after (.word w) ls) := by
      refine WordOk.before hl ?_
      intro hlast x hx
      rw [hnext] at hx
      rcases hdot with h | h
      · exact absurd hlast h
      · rw [hx] at h; simpa using h
    have e1 := L_word (v := V) w [] _ (by simpa using hw)
    simp only [List.nil_append] at e1
    show L V [] (w ++ _) = _
    rw [e1, L_flush]
    · have : addWord V w = .word w :: V := by
        unfold addWord
        cases w with
        | nil => exact absurd rfl hl.1
        | cons => rfl
      rw [this]
    · -- what follows ends the word
      cases ls with
      | nil => exact .inl rfl
      | cons b ls =>
        have hb := hs b (by simp)
        simp only [after]
        split
        · exact .inr ⟨' ', _, rfl, .inl (by decide)⟩
        · rename_i hgap
          rw [textOf_spaced_cons]
          have hlb := hp.2.1
          cases b with
          | word w' => exact absurd hgl hgap
          | punct t =>
            have hpp : ∀ t ∈ puncts, ∃ c t', t = c :: t' ∧ isPunct c = true := by
              intro t ht
              have : ∀ t ∈ puncts, (match t with | c :: _ => isPunct c | [] => false) = true := by decide +kernel
              have := this t ht
              cases t with
              | nil => cases this
              | cons c t => exact ⟨c, t, rfl, this⟩
            obtain ⟨c, t', rfl, hc⟩ := hpp t hlb
            exact .inr ⟨c, _, rfl, .inr hc⟩
          | str t =>
            obtain ⟨q, b, rfl, h⟩ := hlb
            refine .inr ⟨q, _, rfl, .inr ?_⟩
            rcases h with ⟨rfl | rfl, -⟩ | ⟨rfl, -⟩ <;> decide
          | regex b fl => exact .inr ⟨'/', _, rfl, .inr (by decide)⟩
          | license b => exact .inr ⟨'/', _, rfl, .inr (by decide)⟩
          | blank c => exact .inr ⟨c, _, rfl, .inl hlb.1⟩
          | _ => cases hb
    · intro cs' hcs
      cases ls with
      | nil => cases hcs
      | cons b ls =>
        have hb := hs b (by simp)
        have hlb := hp.2.1
        have hnext2 := after_head (a := b) hp.2.2 (fun l hl => hs l (List.mem_cons_of_mem _ (List.mem_cons_of_mem _ hl)))
        simp only [after] at hcs
        split at hcs
        · simp at hcs
        · rename_i hgap
          rw [textOf_spaced_cons] at hcs
          cases b with
          | word w' => exact absurd hgl hgap
          | punct t =>
            have ht : ∀ t ∈ puncts, t.head? = some '.' → t = ['.'] := by decide +kernel
            have : t.head? = some '.' := by
              cases t with
              | nil => exact absurd (show [] ∈ puncts from hlb) (by decide +kernel)
              | cons c t => simp [text] at hcs; simp [hcs.1]
            have := ht t hlb this
            subst this
            simp only [text, List.cons_append, List.nil_append, List.cons.injEq, true_and] at hcs
            simp only [safeFrom, Bool.and_eq_true, safeHere, Bool.or_eq_true, bne_iff_ne, ne_eq, not_true_eq_false, false_or,
              Bool.not_eq_true', wordBefore] at hrest
            obtain ⟨⟨⟨⟨-, -⟩, hd1, hd2⟩, -⟩, -⟩ := hrest
            rw [dotInWord_head, dotInWord_head [], ← hcs, hnext2]
            refine ⟨hd2, ?_⟩
            cases hn : nextChar (.punct ['.']) ls with
            | none => rfl
            | some x =>
              rw [hn] at hd1
              simp only [Option.any_some] at hd1
              simp [dotInWord, hd1, isInteger]
          | str t =>
            obtain ⟨q, b, rfl, h⟩ := hlb
            simp only [text, List.cons_append, List.cons.injEq] at hcs
            rw [hcs.1] at h
            rcases h with ⟨h | h, -⟩ | ⟨h, -⟩ <;> exact absurd h (by decide)
          | regex b fl => simp [text] at hcs
          | license b => simp [text] at hcs
          | blank c =>
            simp only [text, List.cons_append, List.cons.injEq] at hcs
            have : isBlank c = true := hlb.1
            rw [hcs.1] at this
            exact absurd this (by decide)
          | _ => cases hb
  | punct t =>
    simp only [safeHere, Bool.and_eq_true, Bool.or_eq_true, bne_iff_ne, ne_eq] at hh
    obtain ⟨⟨⟨h1, h2⟩, h3⟩, h4⟩ := hh
    simp only [text] at hsep ⊢
    rcases punct_chars t hl with rfl | rfl | ⟨c, rfl, hc⟩ | ⟨c, d, rfl, hc, hd, hn1, hn2, hj⟩ |
      ⟨c, d, e, rfl, hc, hd, he, hn1, hn2, hn3, hj, hj2⟩
    · simp only [List.head?_cons, not_true_eq_false, false_or, Bool.not_eq_true'] at h1 h2
      simp only [List.cons_append, List.nil_append]
      exact L_slash (by rw [hr]; exact h1) (by rw [hnext]; exact h2.1) (by rw [hnext]; exact h2.2)
    · simp only [List.head?_cons, not_true_eq_false, false_or, Bool.not_eq_true'] at h1
      simp only [List.cons_append, List.nil_append]
      rw [L_slash (by rw [hr]; exact h1) (by simp) (by simp), L_punct (by decide) (fun h => absurd h (by decide)), addPunct_join (by decide)]
      rfl
    · simp only [List.cons_append, List.nil_append] at hsep ⊢
      rw [L_punct hc, addPunct_new fun t v' hv => hsep t v' hv c rfl]
      rintro rfl
      simp only [not_true_eq_false, false_or, Bool.not_eq_true', Bool.and_eq_true] at h3
      rw [dotInWord_head, hnext]
      cases hn : nextChar (.punct ['.']) ls with
      | none => rfl
      | some x =>
        rw [hn] at h3
        simp only [Option.any_some] at h3
        simp [dotInWord, h3.1, isInteger]
    · simp only [List.cons_append, List.nil_append] at hsep ⊢
      rw [L_punct hc (fun h => absurd h hn2), addPunct_new fun t v' hv => hsep t v' hv c rfl,
        L_punct hd (fun h => absurd h hn1), addPunct_join hj]
      rfl
    · simp only [List.cons_append, List.nil_append] at hsep ⊢
      rw [L_punct hc (fun h => absurd h hn3), addPunct_new fun t v' hv => hsep t v' hv c rfl,
        L_punct hd (fun h => absurd h hn2), addPunct_join (show compounds.contains ([c] ++ [d]) = true from hj),
        L_punct he (fun h => absurd h hn1), addPunct_join (show compounds.contains ([c] ++ [d] ++ [e]) = true from hj2)]
      rfl
  | str t =>
    obtain ⟨q, b, rfl, h | h⟩ := hl
    · exact L_quoted h.1 (h.2 _)
    · obtain ⟨rfl, h⟩ := h
      exact L_template (h _)
  | regex b fl =>
    simp only [safeHere, Bool.not_eq_true'] at hh
    refine L_regex (by rw [hr]; exact hl.1) hl.2.1 (hl.2.2.1 _) hl.2.2.2 ?_
    intro c hc
    rw [hnext] at hc
    rw [hc] at hh
    simpa using hh
  | license b => exact L_license (hl _)
  | blank c =>
    show L V [] (c :: after (.blank c) ls) = _
    rw [L_blank hl.1, if_neg hl.2]
    rfl
  | _ => cases hsa

theorem relex : ∀ (ls v V : List Lexeme), Placed v ls → (∀ l ∈ ls, plain l = true) →
    regexPossible V = regexPossible v → safeFrom v ls = true → Sep V (textOf (spaced ls)) →
    L V [] (textOf (spaced ls)) = (spaced ls).reverse ++ V
  | [], _, _, _, _, _, _, _ => rfl
  | a :: ls, v, V, hp, hs, hr, hsafe, hsep => by
    rw [textOf_spaced_cons] at hsep ⊢
    rw [L_lexeme hp hs hr hsafe hsep]
    have hnext := after_head (a := a) hp.2 (fun l hl => hs l (List.mem_cons_of_mem _ hl))
    have hr' : regexPossible (a :: V) = regexPossible (a :: v) := by
      cases a <;> simp only [regexPossible] <;> exact hr
    simp only [safeFrom, Bool.and_eq_true] at hsafe
    have ih := relex ls (a :: v)
    cases ls with
    | nil => rfl
    | cons b ls =>
      simp only [after] at hnext ⊢
      split
      · rename_i hg
        rw [L_blank (by decide)]
        have : L (.blank ' ' :: a :: V) [] (textOf (spaced (b :: ls))) = _ :=
          ih (.blank ' ' :: a :: V) hp.2 (fun l hl => hs l (List.mem_cons_of_mem _ hl)) hr' hsafe.2 (by
            intro t v' hv; cases hv)
        show L (.blank ' ' :: a :: V) [] (textOf (spaced (b :: ls))) = _
        rw [this]
        simp [spaced, hg]
      · rename_i hg
        rw [if_neg hg] at hnext
        rw [ih (a :: V) hp.2 (fun l hl => hs l (List.mem_cons_of_mem _ hl)) hr' hsafe.2]
        · simp [spaced, hg]
        · intro t v' hv c hc
          cases hv
          rw [hnext] at hc
          have := hsafe.1
          simp only [safeHere, Bool.and_eq_true] at this
          have := this.2
          rw [hc] at this
          simpa using this

/-- Reading the minified form gives the lexemes with the blanks between them. -/
theorem lex_minimal {s : List Char} (h : Closed s) (hs : Safe (lex s)) :
    lex (minimal (lex s)) = spaced ((strip (lex s)).map shorten) := by
  have hwf : Placed [] (lex s) := Placed.of_wf _ _ (by simpa [lex] using lexRev_wf s)
  have hp : Placed [] ((strip (lex s)).map shorten) :=
    Placed.shorten _ [] [] rfl (Placed.dropSemi _ [] rfl (Placed.filter _ [] [] rfl hwf))
  have hsol : ∀ l ∈ (strip (lex s)).map shorten, solid l = true ∧ isOpen l = false := by
    intro l hl
    obtain ⟨l', hl', rfl⟩ := List.mem_map.1 hl
    obtain ⟨h1, h2, -⟩ := strip_solid (closed_lex h) l' hl'
    exact ⟨by rw [(shorten_class l').1, h2], by rw [(shorten_class l').2.1, h1]⟩
  have := relex _ [] [] hp (fun l hl => plain_of (hsol l hl)) rfl hs (by intro t v' hv; cases hv)
  show (L [] [] (textOf (spaced ((strip (lex s)).map shorten)))).reverse = _
  rw [this]
  simp

end Verif.Js
