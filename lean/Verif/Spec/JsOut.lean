import Verif.Spec.Js
/-!
# What a minified script should look like

Independent of the model: which lexemes of a script matter, how they are written next to each other, and when that is
safe, that is when the text cannot be read in another way.
-/
namespace Verif.Spec.Js

def keywords : List (List Char) :=
  ["break", "case", "catch", "const", "continue", "default", "do", "else", "false", "finally", "function", "for", "if",
   "in", "instanceof", "let", "new", "null", "private", "protected", "public", "return", "switch", "this", "throw", "true",
   "try", "typeof", "static", "var", "while"].map String.toList

/-- States of the automaton for unsigned floating numbers. -/
inductive NumState where
  | start | int | dot | frac | exp | expDigits | fail
  deriving DecidableEq, Repr

def NumState.step : NumState → Char → NumState
  | .start, c => if isDigit c then .int else if c = '.' then .dot else .fail
  | .int, c => if isDigit c then .int else if c = '.' then .frac else if c = 'e' ∨ c = 'E' then .exp else .fail
  | .dot, c => if isDigit c then .frac else .fail
  | .frac, c => if isDigit c then .frac else if c = 'e' ∨ c = 'E' then .exp else .fail
  | .exp, c => if isDigit c then .expDigits else .fail
  | .expDigits, c => if isDigit c then .expDigits else .fail
  | .fail, _ => .fail

def NumState.accepts (s : NumState) : Bool := s == .int || s == .frac || s == .expDigits

/-- Upper and lower case spellings of the ASCII letters. -/
def sameLetter (c d : Char) : Bool := c == d || (decide (65 ≤ c.toNat) && decide (c.toNat ≤ 90) && c.toNat + 32 == d.toNat)

def sameWord : List Char → List Char → Bool
  | [], [] => true
  | c :: w, d :: w' => sameLetter c d && sameWord w w'
  | _, _ => false

/-- A number with a fraction, an exponent or too many digits, or `inf`, `infinity`, `nan` in any case. -/
def isFloat (w : List Char) : Bool :=
  (w.foldl NumState.step .start).accepts || sameWord w "inf".toList || sameWord w "infinity".toList || sameWord w "nan".toList

/-- A name or a keyword, not a number. -/
def isName (w : List Char) : Bool := !isInteger w && !isFloat w

/-- Lexemes that matter: neither blanks nor ordinary comments. -/
def solid : Lexeme → Bool
  | .blank _ => false
  | .comment _ => false
  | _ => true

/-- What a minifier keeps: the solid lexemes, without the semicolons that come first. -/
def strip (ls : List Lexeme) : List Lexeme := (ls.filter solid).dropWhile (· == .punct [';'])

/-- An integer without superfluous zeros in front. -/
def shortest (w : List Char) : List Char :=
  match w.dropWhile (· == '0') with
  | [] => ['0']
  | w => w

/-- The flags of a regex, each at most once. -/
def shortFlags (fl : List Char) : List Char :=
  (if fl.contains 'g' then ['g'] else []) ++ (if fl.contains 'i' then ['i'] else [])

/-- The shortest spelling of a lexeme. -/
def shorten : Lexeme → Lexeme
  | .word w => if isInteger w then .word (shortest w) else .word w
  | .regex b fl => .regex b (shortFlags fl)
  | l => l

/-- The text of a lexeme. -/
def text : Lexeme → List Char
  | .word w => w
  | .blank c => [c]
  | .punct t => t
  | .str t => t
  | .regex b fl => '/' :: b ++ '/' :: fl
  | .license b => '/' :: '*' :: '!' :: b ++ ['*', '/']
  | _ => []

/-- Punctuation that is no operator. -/
def isDelimiter (t : List Char) : Bool :=
  t ∈ [",", "(", ")", "{", "}", "[", "]", ":", ";", ".", "!", "?", "\\", "|", "&"].map String.toList

def wordOperator (w : List Char) : Bool := w == "in".toList || w == "instanceof".toList

/-- Is a blank written between these neighbours? -/
def gap : Lexeme → Lexeme → Bool
  | .word w, .word w' => isName w || wordOperator w'
  | .punct t, .word w' => !isDelimiter t && wordOperator w'
  | .regex _ _, .word w' => wordOperator w'
  | .license _, .word w' => wordOperator w'
  | _, _ => false

/-- The lexemes with the blanks between them. -/
def spaced : List Lexeme → List Lexeme
  | [] => []
  | [a] => [a]
  | a :: b :: ls => if gap a b then a :: .blank ' ' :: spaced (b :: ls) else a :: spaced (b :: ls)

/-- The text of a list of lexemes. -/
def textOf (ls : List Lexeme) : List Char := ls.flatMap text

/-- The minified form of a list of lexemes. -/
def minimal (ls : List Lexeme) : List Char := textOf (spaced ((strip ls).map shorten))

/-- The character written directly after lexeme `a` when `rest` follows. -/
def nextChar (a : Lexeme) (rest : List Lexeme) : Option Char :=
  match rest with
  | [] => none
  | b :: _ => if gap a b then some ' ' else (text b).head?

/-- The word that ends directly before, if any. -/
def wordBefore : List Lexeme → List Char
  | .word w :: _ => w
  | _ => []

/-- Can lexeme `a`, written after `v` (last one first) and before `rest`, be read back? -/
def safeHere (v : List Lexeme) (a : Lexeme) (rest : List Lexeme) : Bool :=
  match a with
  | .word w =>
    -- a number such as `1.` needs something after which its dot is not taken for another one
    (w.getLast? != some '.' || (nextChar a rest).all endsNumber) &&
    -- two words must not be glued together
    (match rest with
     | .word w' :: _ => gap (.word w) (.word w')
     | _ => true)
  | .punct t =>
    -- no slash where a regex could begin
    (t.head? != some '/' || !regexPossible v) &&
    -- no slash that makes a comment
    (t != ['/'] || nextChar a rest != some '/' && nextChar a rest != some '*') &&
    -- no dot that makes a number
    (t != ['.'] || !(nextChar a rest).any isDigit && !dotInWord (wordBefore v) (nextChar a rest).toList) &&
    -- no operator that makes a longer one
    (match nextChar a rest with
     | some c => !compounds.contains (t ++ [c])
     | none => true)
  | .regex _ _ => !(nextChar a rest).any isFlag
  | _ => true

/-- `safeHere` for all lexemes of a list. -/
def safeFrom (v : List Lexeme) : List Lexeme → Bool
  | [] => true
  | a :: ls => safeHere v a ls && safeFrom (a :: v) ls

/-- Can the minified form of these lexemes be read back? -/
def Safe (ls : List Lexeme) : Prop := safeFrom [] ((strip ls).map shorten) = true

/-- As `safeHere`, without superfluous demands: a slash where a regex could begin is no regex if the text after it is `calm`, and a dot
after a number that has one already is not taken for a part of it. -/
def readHere (v : List Lexeme) (a : Lexeme) (rest : List Lexeme) : Bool :=
  match a with
  | .punct t =>
    (t.head? != some '/' || !regexPossible v || calm (regexLine ((textOf (spaced (a :: rest))).drop 1))) &&
    (t != ['/'] || nextChar a rest != some '/' && nextChar a rest != some '*') &&
    (t != ['.'] || !dotInWord (wordBefore v) (nextChar a rest).toList) &&
    (match nextChar a rest with
     | some c => !compounds.contains (t ++ [c])
     | none => true)
  | _ => safeHere v a rest

/-- `readHere` for all lexemes of a list. -/
def readFrom (v : List Lexeme) : List Lexeme → Bool
  | [] => true
  | a :: ls => readHere v a ls && readFrom (a :: v) ls

/-- Is the minified form of these lexemes read as these lexemes? -/
def Readable (ls : List Lexeme) : Prop := readFrom [] ((strip ls).map shorten) = true

end Verif.Spec.Js
