import Verif.Spec.CssBlanks
/-!
# The tokens of CSS

The tokenizer of CSS Syntax Level 3, section 4 ("Tokenization"), written from the standard: nothing here refers to the model of
the code. The fuzz target of the project (fuzz/fuzz_targets/cssparser.rs) compares the tokens of a style sheet with those of the
minified style sheet, white space and comments left out; `toks` is that list.

Two simplifications. The standard first replaces `\r\n`, `\r` and form feeds by `\n`, and U+0000 by U+FFFD; here the characters stay,
and each is read like its replacement. A number is kept as its text instead of its value.
-/
namespace Verif.Spec.CssSyntax

/-! ## Characters (4.2) -/

def newline (c : Char) : Bool := c == '\n' || c == '\r' || c == '\x0c'

def white (c : Char) : Bool := newline c || c == ' ' || c == '\t'

def digit (c : Char) : Bool := decide ('0'.toNat ≤ c.toNat) && decide (c.toNat ≤ '9'.toNat)

def hex (c : Char) : Bool :=
  digit c || (decide ('a'.toNat ≤ c.toNat) && decide (c.toNat ≤ 'f'.toNat)) ||
    (decide ('A'.toNat ≤ c.toNat) && decide (c.toNat ≤ 'F'.toNat))

/-- Letters, `_`, and all that is not ASCII. -/
def nameStart (c : Char) : Bool :=
  (decide ('a'.toNat ≤ c.toNat) && decide (c.toNat ≤ 'z'.toNat)) || (decide ('A'.toNat ≤ c.toNat) && decide (c.toNat ≤ 'Z'.toNat)) ||
    c == '_' || decide (128 ≤ c.toNat) || c == '\x00'

def nameChar (c : Char) : Bool := nameStart c || digit c || c == '-'

def nonPrintable (c : Char) : Bool :=
  (decide (1 ≤ c.toNat) && decide (c.toNat ≤ 8)) || c.toNat == 11 || (decide (14 ≤ c.toNat) && decide (c.toNat ≤ 31)) || c.toNat == 127

def quote (c : Char) : Bool := c == '"' || c == '\''

/-! ## Tokens -/

inductive Tok where
  | ident (v : List Char)
  | function (v : List Char)
  | atKeyword (v : List Char)
  /-- `id`: the value is an identifier. -/
  | hash (id : Bool) (v : List Char)
  | string (v : List Char)
  | badString
  | url (v : List Char)
  | badUrl
  | delim (c : Char)
  | number (r : List Char)
  | percentage (r : List Char)
  | dimension (r : List Char) (unit : List Char)
  | white
  | cdo
  | cdc
  /-- One of `( ) [ ] { } , : ;` -/
  | punct (c : Char)
  deriving DecidableEq, Repr

/-! ## Checks (4.3.8 - 4.3.10) -/

/-- Does the text start with a valid escape? -/
def validEscape : List Char → Bool
  | '\\' :: c :: _ => !newline c
  | ['\\'] => true
  | _ => false

/-- Would the text start an identifier? -/
def startsName : List Char → Bool
  | '-' :: c :: r => nameStart c || c == '-' || validEscape (c :: r)
  | c :: r => nameStart c || validEscape (c :: r)
  | [] => false

def headDigit : List Char → Bool
  | d :: _ => digit d
  | [] => false

/-- A digit, or a full stop and a digit. -/
def startsUnsigned : List Char → Bool
  | c :: r => digit c || (c == '.' && headDigit r)
  | [] => false

/-- Would the text start a number? -/
def startsNumber : List Char → Bool
  | c :: r => startsUnsigned (c :: r) || ((c == '+' || c == '-') && startsUnsigned r)
  | [] => false

/-! ## Pieces of tokens -/

def hexDigits : Nat → List Char → List Char × List Char
  | n + 1, c :: s => if hex c then (c :: (hexDigits n s).1, (hexDigits n s).2) else ([], c :: s)
  | _, s => ([], s)

def hexValue (c : Char) : Nat :=
  if digit c then c.toNat - '0'.toNat else if c.toNat < 'a'.toNat then c.toNat - 'A'.toNat + 10 else c.toNat - 'a'.toNat + 10

/-- The character with the given hexadecimal number; U+FFFD if there is none. -/
def codePoint (h : List Char) : Char :=
  let n := h.foldl (fun n c => 16 * n + hexValue c) 0
  if h' : n.isValidChar ∧ n ≠ 0 then Char.ofNatAux n h'.1 else '\uFFFD'

def dropWhite1 : List Char → List Char
  | c :: s => if white c then s else c :: s
  | [] => []

/-- An escaped character (4.3.7), after the backslash: its value and what follows. -/
def escape : List Char → Char × List Char
  | [] => ('\uFFFD', [])
  | c :: s => if hex c then (codePoint (hexDigits 6 (c :: s)).1, dropWhite1 (hexDigits 6 (c :: s)).2) else (c, s)

/-- A name (4.3.11); `n` is at least the length of the text. -/
def nameF : Nat → List Char → List Char × List Char
  | n + 1, c :: s =>
    if nameChar c then (c :: (nameF n s).1, (nameF n s).2)
    else if validEscape (c :: s) then ((escape s).1 :: (nameF n (escape s).2).1, (nameF n (escape s).2).2)
    else ([], c :: s)
  | _, s => ([], s)

def name (s : List Char) : List Char × List Char := nameF s.length s

def digits : List Char → List Char × List Char
  | c :: s => if digit c then (c :: (digits s).1, (digits s).2) else ([], c :: s)
  | [] => ([], [])

def sign : List Char → List Char × List Char
  | c :: s => if c == '+' || c == '-' then ([c], s) else ([], c :: s)
  | [] => ([], [])

def fraction : List Char → List Char × List Char
  | c :: s => if c == '.' && headDigit s then (c :: (digits s).1, (digits s).2) else ([], c :: s)
  | [] => ([], [])

def exponent : List Char → List Char × List Char
  | c :: s =>
    if (c == 'e' || c == 'E') && headDigit (sign s).2 then (c :: (sign s).1 ++ (digits (sign s).2).1, (digits (sign s).2).2) else ([], c :: s)
  | [] => ([], [])

/-- A number (4.3.12). -/
def number (s : List Char) : List Char × List Char :=
  let a := sign s
  let b := digits a.2
  let c := fraction b.2
  let d := exponent c.2
  (a.1 ++ b.1 ++ c.1 ++ d.1, d.2)

/-- Number, percentage or dimension (4.3.3). -/
def numeric (s : List Char) : Tok × List Char :=
  let n := number s
  if startsName n.2 then (.dimension n.1 (name n.2).1, (name n.2).2)
  else if n.2.head? = some '%' then (.percentage n.1, n.2.drop 1)
  else (.number n.1, n.2)

/-- A string after its opening quote `q` (4.3.5): its value, `none` for a bad string. `n` is at least the length of the text. -/
def stringF (q : Char) : Nat → List Char → Option (List Char) × List Char
  | n + 1, c :: s =>
    if c = q then (some [], s)
    else if newline c then (none, c :: s)
    else if c = '\\' then
      match s with
      | [] => (some [], [])
      | d :: r =>
        if newline d then stringF q n r
        else ((stringF q n (escape (d :: r)).2).1.map ((escape (d :: r)).1 :: ·), (stringF q n (escape (d :: r)).2).2)
    else ((stringF q n s).1.map (c :: ·), (stringF q n s).2)
  | _, s => (some [], s)

def dropWhite : List Char → List Char
  | c :: s => if white c then dropWhite s else c :: s
  | [] => []

/-- The rest of a bad url is skipped (4.3.14). -/
def badRest : List Char → List Char
  | [] => []
  | ')' :: s => s
  | '\\' :: _ :: s => badRest s
  | _ :: s => badRest s

/-- The text of a url without quotes (4.3.6), after the white space at its beginning; `none` for a bad url. -/
def urlF : Nat → List Char → Option (List Char) × List Char
  | n + 1, c :: s =>
    if c = ')' then (some [], s)
    else if white c then
      match dropWhite s with
      | [] => (some [], [])
      | d :: r => if d = ')' then (some [], r) else (none, badRest (d :: r))
    else if quote c || c == '(' || nonPrintable c then (none, badRest s)
    else if c = '\\' then
      if validEscape (c :: s) then ((urlF n (escape s).2).1.map ((escape s).1 :: ·), (urlF n (escape s).2).2)
      else (none, badRest s)
    else ((urlF n s).1.map (c :: ·), (urlF n s).2)
  | _, s => (some [], s)

def isUrl : List Char → Bool
  | [a, b, c] => (a == 'u' || a == 'U') && (b == 'r' || b == 'R') && (c == 'l' || c == 'L')
  | _ => false

def headQuote : List Char → Bool
  | c :: _ => quote c
  | [] => false

/-- What begins with a name (4.3.4): identifier, function or url. -/
def identLike (s : List Char) : Tok × List Char :=
  let n := name s
  if n.2.head? = some '(' then
    let r := n.2.drop 1
    if isUrl n.1 && !headQuote (dropWhite r) then
      let u := urlF (dropWhite r).length (dropWhite r)
      (match u.1 with | some v => .url v | none => .badUrl, u.2)
    else (.function n.1, r)
  else (.ident n.1, n.2)

/-- What follows a comment. -/
def afterComment : List Char → List Char
  | '*' :: '/' :: s => s
  | _ :: s => afterComment s
  | [] => []

/-- One token (4.3.1) of the text `c :: s`, `none` for a comment; and what follows. -/
def token (c : Char) (s : List Char) : Option Tok × List Char :=
  if c = '/' ∧ s.head? = some '*' then (none, afterComment (s.drop 1))
  else if white c then (some .white, dropWhite s)
  else if quote c then
    (match (stringF c s.length s).1 with | some v => some (.string v) | none => some .badString, (stringF c s.length s).2)
  else if c = '#' then
    match s with
    | d :: r => if nameChar d || validEscape (d :: r) then (some (.hash (startsName s) (name s).1), (name s).2) else (some (.delim c), s)
    | [] => (some (.delim c), s)
  else if c ∈ ['(', ')', '[', ']', '{', '}', ',', ':', ';'] then (some (.punct c), s)
  else if startsNumber (c :: s) then (some (numeric (c :: s)).1, (numeric (c :: s)).2)
  else if c = '-' ∧ s.take 2 = ['-', '>'] then (some .cdc, s.drop 2)
  else if c = '<' ∧ s.take 3 = ['!', '-', '-'] then (some .cdo, s.drop 3)
  else if c = '@' ∧ startsName s then (some (.atKeyword (name s).1), (name s).2)
  else if startsName (c :: s) then (some (identLike (c :: s)).1, (identLike (c :: s)).2)
  else (some (.delim c), s)

/-- `n` is at least the length of the text. -/
def tokensF : Nat → List Char → List Tok
  | n + 1, c :: s =>
    match token c s with
    | (some t, r) => t :: tokensF n r
    | (none, r) => tokensF n r
  | _, _ => []

/-- The tokens, without white space (and comments). -/
def toks (s : List Char) : List Tok := (tokensF s.length s).filter (· != .white)

/-! ## Style sheets without surprises -/

/-- No token is a parse error. -/
def wellFormed (s : List Char) : Prop := Tok.badString ∉ toks s ∧ Tok.badUrl ∉ toks s

open Spec.Css

/-- Can the character `p` and the text after it, once the gap between them is gone, be read as one token (or as a comment), or does
`p` belong to a longer token? `x` stands for an escape. -/
def glues : Option Char → List Char → Bool
  | some p, y :: r =>
    (!isPunct p && (!isPunct y || y == '\\')) ||
    (p == '+' && (digit y || (y == '.' && headDigit r))) ||
    (nameChar p && y == '(') ||
    ((p == 'e' || p == 'E') && y == '+' && headDigit r) ||
    (p == '-' && y == '>') ||
    (p == '/' && y == '*')
  | _, _ => false

/-- The last character, `x` for an escape. -/
def lastChr : List Mark → Option Char
  | (_, .chr c) :: _ => some c
  | (_, .lit _) :: _ => some 'x'
  | _ => none

/-- The characters that begin with the item `x`, followed by `r`. -/
def ahead (x : Item) (r : List Mark) : List Char :=
  match x, r with
  | .chr c, (.none, .chr d) :: _ => [c, d]
  | .chr c, _ => [c]
  | _, _ => []

/-- Does the list end in `@` and an identifier, at the beginning of the style sheet or after a gap, a string, a licence or one of
`; { }`? -/
def atName (xs : List Mark) : Bool :=
  (match (lastWord xs).1 with
   | '@' :: n => startsName n && n.all nameChar
   | _ => false) &&
  ((lastWord xs).2.1 != .none ||
    match lastChr (lastWord xs).2.2 with
    | none => true
    | some c => c == ';' || c == '{' || c == '}')

/-- Does the minifier remove a gap that keeps two tokens apart, or put a blank after a word that starts with `@` and is not the name
of an at-rule? -/
def risky (alpha : Char → Bool) : List Mark → List Mark → Bool
  | _, [] => false
  | r, (g, x) :: xs =>
    (g != .none && !keepRule alpha xs x r && !autoGap xs g x && glues (lastChr xs) (ahead x r)) ||
    (g == .none && mediaWord xs && !isWordChr x && (!atName xs || x == .chr '\\')) ||
    risky alpha ((g, x) :: r) xs

/-- Is there a line break in the string literal `t`, outside of escapes? -/
def lineBreak : List Char → Bool
  | '\\' :: _ :: t => lineBreak t
  | c :: t => newline c || lineBreak t
  | [] => false

/-- Escapes outside of strings are not hexadecimal, and strings have no line breaks. -/
def tame : List Item → Bool
  | [] => true
  | [.chr '\\'] => false
  | .lit c :: is => !hex c && !newline c && tame is
  | .str t :: is => !lineBreak t && tame is
  | _ :: is => tame is

/-- Does the text have `/*`, or `@` after one of `; { }`? -/
def oddPair : List Char → Bool
  | a :: b :: s => (a == '/' && b == '*') || ((a == ';' || a == '{' || a == '}') && b == '@') || oddPair (b :: s)
  | _ => false

/-- No parse error, and no url without quotes that looks like other code. -/
def plainTok : Tok → Bool
  | .badString => false
  | .badUrl => false
  | .url v => v.head? != some '@' && !oddPair v
  | _ => true

end Verif.Spec.CssSyntax
