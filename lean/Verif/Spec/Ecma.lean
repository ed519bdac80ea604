import Verif.Spec.JsOut
/-!
# The tokens of a script

The lexical grammar of ECMAScript (ECMA-262, 2023, clause 12), written down from the standard and independent of the minifier. Whether a
slash begins a regular expression depends on the syntax; a function `goal` of the tokens before it (the last one first) decides.

Left out: escapes in names, decorators, HTML-like comments, and template literals with a backslash outside of literals in the code of a
substitution, or a slash there of which cannot be told whether it begins a regular expression (`Code.slash`); a text with one of
these is read as `bad` from there on. All characters beyond ASCII that are neither white space nor line
terminators are taken for letters.
-/
namespace Verif.Spec.Ecma

/-! ## Characters -/

def white (c : Char) : Bool :=
  c == '\t' || c == '\u000b' || c == '\u000c' || c == ' ' || c == '\u00a0' || c == '\ufeff' || c == '\u1680' ||
    (decide (0x2000 ≤ c.toNat) && decide (c.toNat ≤ 0x200a)) || c == '\u202f' || c == '\u205f' || c == '\u3000'

def lineEnd (c : Char) : Bool := c == '\n' || c == '\r' || c == '\u2028' || c == '\u2029'

def digit (c : Char) : Bool := decide (48 ≤ c.toNat) && decide (c.toNat ≤ 57)

def letter (c : Char) : Bool := (decide (65 ≤ c.toNat) && decide (c.toNat ≤ 90)) || (decide (97 ≤ c.toNat) && decide (c.toNat ≤ 122))

def nameStart (c : Char) : Bool :=
  letter c || c == '$' || c == '_' || (decide (128 ≤ c.toNat) && !white c && !lineEnd c)

def nameChar (c : Char) : Bool := nameStart c || digit c

def quote (c : Char) : Bool := c == '"' || c == '\''

def headDigit : List Char → Bool
  | c :: _ => digit c
  | [] => false

inductive Tok where
  | name (w : List Char)
  | number (w : List Char)
  | punct (t : List Char)
  | str (t : List Char)
  | template (t : List Char)
  | regex (body flags : List Char)
  /-- The text ends in a line comment. -/
  | lineAtEnd
  /-- No token: a literal or comment that is not closed, or a character that cannot stand here. -/
  | bad
  deriving DecidableEq, Repr

def good : Tok → Bool
  | .lineAtEnd => false
  | .bad => false
  | _ => true

/-! ## Numbers -/

inductive Num where
  /-- after a leading zero; in an old octal literal; before the dot; after the dot; after `e`; where only letters and digits follow -/
  | zero | oct | int | frac | e | done
  deriving DecidableEq, Repr

def Num.step (st : Num) (c : Char) : Option Num :=
  match st with
  | .zero =>
    if c == '.' then some .frac
    else if c == 'e' || c == 'E' then some .e
    else if c == '8' || c == '9' then some .int
    else if digit c then some .oct
    else if nameChar c then some .done else none
  | .oct => if c == '8' || c == '9' then some .int else if digit c then some .oct else if nameChar c then some .done else none
  | .int =>
    if c == '.' then some .frac
    else if c == 'e' || c == 'E' then some .e
    else if digit c || c == '_' then some .int
    else if nameChar c then some .done else none
  | .frac =>
    if c == 'e' || c == 'E' then some .e
    else if digit c || c == '_' then some .frac
    else if nameChar c then some .done else none
  | .e => if c == '+' || c == '-' || nameChar c then some .done else none
  | .done => if nameChar c then some .done else none

/-- After the first character of a number. -/
def Num.init (c : Char) : Num := if c == '.' then .frac else if c == '0' then .zero else .int

/-- The rest of a number, and what follows it. -/
def number (st : Num) : List Char → List Char × List Char
  | [] => ([], [])
  | c :: r =>
    match st.step c with
    | some st' => (c :: (number st' r).1, (number st' r).2)
    | none => ([], c :: r)

/-- The state after a text. -/
def Num.after (st : Num) : List Char → Option Num
  | [] => some st
  | c :: r =>
    match st.step c with
    | some st' => st'.after r
    | none => none

/-! ## Literals -/

/-- The rest of a string, its closing quote included, and what follows it. -/
def string (q : Char) : List Char → Option (List Char × List Char)
  | [] => none
  | ['\\'] => none
  | '\\' :: '\r' :: '\n' :: r => (string q r).map fun p => ('\\' :: '\r' :: '\n' :: p.1, p.2)
  | '\\' :: c :: r => (string q r).map fun p => ('\\' :: c :: p.1, p.2)
  | c :: r => if c = q then some ([c], r) else if c == '\n' || c == '\r' then none else (string q r).map fun p => (c :: p.1, p.2)

/-- The code of a substitution `${..}` of a template literal: the number of braces that are open in it, and its characters so far,
last one first (with a blank for every comment, a bracket for every regular expression, a quote for every string and template literal). -/
structure Code where
  braces : Nat
  past : List Char
  deriving DecidableEq, Repr

def Code.add (k : Code) (c : Char) : Code :=
  ⟨if c = '{' then k.braces + 1 else if c = '}' then k.braces - 1 else k.braces, c :: k.past⟩

/-- Words after which an expression begins. -/
def openers : List (List Char) :=
  ["return", "typeof", "instanceof", "in", "new", "delete", "void", "throw", "case", "do", "else"].map String.toList

/-- Words that may also be names. -/
def doubtful : List (List Char) := ["of", "yield", "await"].map String.toList

/-- Does a slash begin a regular expression here? `none`: this cannot be told from what precedes it. -/
def Code.slash (k : Code) : Option Bool :=
  match k.past.dropWhile fun c => white c || lineEnd c with
  | [] => some true
  | c :: r =>
    if nameChar c then
      let w := ((c :: r).takeWhile nameChar).reverse
      let before := (r.dropWhile nameChar).dropWhile fun c => white c || lineEnd c
      if w ∈ doubtful then none
      else if w ∈ openers then (if before.head? = some '.' ∨ before.head? = some '#' then none else some true)
      else some false
    else if c = ')' then (if k.braces = 0 then some false else none)
    else if c = ']' ∨ c = '`' ∨ quote c = true then some false
    else if c = '}' ∨ c = '.' then none
    else if (c = '+' ∨ c = '-') ∧ r.head? = some c then none
    else some true

/-- Inside of a template literal: in its text, or in the code of a substitution, or in a string, a regular expression (`cls`: in
brackets) or a comment there; with the codes of the substitutions around it. -/
inductive Place where
  | text (stack : List Code)
  | code (k : Code) (stack : List Code)
  | quoted (q : Char) (k : Code) (stack : List Code)
  | regex (cls : Bool) (k : Code) (stack : List Code)
  | line (k : Code) (stack : List Code)
  | block (k : Code) (stack : List Code)
  deriving DecidableEq, Repr

/-- What a character of a template literal does: it cannot stand here, it closes the literal, or the literal goes on after it, or after
the next one. -/
inductive Turn where
  | stop
  | close
  | one (pl : Place)
  | two (pl : Place)
  deriving DecidableEq, Repr

/-- The character `c` of a template literal, with the next one. -/
def Place.turn : Place → Char → Option Char → Turn
  | .text st, c, d =>
    if c = '\\' then .two (.text st)
    else if c = '$' ∧ d = some '{' then .two (.code ⟨0, []⟩ st)
    else if c = '`' then
      match st with
      | [] => .close
      | k :: st => .one (.code (k.add c) st)
    else .one (.text st)
  | .code k st, c, d =>
    if c = '\\' then .stop
    else if c = '/' then
      if d = some '/' then .two (.line k st)
      else if d = some '*' then .two (.block k st)
      else
        match k.slash with
        | none => .stop
        | some true => .one (.regex false k st)
        | some false => .one (.code (k.add c) st)
    else if quote c = true then .one (.quoted c k st)
    else if c = '`' then .one (.text (k :: st))
    else if c = '}' ∧ k.braces = 0 then .one (.text st)
    else .one (.code (k.add c) st)
  | .quoted q k st, c, _ =>
    if c = '\\' then .two (.quoted q k st)
    else if c = q then .one (.code (k.add c) st)
    else if c == '\n' || c == '\r' then .stop
    else .one (.quoted q k st)
  | .regex cls k st, c, d =>
    if lineEnd c = true then .stop
    else if c = '\\' then (if d.any lineEnd = true then .stop else .two (.regex cls k st))
    else if c = '/' ∧ cls = false then .one (.code (k.add ']') st)
    else .one (.regex (if c = '[' then true else if c = ']' then false else cls) k st)
  | .line k st, c, _ => if lineEnd c = true then .one (.code (k.add ' ') st) else .one (.line k st)
  | .block k st, c, d => if c = '*' ∧ d = some '/' then .two (.code (k.add ' ') st) else .one (.block k st)

/-- The rest of a template literal, its closing quote included, and what follows it. -/
def template : Place → List Char → Option (List Char × List Char)
  | _, [] => none
  | pl, c :: r =>
    match pl.turn c r.head? with
    | .stop => none
    | .close => some ([c], r)
    | .one pl => (template pl r).map fun p => (c :: p.1, p.2)
    | .two pl =>
      match r with
      | [] => none
      | d :: r => (template pl r).map fun p => (c :: d :: p.1, p.2)

/-- The body of a regular expression and what follows its closing slash; `cls`: inside of brackets. -/
def regex (cls : Bool) : List Char → Option (List Char × List Char)
  | [] => none
  | ['\\'] => none
  | '\\' :: c :: r => if lineEnd c then none else (regex cls r).map fun p => ('\\' :: c :: p.1, p.2)
  | c :: r =>
    if lineEnd c then none
    else if c = '/' ∧ cls = false then some ([], r)
    else (regex (if c = '[' then true else if c = ']' then false else cls) r).map fun p => (c :: p.1, p.2)

/-! ## Punctuators -/

/-- Longer ones first. -/
def punctuators : List (List Char) :=
  [">>>=", "...", "===", "!==", "**=", "<<=", ">>=", ">>>", "&&=", "||=", "??=", "=>", "==", "!=", "<=", ">=", "&&", "||", "??", "?.", "++",
   "--", "+=", "-=", "*=", "/=", "%=", "&=", "|=", "^=", "<<", ">>", "**", "{", "}", "(", ")", "[", "]", ".", ";", ",", "<", ">", "+", "-", "*",
   "/", "%", "&", "|", "^", "!", "~", "?", ":", "="].map String.toList

/-- Does `p` stand at the beginning of `s`? (`?.` before a digit is not a punctuator.) -/
def at_ (s p : List Char) : Bool := p.isPrefixOf s && !(p == ['?', '.'] && headDigit (s.drop 2))

/-- The longest punctuator at the beginning. -/
def punct (s : List Char) : Option (Tok × List Char) :=
  (punctuators.find? (at_ s)).map fun p => (.punct p, s.drop p.length)

/-! ## Tokens -/

/-- The token at the beginning of `c :: r`; `re`: a regular expression may stand here. -/
def token (re : Bool) (c : Char) (r : List Char) : Option (Tok × List Char) :=
  if nameStart c then some (.name (c :: r.takeWhile nameChar), r.dropWhile nameChar)
  else if c = '#' then
    (if (r.head?.any nameStart) = true then some (.name (c :: r.takeWhile nameChar), r.dropWhile nameChar) else none)
  else if (digit c || (c == '.' && headDigit r)) = true then some (.number (c :: (number (.init c) r).1), (number (.init c) r).2)
  else if quote c then (string c r).map fun p => (.str (c :: p.1), p.2)
  else if c = '`' then (template (.text []) r).map fun p => (.template (c :: p.1), p.2)
  else if (c == '/' && re) = true then (regex false r).map fun p => (.regex p.1 (p.2.takeWhile nameChar), p.2.dropWhile nameChar)
  else punct (c :: r)

/-- What follows a line comment. -/
def afterLine : List Char → Option (List Char)
  | [] => none
  | c :: r => if lineEnd c then some r else afterLine r

/-- What follows a block comment. -/
def afterBlock : List Char → Option (List Char)
  | [] => none
  | '*' :: '/' :: r => some r
  | _ :: r => afterBlock r

/-- The tokens of a text after the tokens `hist`, last one first. The number bounds the turns. -/
def toksF (goal : List Tok → Bool) : Nat → List Tok → List Char → List Tok
  | 0, _, _ => []
  | _ + 1, _, [] => []
  | n + 1, hist, c :: r =>
    if white c || lineEnd c then toksF goal n hist r
    else if c = '/' ∧ r.head? = some '/' then
      match afterLine r with
      | some r => toksF goal n hist r
      | none => [.lineAtEnd]
    else if c = '/' ∧ r.head? = some '*' then
      match afterBlock r.tail with
      | some r => toksF goal n hist r
      | none => [.bad]
    else
      match token (goal hist) c r with
      | some (t, r) => t :: toksF goal n (t :: hist) r
      | none => [.bad]

/-- The tokens of a text after the tokens `hist`, last one first; white space and comments left out. -/
def toksAfter (goal : List Tok → Bool) (hist : List Tok) (s : List Char) : List Tok := toksF goal s.length hist s

/-- The tokens of a script. -/
def toks (goal : List Tok → Bool) (s : List Char) : List Tok := toksAfter goal [] s

/-- Does the token `t` change, or begin a comment, if the text `s` follows directly? -/
def glues (t : Tok) (s : List Char) : Bool :=
  match s with
  | [] => false
  | y :: r =>
    match t with
    | .name _ => nameChar y
    | .number (c :: w) => (((Num.init c).after w).bind (·.step y)).isSome
    | .punct p =>
      punctuators.any (fun q => (p ++ [y]).isPrefixOf q && !(q == ['?', '.'] && headDigit r)) || (p == ['/'] && (y == '/' || y == '*')) ||
        ((p == ['.'] || p == ['?', '.']) && digit y)
    | .regex _ _ => nameChar y
    | _ => false

/-! ## What the minifier does with the gaps between the lexemes of a script -/

/-- A piece of a script without gaps, neither in the source nor in the output. `joined`: in one of them nothing stands between this
piece and the one before it. `noted`: in one of them a comment directly follows the piece before it. -/
structure Piece where
  joined : Bool
  noted : Bool
  text : List Char
  deriving DecidableEq, Repr

open Spec.Js in
/-- The rest of the current piece, and the pieces that follow. `prev`: the lexeme before. Since then, in the source: `g`, a gap; `note`,
a comment directly after `prev`; `out`, a licence or a blank that is kept (see `keep`). A comment at the end counts as a piece. -/
def piecesFrom (keep : Char → Bool) (prev : Option Lexeme) (g note out : Bool) : List Lexeme → List Char × List Piece
  | [] => ([], if note then [⟨false, true, []⟩] else [])
  | l :: ls =>
    match l with
    | .blank c => piecesFrom keep prev true note (out || keep c) ls
    | .comment _ => piecesFrom keep prev true (note || !g) out ls
    | .license _ => piecesFrom keep (some l) true true true ls
    | l =>
      let r := piecesFrom keep (some l) false false false ls
      let o := out || prev.any (gap · l)
      if !g && !o then (text l ++ r.1, r.2) else ([], ⟨!(g && o), note, text l ++ r.1⟩ :: r.2)

/-- The pieces of a script of which some blanks are kept. -/
def piecesKeeping (keep : Char → Bool) (ls : List Js.Lexeme) : List Piece :=
  ⟨true, false, (piecesFrom keep none false false false ls).1⟩ :: (piecesFrom keep none false false false ls).2

/-- The pieces of a script that is minified. -/
def pieces (ls : List Js.Lexeme) : List Piece := piecesKeeping (fun _ => false) ls

/-- How many semicolons stand at the beginning of a script? -/
def semicolons (ls : List Js.Lexeme) : Nat := ((ls.filter Js.solid).takeWhile (· == .punct [';'])).length

/-- A script without the semicolons at its beginning and the gaps before and behind them. -/
def mainPart (ls : List Js.Lexeme) : List Js.Lexeme := ls.dropWhile fun l => !Js.solid l || l == .punct [';']

/-- Does a rule about the tokens before a place, last one first, disregard semicolons at the beginning? -/
def SemiBlind {α : Type} (f : List Tok → α) : Prop := ∀ hist, f (hist ++ [.punct [';']]) = f hist

/-- A comment that has a line or paragraph separator in it. (They end a line comment.) -/
def oddComment : Js.Lexeme → Bool
  | .comment b => b.any fun c => c == '\u2028' || c == '\u2029'
  | _ => false

/-- Each piece is made of whole tokens, and stays apart from the next one. -/
def fits (goal : List Tok → Bool) : List Tok → List Piece → Bool
  | _, [] => true
  | hist, p :: ps =>
    let ts := toksAfter goal hist p.text
    ts.all good &&
    (match ts.getLast?, ps with
     | some t, q :: _ => !(q.joined && glues t q.text) && !(q.noted && t == .punct ['/'])
     | _, _ => true) &&
    fits goal (ts.reverse ++ hist) ps

/-- A usual rule where a regular expression may stand: at the beginning, after punctuation that does not end an operand, and after some
keywords. (The theorems hold for every rule that depends on the tokens before.) -/
def usual : List Tok → Bool
  | [] => true
  | .punct t :: _ => !(t == [')'] || t == [']'] || t == ['}'])
  | .name w :: _ =>
    (["return", "typeof", "in", "of", "case", "do", "else", "instanceof", "new", "throw", "void", "delete"].map String.toList).contains w
  | _ => false

/-- The tokens without the semicolons before a closing brace and at the end. -/
def neededTail : List (Bool × Tok) → List (Bool × Tok)
  | [] => []
  | p :: r => if p.2 = .punct [';'] ∧ (neededTail r = [] ∨ (neededTail r).head?.map (·.2) = some (.punct ['}'])) then neededTail r else p :: neededTail r

/-- The tokens without the semicolons at the beginning, before a closing brace and at the end, where none is needed to end a statement. -/
def needed (x : List (Bool × Tok)) : List (Bool × Tok) := neededTail (x.dropWhile (·.2 == .punct [';']))

end Verif.Spec.Ecma
