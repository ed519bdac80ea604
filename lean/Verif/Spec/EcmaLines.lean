import Verif.Spec.Ecma
/-!
# The line breaks of a script

Line terminators separate tokens, and some of them end statements (ECMA-262, 2023, clause 12.10, automatic semicolon insertion).
-/
namespace Verif.Spec.Ecma

/-- The tokens of a text, and `none` for a line break; as `toksF`. A comment over several lines is a line break. -/
def partsF (goal : List Tok → Bool) : Nat → List Tok → List Char → List (Option Tok)
  | 0, _, _ => []
  | _ + 1, _, [] => []
  | n + 1, hist, c :: r =>
    if lineEnd c then none :: partsF goal n hist r
    else if white c then partsF goal n hist r
    else if c = '/' ∧ r.head? = some '/' then
      match afterLine r with
      | some r => none :: partsF goal n hist r
      | none => [some .lineAtEnd]
    else if c = '/' ∧ r.head? = some '*' then
      match afterBlock r.tail with
      | some x => (if (r.take (r.length - x.length)).any lineEnd then [none] else []) ++ partsF goal n hist x
      | none => [some .bad]
    else
      match token (goal hist) c r with
      | some (t, r) => some t :: partsF goal n (t :: hist) r
      | none => [some .bad]

/-- The tokens and line breaks of a text after the tokens `hist`, last one first. -/
def partsAfter (goal : List Tok → Bool) (hist : List Tok) (s : List Char) : List (Option Tok) := partsF goal s.length hist s

/-- The tokens and line breaks of a script. -/
def parts (goal : List Tok → Bool) (s : List Char) : List (Option Tok) := partsAfter goal [] s

/-- The tokens, each with a mark if there is a line break before it that matters according to `rule`, which looks at the tokens
before the break, last one first, and at the token after it. `nl`: there is a line break before the first one. -/
def marked (rule : List Tok → Tok → Bool) : List Tok → Bool → List (Option Tok) → List (Bool × Tok)
  | _, _, [] => []
  | hist, _, none :: r => marked rule hist true r
  | hist, nl, some t :: r => (nl && rule hist t, t) :: marked rule (t :: hist) false r

/-- A script as the syntax sees it: its tokens, and where line breaks matter. -/
def lines (rule : List Tok → Tok → Bool) (goal : List Tok → Bool) (s : List Char) : List (Bool × Tok) :=
  marked rule [] false (parts goal s)

/-- No line break is inside of a piece. -/
def steady (goal : List Tok → Bool) : List Tok → List Piece → Bool
  | _, [] => true
  | hist, p :: ps =>
    (partsAfter goal hist p.text).all Option.isSome && steady goal ((toksAfter goal hist p.text).reverse ++ hist) ps

/-- A licence of one line. -/
def oneLine : Js.Lexeme → Bool
  | .license b => !b.any lineEnd
  | _ => true

/-- A script with blanks in place of its comments. -/
def bare (ls : List Js.Lexeme) : List Js.Lexeme := ls.map fun | .comment _ => .blank ' ' | l => l

/-! ## A usual rule -/

/-- What stands before the opening `a` that belongs to a closing `b`; last one first. -/
def before (a b : List Char) : Nat → List Tok → List Tok
  | _, [] => []
  | n, t :: r =>
    if t = .punct b then before a b (n + 1) r
    else if t = .punct a then (match n with | 0 => r | n + 1 => before a b n r)
    else before a b n r

/-- Does a brace after these tokens open a block (that is not a part of an expression)? The number bounds the depth of the search. -/
def opensBlock : Nat → List Tok → Bool
  | 0, _ => false
  | n + 1, hist =>
    -- nothing, the end of a statement, or the beginning of a block
    let fresh : List Tok → Bool := fun
      | [] => true
      | .punct p :: r => p == [';'] || p == ['{'] || (p == ['}'] && opensBlock n (before ['{'] ['}'] 0 r))
      | _ => false
    fresh hist ||
    match hist with
    | .name w :: _ => (["else", "do", "try", "finally"].map String.toList).contains w
    | .punct [')'] :: r =>
      (match before ['('] [')'] 0 r with
       | .name w :: r' =>
         (["if", "for", "while", "switch", "catch", "with"].map String.toList).contains w ||
           (match r' with
            | .name f :: r'' => f == "function".toList && fresh r''
            | _ => false)
       | _ => false)
    | _ => false

/-- Can a statement, or one of the words that are followed by a restricted expression, end here? Not after an opening bracket, a comma, or an
operator with a right hand side. After a semicolon, a colon, an opening brace, or a block, a further semicolon would be an empty statement, which
is never inserted. -/
def mayEnd : List Tok → Bool
  | [] => false
  | .punct ['}'] :: r => !opensBlock (r.length + 1) (before ['{'] ['}'] 0 r)
  | .punct p :: _ => ([")", "]", "++", "--"].map String.toList).contains p
  | _ => true

/-- Can a statement begin with this token, or is a line break before it forbidden? Not with closing brackets (a closing brace ends a
statement without a line break), commas, dots, and binary operators that are not unary as well. -/
def mayBegin : Tok → Bool
  | .punct p =>
    !([";", "}", ")", "]", ",", ".", "?.", "?", ":", "=", "==", "!=", "===", "!==", "<", ">", "<=", ">=", "&&", "||", "??", "&", "|", "^", "%",
       "<<", ">>", ">>>", "**", "+=", "-=", "*=", "%=", "**=", "<<=", ">>=", ">>>=", "&=", "|=", "^=", "&&=", "||=", "??="].map
        String.toList).contains p
  | _ => true

/-- A usual rule: a line break matters if a statement can end before it and another one can begin after it. -/
def usualRule (hist : List Tok) (t : Tok) : Bool := mayEnd hist && mayBegin t

end Verif.Spec.Ecma
