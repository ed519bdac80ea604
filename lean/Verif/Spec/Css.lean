/-!
# What a CSS minifier should preserve

An independent reading of a style sheet: a list of characters is cut into items (blanks, comments, licence comments,
string literals, escaped characters, single other characters). Nothing here refers to the model of the code.
-/
namespace Verif.Spec.Css

/-- What a style sheet consists of. An escape is `chr '\\'` followed by the escaped character as a `lit`. `openStr` and `openComment` can only come last: a string or comment that is never
closed. -/
inductive Item where
  | blank
  | comment (body : List Char)
  | license (body : List Char)
  | str (text : List Char)
  | lit (c : Char)
  | chr (c : Char)
  | openStr
  | openComment
  deriving Repr, DecidableEq

def isBlank (c : Char) : Bool := c == ' ' || c == '\t' || c == '\n' || c == '\r'

/-- A comment with the given text between `/*` and `*/`: one that starts with `!` or `*` is a licence. -/
def commentItem : List Char → Item
  | [] => .comment []
  | c :: cs => if c = '!' ∨ c = '*' then .license cs else .comment (c :: cs)

/-- Where a left-to-right reading stands: in ordinary code, after a backslash, after a slash, inside a string literal with
quote `q` (text so far `acc`), after a backslash in it, inside a comment (text so far `acc`), after a star in it. -/
inductive Mode where
  | code
  | esc
  | slash
  | str (q : Char) (acc : List Char)
  | strEsc (q : Char) (acc : List Char)
  | comment (acc : List Char)
  | commentStar (acc : List Char)
  deriving Repr, DecidableEq

/-- Reading one character of ordinary code. -/
def stepCode (c : Char) : List Item × Mode :=
  if c = '\\' then ([.chr '\\'], .esc)
  else if c = '"' ∨ c = '\'' then ([], .str c [c])
  else if c = '/' then ([], .slash)
  else if isBlank c then ([.blank], .code)
  else ([.chr c], .code)

/-- Reading one character. -/
def step (m : Mode) (c : Char) : List Item × Mode :=
  match m with
  | .code => stepCode c
  | .esc => ([.lit c], .code)
  | .slash => if c = '*' then ([], .comment []) else (.chr '/' :: (stepCode c).1, (stepCode c).2)
  | .str q acc =>
    if c = '\\' then ([], .strEsc q (acc ++ [c]))
    else if c = q then ([.str (acc ++ [c])], .code)
    else ([], .str q (acc ++ [c]))
  | .strEsc q acc => ([], .str q (acc ++ [c]))
  | .comment acc => if c = '*' then ([], .commentStar acc) else ([], .comment (acc ++ [c]))
  | .commentStar acc =>
    if c = '/' then ([commentItem acc], .code)
    else if c = '*' then ([], .commentStar (acc ++ ['*']))
    else ([], .comment (acc ++ ['*', c]))

/-- What is left at the end of the text. -/
def finish : Mode → List Item
  | .code => []
  | .esc => []
  | .slash => [.chr '/']
  | .str _ _ => [.openStr]
  | .strEsc _ _ => [.openStr]
  | .comment _ => [.openComment]
  | .commentStar _ => [.openComment]

def itemsFrom (m : Mode) : List Char → List Item
  | [] => finish m
  | c :: cs => (step m c).1 ++ itemsFrom (step m c).2 cs

/-- The items of a style sheet. -/
def items (s : List Char) : List Item := itemsFrom .code s

/-- The first thing wrong with a style sheet that has `depth` blocks open and is or is not between brackets. -/
def problem (depth : Nat) (bracket : Bool) : List Item → Option String
  | [] => none
  | .openStr :: _ => some "Unclosed string"
  | .openComment :: _ => some "Unclosed comment"
  | .chr '{' :: is => problem (depth + 1) bracket is
  | .chr '}' :: is =>
    match depth with
    | 0 => some "Too much '}'"
    | d + 1 => problem d bracket is
  | .chr '[' :: is => if bracket then some "Already in attribute selector" else problem depth true is
  | .chr ']' :: is => if bracket then problem depth false is else some "Unexpected ']'"
  | _ :: is => problem depth bracket is

/-! ## Content

The solid items of a style sheet, last one first, each with the information whether blanks or ordinary comments stand
before it. -/

structure Segs where
  acc : List (Bool × Item) := []
  /-- Is there a blank or a comment after the last solid item? -/
  gap : Bool := false
  deriving Repr, DecidableEq

def push (s : Segs) : Item → Segs
  | .blank => { s with gap := true }
  | .comment _ => { s with gap := true }
  | i => { acc := (s.gap, i) :: s.acc, gap := false }

def segs (is : List Item) : Segs := is.foldl push {}

/-- The solid items, in order. -/
def solids (is : List Item) : List Item := is.filter fun
  | .blank => false
  | .comment _ => false
  | _ => true

/-- Characters that are not part of words. -/
def isPunct (c : Char) : Bool := c ∈ "'\",(){}[]:;/*+= \t\n\r>|~$^\\".toList

/-- Items that are, or end, a word, a literal or a group. -/
def closes : Item → Bool
  | .chr c => !isPunct c || c == ')' || c == ']'
  | .lit _ => true
  | .str _ => true
  | _ => false

/-- Items that are, or begin, a word, a literal, an attribute selector or a licence. -/
def opens : Item → Bool
  | .chr c => !isPunct c || c == '['
  | .str _ => true
  | .license _ => true
  | _ => false

/-- Does the list, last item first, end in a word? -/
def endsWord : List (Bool × Item) → Bool
  | (_, .chr c) :: _ => !isPunct c
  | _ => false

/-- Does the list, last item first, end in a word that begins with `@` and has at least one more character? -/
def atWord : List (Bool × Item) → Bool
  | (false, .chr c) :: (g, .chr d) :: xs =>
    !isPunct c && !isPunct d && ((d == '@' && (g || !endsWord xs)) || atWord ((g, .chr d) :: xs))
  | _ => false

/-- `ys` has the items of `xs`. A blank of `ys` is in `xs`, or follows a licence or an at-word. A blank of `xs` between two
things that it keeps apart is in `ys`. -/
def Keeps : List (Bool × Item) → List (Bool × Item) → Prop
  | [], [] => True
  | (g, x) :: xs, (g', x') :: ys =>
    x = x' ∧ (g' = true → g = true ∨ atWord xs = true ∨ ∃ g b, xs.head? = some (g, .license b)) ∧
    (g = true → (∃ h p, xs.head? = some (h, p) ∧ closes p = true) → opens x = true → g' = true) ∧ Keeps xs ys
  | _, _ => False

/-- Does `/ *=` occur: a slash, then a star that is directly followed by an equal sign? (Gluing it gives `/*=`, the
beginning of a comment.) -/
def slashStarEq : List (Bool × Item) → Bool
  | [] => false
  | (g, x) :: xs =>
    (g == false && x == .chr '=' &&
      (match xs with
       | (_, y) :: (_, z) :: _ => y == .chr '*' && z == .chr '/'
       | _ => false)) || slashStarEq xs

/-- The string literals. -/
def strings (is : List Item) : List (List Char) := is.filterMap fun
  | .str t => some t
  | _ => none

/-- The texts of the licence comments. -/
def licenses (is : List Item) : List (List Char) := is.filterMap fun
  | .license b => some b
  | _ => none

/-- The number of characters `@` outside strings, comments and escapes. -/
def atSigns (is : List Item) : Nat := is.countP (· == .chr '@')

end Verif.Spec.Css
