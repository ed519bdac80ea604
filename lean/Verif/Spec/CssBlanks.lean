import Verif.Spec.Css
/-!
# Which blanks of a style sheet stay

An independent reading of the places of a style sheet: where words are selectors, where `calc(...)` is open, and which blanks
a minifier keeps there. Lists of marks have the last item first, as in `Spec.Css.Segs`.
-/
namespace Verif.Spec.Css

/-- What stands between two solid items. -/
inductive Gap where
  | none | blank | comment
  deriving DecidableEq, Repr

abbrev Mark := Gap × Item

/-- The solid items, last one first, each with what stands before it; and what stands at the end. -/
structure Marks where
  acc : List Mark := []
  gap : Gap := .none
  deriving DecidableEq, Repr

def mark (m : Marks) : Item → Marks
  | .blank => { m with gap := if m.gap = .comment then .comment else .blank }
  | .comment _ => { m with gap := .comment }
  | i => { acc := (m.gap, i) :: m.acc, gap := .none }

def marks (is : List Item) : Marks := is.foldl mark {}

/-! ## Words -/

/-- Part of a word. -/
def isWordChr : Item → Bool
  | .chr c => !isPunct c
  | _ => false

/-- Does the list end in a word? -/
def wordEnd : List Mark → Bool
  | (_, x) :: _ => isWordChr x
  | [] => false

/-- Is the last item the character `c`? -/
def lastIs (c : Char) : List Mark → Bool
  | (_, x) :: _ => x == .chr c
  | [] => false

/-- The word at the end (empty if there is none), what stands before it, and everything before that. -/
def lastWord : List Mark → List Char × Gap × List Mark
  | [] => ([], .none, [])
  | (g, .chr c) :: xs =>
    if isPunct c then ([], .none, (g, .chr c) :: xs)
    else if g = .none ∧ wordEnd xs = true then ((lastWord xs).1 ++ [c], (lastWord xs).2)
    else ([c], g, xs)
  | x :: xs => ([], .none, x :: xs)

/-! ## Places -/

/-- Open braces, inside an at-rule, inside square brackets. -/
structure Place where
  depth : Int := 0
  at_ : Bool := false
  bracket : Bool := false
  deriving DecidableEq, Repr

/-- The place of selectors: outside of blocks, or in the block of an at-rule. -/
def Place.sel (p : Place) : Bool := !p.bracket && ((p.depth == 0 && !p.at_) || (p.at_ && p.depth == 1))

/-- A word after a colon, with nothing or just blanks in between. -/
def afterColon (g : Gap) (xs : List Mark) : Bool := lastIs ':' xs && g != .comment

/-- Is the last item an `@` that begins a word? -/
def afterAt : List Mark → Bool
  | (g, x) :: xs => x == .chr '@' && (g != .none || !wordEnd xs) && !afterColon g xs
  | [] => false

def place : List Mark → Place
  | [] => {}
  | (g, x) :: xs =>
    let p := place xs
    if x = .chr '{' then { p with depth := p.depth + 1 }
    else if x = .chr '}' then { p with depth := p.depth - 1, at_ := if p.depth - 1 = 0 then false else p.at_ }
    else if x = .chr ';' then { p with at_ := if p.depth = 0 then false else p.at_ }
    else if x = .chr '[' then { p with bracket := true }
    else if x = .chr ']' then { p with bracket := false }
    else if isWordChr x && g == .none && afterAt xs && p.sel then { p with at_ := true }
    else p

/-- Does a word start like a selector? `alpha` tells the letters. -/
def startsSel (alpha : Char → Bool) : List Char → Bool
  | [] => false
  | c :: w => if c = '.' ∨ c = '#' ∨ c = '@' then !w.isEmpty else alpha c

/-- Is the word `w`, standing after `xs` and `g`, a selector? -/
def selTok (alpha : Char → Bool) (xs : List Mark) (g : Gap) (w : List Char) : Bool :=
  (place xs).sel && (if afterColon g xs then g == .none else startsSel alpha w)

/-- Does the list end in a word that is a selector? -/
def selWord (alpha : Char → Bool) (xs : List Mark) : Bool :=
  wordEnd xs && selTok alpha (lastWord xs).2.2 (lastWord xs).2.1 (lastWord xs).1

/-- Does the list end in the name of an at-rule? -/
def mediaWord (xs : List Mark) : Bool :=
  (match (lastWord xs).1 with
   | '@' :: _ :: _ => true
   | _ => false) && (place (lastWord xs).2.2).sel && !afterColon (lastWord xs).2.1 (lastWord xs).2.2

/-! ## `calc` -/

/-- Does the list end in the word `calc`, used as a value? -/
def calcWord (alpha : Char → Bool) (xs : List Mark) : Bool := (lastWord xs).1 == ['c', 'a', 'l', 'c'] && !selWord alpha xs

/-- The parentheses open since `calc`; `none` outside. A `calc` at the very end does not count yet. -/
def calcState (alpha : Char → Bool) : List Mark → Option Int
  | [] => none
  | (g, x) :: xs =>
    let s := if (g != .none || !isWordChr x) && calcWord alpha xs then some ((calcState alpha xs).getD 0) else calcState alpha xs
    if x = .chr '(' then s.map (· + 1)
    else if x = .chr ')' then
      match s with
      | none => none
      | some d => if d - 1 = 0 then none else some (d - 1)
    else s

def calcNow (alpha : Char → Bool) (xs : List Mark) : Option Int :=
  if calcWord alpha xs then some ((calcState alpha xs).getD 0) else calcState alpha xs

/-- Inside `calc`: after the word `calc`, until the parentheses that follow are closed. -/
def inCalc (alpha : Char → Bool) (xs : List Mark) : Bool := (calcNow alpha xs).isSome

/-! ## Blanks -/

/-- Is the last item the `=` of an attribute operator such as `~=`? -/
def attrOp : List Mark → Bool
  | (g, x) :: (_, y) :: _ =>
    x == .chr '=' && (((y == .chr '~' || y == .chr '|' || y == .chr '$' || y == .chr '^') && g != .comment) || (y == .chr '*' && g == .none))
  | _ => false

def isLicense : Item → Bool
  | .license _ => true
  | _ => false

/-- Is the last item a licence? -/
def lastLicense : List Mark → Bool
  | (_, x) :: _ => isLicense x
  | [] => false

/-- The end of a word, a literal or a group, or an attribute operator. -/
def ending : List Mark → Bool
  | (g, x) :: xs => closes x || attrOp ((g, x) :: xs)
  | [] => false

/-- What a blank can be kept after. -/
def recorded (xs : List Mark) : Bool :=
  ending xs || lastIs '*' xs || lastIs '/' xs || lastIs '+' xs || lastLicense xs

/-- Does the text that follows continue a word? -/
def directWord : List Mark → Bool
  | (g, x) :: _ => g == .none && isWordChr x
  | [] => false

/-- Does `x`, followed by `r`, begin an attribute operator? -/
def opAt (x : Item) : List Mark → Bool
  | (g, y) :: _ => attrOp [(g, y), (.none, x)]
  | [] => false

/-- Does `x`, followed by `r`, begin a pseudo-class? -/
def pseudoAt (xs : List Mark) (x : Item) (r : List Mark) : Bool := x == .chr ':' && directWord r && (place xs).sel

/-- Does `x`, followed by `r`, begin a selector? -/
def selAt (alpha : Char → Bool) (xs : List Mark) (x : Item) (r : List Mark) : Bool :=
  (match x with
   | .chr c => !isPunct c && (place xs).sel && (if c = '.' ∨ c = '#' ∨ c = '@' then directWord r else alpha c)
   | _ => false) || pseudoAt xs x r

/-- Is a blank between `xs` and `x`, followed by `r`, kept? -/
def keepRule (alpha : Char → Bool) (xs : List Mark) (x : Item) (r : List Mark) : Bool :=
  recorded xs &&
    (if lastIs ']' xs then x != .chr '{'
     else if inCalc alpha xs then true
     else if lastIs '*' xs then x == .chr '=' || selAt alpha xs x r
     else if lastIs '/' xs then x == .chr '*' && !opAt x r
     else if lastIs '+' xs || lastLicense xs then false
     else
      (selWord alpha xs && x == .chr '*' && !opAt x r) ||
      (!mediaWord xs && (opens x || pseudoAt xs x r || opAt x r)) ||
      (x == .chr '(' && !selWord alpha xs && (wordEnd xs || (match xs with | (_, .lit _) :: _ => true | _ => false))))

/-- Is a blank at the very end kept? -/
def tailRule (alpha : Char → Bool) (xs : List Mark) : Bool :=
  recorded xs &&
    (lastIs ']' xs || inCalc alpha xs || !(lastIs '*' xs || lastIs '/' xs || lastIs '+' xs || lastLicense xs || mediaWord xs))

/-- Is something printed between `xs` and `x` in any case: after a licence, and after the name of an at-rule? -/
def autoGap (xs : List Mark) (g : Gap) (x : Item) : Bool :=
  lastLicense xs || (mediaWord xs && !(g == .none && isWordChr x))

/-- Outside of `calc`, after a licence, the name of an at-rule or a special character that ends no group: comments count as
blanks here. -/
def quiet (alpha : Char → Bool) (xs : List Mark) : Bool :=
  !inCalc alpha xs && (lastLicense xs || mediaWord xs ||
    (match xs with
     | (_, .chr c) :: _ => isPunct c && c != ')' && c != ']' && !attrOp xs
     | _ => false))

/-- Are `xs` and `x` the two halves of an attribute operator? -/
def splitOp (xs : List Mark) (x : Item) : Bool :=
  x == .chr '=' && (lastIs '~' xs || lastIs '|' xs || lastIs '$' xs || lastIs '^' xs)

/-- `ks` tells which gaps of the marks are kept; `r` follows the marks. A comment counts as a blank where blanks are kept and
in quiet places, and may be replaced by a blank elsewhere. -/
def Cleaned (alpha : Char → Bool) : List Mark → List Mark → List Bool → Prop
  | _, [], [] => True
  | r, (g, x) :: xs, k :: ks =>
    (g = .none → k = false) ∧ (g = .blank → k = keepRule alpha xs x r) ∧
      (g = .comment → (keepRule alpha xs x r = true → k = true) ∧
        (quiet alpha xs = true → splitOp xs x = false → k = keepRule alpha xs x r)) ∧
      Cleaned alpha ((g, x) :: r) xs ks
  | _, _, _ => False

def CleanedTail (alpha : Char → Bool) (m : Marks) (k : Bool) : Prop :=
  (m.gap = .none → k = false) ∧ (m.gap = .blank → k = tailRule alpha m.acc) ∧
    (m.gap = .comment → (tailRule alpha m.acc = true → k = true) ∧ (quiet alpha m.acc = true → k = tailRule alpha m.acc))

/-- Two lists with the same items; `P` holds at every item `x`: `xs` and the gap `g` stand before it in the first list, `r`
follows it there, and `g'` is its gap in the second list. -/
def Sites (P : List Mark → Gap → Item → List Mark → Gap → Prop) : List Mark → List Mark → List Mark → Prop
  | _, [], [] => True
  | r, (g, x) :: xs, (g', y) :: ys => y = x ∧ P xs g x r g' ∧ Sites P ((g, x) :: r) xs ys
  | _, _, _ => False

/-- The gaps where `P` holds are kept. -/
def KeptIn (P : List Mark → Gap → Item → Prop) : List Mark → List Bool → Prop
  | [], [] => True
  | (g, x) :: xs, k :: ks => (P xs g x → k = true) ∧ KeptIn P xs ks
  | _, _ => False

/-- Parentheses opened minus parentheses closed. -/
def parens : List Mark → Int
  | [] => 0
  | (_, x) :: xs => (if x = .chr '(' then 1 else if x = .chr ')' then -1 else 0) + parens xs

/-- Does the list end in a compound selector: in a selector word, an attribute, a parenthesis or `*`? -/
def compoundEnd (alpha : Char → Bool) (xs : List Mark) : Bool :=
  (place xs).sel && (selWord alpha xs || lastIs ']' xs || lastIs ')' xs || lastIs '*' xs)

/-- Does `x`, followed by `r`, begin a compound selector: a selector word, a pseudo-class, an attribute or `*`? -/
def compoundStart (alpha : Char → Bool) (xs : List Mark) (x : Item) (r : List Mark) : Bool :=
  selAt alpha xs x r || x == .chr '[' || x == .chr ':' || (x == .chr '*' && !opAt x r)

/-- The marks that are left. -/
def outMarks : List Mark → List Bool → List Mark
  | (g, x) :: xs, k :: ks => (if k || autoGap xs g x then .blank else .none, x) :: outMarks xs ks
  | _, _ => []

def itemText : Item → List Char
  | .chr c => [c]
  | .lit c => [c]
  | .str t => t
  | .license b => '/' :: '*' :: '!' :: b ++ ['*', '/']
  | _ => []

/-- What is printed in any case between `xs` and the next item; `cont`: the next item continues the word. -/
def autoText (xs : List Mark) (cont : Bool) : List Char :=
  if lastLicense xs then ['\n'] else if mediaWord xs && !cont then [' '] else []

/-- The text of the marks with the gaps `ks`. -/
def text : List Mark → List Bool → List Char
  | (g, x) :: xs, k :: ks =>
    text xs ks ++ autoText xs (g == .none && isWordChr x) ++ (if k then [' '] else []) ++ itemText x
  | _, _ => []

/-! ## Stable style sheets -/

/-- Does the list end in a word that follows `: ` where selectors are expected? (Gluing it makes it a pseudo-class.) -/
def colonWord (xs : List Mark) : Bool :=
  wordEnd xs && (lastWord xs).2.1 == .blank && lastIs ':' (lastWord xs).2.2 && (place (lastWord xs).2.2).sel

/-- There are no ordinary comments; a word glued to a colon is not `calc`, nor followed by a blank and a parenthesis; the name of
an at-rule is not directly followed by `*`; and neither a licence nor the name of an at-rule stands inside `calc` with nothing after
it. -/
def stable (alpha : Char → Bool) : List Mark → List Mark → Bool
  | _, [] => true
  | r, (g, x) :: xs =>
    g != .comment &&
    !(colonWord xs && g == .blank && x == .chr '(') &&
    !(colonWord xs && (g != .none || !isWordChr x) && (lastWord xs).1 == ['c', 'a', 'l', 'c']) &&
    !(g == .none && autoGap xs g x && (inCalc alpha xs || (mediaWord xs && x == .chr '*' && !opAt x r))) &&
    stable alpha ((g, x) :: r) xs

/-- The same at the end. -/
def stableTail (alpha : Char → Bool) (m : Marks) : Bool :=
  m.gap != .comment && !(colonWord m.acc && (lastWord m.acc).1 == ['c', 'a', 'l', 'c']) &&
  !(m.gap == .none && (lastLicense m.acc || mediaWord m.acc) && inCalc alpha m.acc)

/-! ## Comments that could be blanks -/

def plainGap : Gap → Gap
  | .comment => .blank
  | g => g

/-- Blanks in place of ordinary comments. -/
def uncomment (xs : List Mark) : List Mark := xs.map fun m => (plainGap m.1, m.2)

/-- No ordinary comment stands after a colon where selectors are expected, or between the halves of an attribute operator. -/
def mild : List Mark → Bool
  | [] => true
  | (g, x) :: xs => (g != .comment || (!(lastIs ':' xs && (place xs).sel) && !splitOp xs x)) && mild xs

/-- Furthermore, ordinary comments stand only where blanks are kept, and in quiet places. -/
def calm (alpha : Char → Bool) : List Mark → List Mark → Bool
  | _, [] => true
  | r, (g, x) :: xs =>
    (g != .comment || (!(lastIs ':' xs && (place xs).sel) && !splitOp xs x && (keepRule alpha xs x r || quiet alpha xs))) &&
      calm alpha ((g, x) :: r) xs

/-- The same at the end. -/
def calmTail (alpha : Char → Bool) (m : Marks) : Bool := m.gap != .comment || tailRule alpha m.acc || quiet alpha m.acc

end Verif.Spec.Css
