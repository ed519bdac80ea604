import Verif.Model.Css
/-!
# What the passes of the HTML minifier are to do

Nothing here refers to the model, except for the table of white space characters.
-/
namespace Verif.Spec.Html

/-! ## Comments -/

/-- A text starts with a comment: `<!--`, the body, and the first `-->` after that. -/
def CommentAt (s body rest : List Char) : Prop :=
  s = "<!--".toList ++ body ++ "-->".toList ++ rest ∧
  ∀ u v, body ++ "-->".toList = u ++ "-->".toList ++ v → v = []

/-- Every comment, from left to right, is replaced by one blank or kept; everything else stays. -/
inductive Comments (keep : List Char → Prop) : List Char → List Char → Prop
  | nil : Comments keep [] []
  | char {c : Char} {s o : List Char} : (∀ body rest, ¬ CommentAt (c :: s) body rest) → Comments keep s o →
      Comments keep (c :: s) (c :: o)
  | drop {s body rest o : List Char} : CommentAt s body rest → ¬ keep body → Comments keep rest o →
      Comments keep s (' ' :: o)
  | keep {s body rest o : List Char} : CommentAt s body rest → keep body → Comments keep rest o →
      Comments keep s ("<!--".toList ++ body ++ "-->".toList ++ o)

/-- The body of a comment that the program keeps: a `[` after blanks and repetitions of `<!--`. -/
inductive Conditional : List Char → Prop
  | here {s : List Char} : Conditional ('[' :: s)
  | blank {c : Char} {s : List Char} : isWhitespace c = true → Conditional s → Conditional (c :: s)
  | again {s : List Char} : Conditional s → Conditional ("<!--".toList ++ s)

/-! ## White space -/

/-- A text is cut into its solid characters and the gaps between them (longest runs of white space, which may be empty); every
gap is replaced by what `g` makes of the character before, the gap itself and the character after. -/
inductive Gaps (g : Option Char → List Char → Option Char → List Char) : Option Char → List Char → List Char → Prop
  | last {prev : Option Char} {w : List Char} : (∀ c ∈ w, isWhitespace c = true) → Gaps g prev w (g prev w none)
  | next {prev : Option Char} {w s o : List Char} {c : Char} : (∀ c ∈ w, isWhitespace c = true) → isWhitespace c = false →
      Gaps g (some c) s o → Gaps g prev (w ++ c :: s) (g prev w (some c) ++ c :: o)

/-- A gap between two tags, a gap of two or more characters and a line break become one blank. -/
def squeeze (prev : Option Char) (w : List Char) (next : Option Char) : List Char :=
  if w = [] then []
  else if (prev = some '>' ∧ next = some '<') ∨ 2 ≤ w.length ∨ w = ['\r'] ∨ w = ['\n'] then [' ']
  else w

/-- Two neighbours are not both white space. -/
def Apart (s : List Char) : Prop := ∀ a x y b, s = a ++ x :: y :: b → ¬ (isWhitespace x = true ∧ isWhitespace y = true)

/-- Case-insensitive (ASCII) occurrence of a lower case word. -/
def Mentions (word s : List Char) : Prop := ∃ a m b, s = a ++ m ++ b ∧ m.map Char.toLower = word

/-! ## Tags -/

/-- The tags that are to go. -/
def listed : List String :=
  ["</area>", "</base>", "<body>", "</body>", "</br>", "</col>", "</colgroup>", "</dd>", "</dt>", "<head>", "</head>", "</hr>",
    "<html>", "</html>", "</img>", "</input>", "</li>", "</link>", "</meta>", "</option>", "</param>", "<tbody>", "</tbody>",
    "</td>", "</tfoot>", "</th>", "</thead>", "</tr>", "</basefont>", "</isindex>"]

def Listed (t : List Char) : Prop := ∃ s ∈ listed, t = s.toList

/-- After a `<`, a character with which no tag begins: white space and most ASCII signs. -/
def dull (c : Char) : Bool := isWhitespace c || "\"#$%&'()*+,-.:;=@[\\]^`{|}~".toList.contains c

/-- After a `<`: that was not the beginning of a tag, as in `a < b`, `a <= b` and `a << b`. -/
def stray : List Char → Bool
  | [] => false
  | c :: s => if c = '<' then stray s else dull c

/-- The inside of a tag does not begin with a dull character. -/
def Sharp (t : List Char) : Prop := ∀ c u, t = c :: u → dull c = false

/-- After a `<` with which a tag may begin there is no further such `<` before a `>`. -/
def Flat (s : List Char) : Prop :=
  ∀ a u b, s = a ++ '<' :: u ++ '<' :: b → stray (u ++ '<' :: b) = false → stray b = false → '>' ∈ u

/-- Listed tags are cut out one after the other. -/
inductive Removal : List Char → List Char → Prop
  | refl {s : List Char} : Removal s s
  | step {a t b o : List Char} : Listed t → Removal (a ++ b) o → Removal (a ++ t ++ b) o

/-- The text is read from left to right, and every tag that is to go is left out. -/
inductive Without (gone : List Char → Prop) : List Char → List Char → Prop
  | nil : Without gone [] []
  | char {c : Char} {s o : List Char} : (∀ t u, gone t → c :: s ≠ t ++ u) → Without gone s o → Without gone (c :: s) (c :: o)
  | tag {t s o : List Char} : gone t → Without gone s o → Without gone (t ++ s) o

/-! ## What is kept -/

/-- The characters that are not white space. -/
def ink (s : List Char) : List Char := s.filter fun c => !isWhitespace c

/-- Size in bytes. -/
def bytes (s : List Char) : Nat := (s.map Char.utf8Size).sum

/-- No white space at either end. -/
def Trimmed (s : List Char) : Prop :=
  (∀ c, s.head? = some c → isWhitespace c = false) ∧ (∀ c, s.getLast? = some c → isWhitespace c = false)

end Verif.Spec.Html
