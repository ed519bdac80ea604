import Verif.Spec.HtmlPage
import Verif.Spec.HtmlMinimal
/-!
# What becomes of a tag
-/
namespace Verif.Spec.Html

/-- White space other than blanks and line breaks is next to other white space. -/
def Mingled (t : List Char) : Prop := ∀ a x b, t = a ++ x :: b → isWhitespace x = true →
  x = ' ' ∨ x = '\n' ∨ x = '\r' ∨ (∃ y, a.getLast? = some y ∧ isWhitespace y = true) ∨ ∃ y, b.head? = some y ∧ isWhitespace y = true

/-- Without a white space character behind a quote at the end. -/
def snug (t : List Char) : List Char :=
  match t.reverse with
  | x :: q :: r => if isWhitespace x = true ∧ (q = '"' ∨ q = '\'') then (q :: r).reverse else t
  | _ => t

/-- A name of letters, `=`, and letters, digits and `-_.` in double quotes. -/
def Quoted (k v : List Char) : Prop :=
  (k ≠ [] ∧ ∀ c ∈ k, c.isAlpha = true) ∧ v ≠ [] ∧ ∀ c ∈ v, plainSign c = true

/-- From left to right, the widths and heights lose the quotes, other attributes in quotes and everything else stay. -/
inductive Unquotes : List Char → List Char → Prop
  | nil : Unquotes [] []
  | skip {c : Char} {s o : List Char} : (∀ k v u, Quoted k v → c :: s ≠ k ++ '=' :: '"' :: (v ++ '"' :: u)) → Unquotes s o →
      Unquotes (c :: s) (c :: o)
  | attr {k v s o : List Char} : Quoted k v → Unquotes s o →
      Unquotes (k ++ '=' :: '"' :: (v ++ '"' :: s))
        ((if k = "width".toList ∨ k = "height".toList then k ++ '=' :: v else k ++ '=' :: '"' :: (v ++ ['"'])) ++ o)

/-! ## A whole page -/

/-- As `Gaps`, for a text that is followed by `next`. -/
inductive GapsTo (g : Option Char → List Char → Option Char → List Char) (next : Option Char) : Option Char → List Char → List Char → Prop
  | last {prev : Option Char} {w : List Char} : (∀ c ∈ w, isWhitespace c = true) → GapsTo g next prev w (g prev w next)
  | next {prev : Option Char} {w s o : List Char} {c : Char} : (∀ c ∈ w, isWhitespace c = true) → isWhitespace c = false →
      GapsTo g next (some c) s o → GapsTo g next prev (w ++ c :: s) (g prev w (some c) ++ c :: o)

/-- The character after a text: a tag or the end. -/
def upTo (l : List (List Char × List Char)) : Option Char := if l = [] then none else some '<'

/-- The same tags, up to `R`, and behind them the texts with their gaps squeezed. -/
inductive Squeezed (R : List Char → List Char → Prop) : List (List Char × List Char) → List (List Char × List Char) → Prop
  | nil : Squeezed R [] []
  | cons {t t' x x' : List Char} {l l' : List (List Char × List Char)} : R t t' → GapsTo squeeze (upTo l) (some '>') x x' →
      Squeezed R l l' → Squeezed R ((t, x) :: l) ((t', x') :: l')

/-- What becomes of a tag: its gaps are squeezed; in a start tag, white space between a quote and the end goes, and widths and heights
lose their quotes. -/
def Tidied (word : Char → Bool) (t t' : List Char) : Prop :=
  ∃ t2, GapsTo squeeze (some '>') (some '<') t t2 ∧
    ((∃ h, t.head? = some h ∧ word h = true) → Unquotes (snug ('<' :: t2) ++ ['>']) ('<' :: t' ++ ['>'])) ∧ (NotStart t → t' = t2)

/-! ## Styles and scripts -/

/-- A word character, `|` or white space. -/
def wordish (word : Char → Bool) (c : Char) : Bool := word c || c == '|' || isWhitespace c

/-- `<t>` is a tag of a style or script, with something behind the name and in one line. -/
def StyleTag (word : Char → Bool) (t : List Char) : Prop :=
  ∃ w c u, (w = "style".toList ∨ w = "script".toList) ∧ t = w ++ c :: u ∧ wordish word c = true ∧ '\n' ∉ u

/-- White space `w`, and `type="`, `c` and `v` up to the next quote. -/
def TypeIs (word : Char → Bool) (w : List Char) (c : Char) (v : List Char) : Prop :=
  (∀ x ∈ w, isWhitespace x = true) ∧ wordish word c = true ∧ '"' ∉ v ∧ '\n' ∉ v

/-- From left to right, the types are removed with the white space before them. -/
inductive Untypes (word : Char → Bool) : List Char → List Char → Prop
  | nil : Untypes word [] []
  | skip {d : Char} {s o : List Char} : (∀ w c v u, TypeIs word w c v → d :: s ≠ w ++ ("type=\"".toList ++ c :: (v ++ '"' :: u))) →
      Untypes word s o → Untypes word (d :: s) (d :: o)
  | type {w v s o : List Char} {c : Char} : TypeIs word w c v → Untypes word s o →
      Untypes word (w ++ ("type=\"".toList ++ c :: (v ++ '"' :: s))) o

/-- What becomes of any tag. -/
def Cleaned (word : Char → Bool) (t t' : List Char) : Prop :=
  ∃ t1, ((StyleTag word t ∧ Untypes word ('<' :: t ++ ['>']) ('<' :: t1 ++ ['>'])) ∨ (¬ StyleTag word t ∧ t1 = t)) ∧ Tidied word t1 t'

/-- What becomes of a tag on a page with preformatted text, if there is no wide gap in it; a tag with a line break stays. -/
def Brushed (word : Char → Bool) (t t' : List Char) : Prop :=
  ∃ t1, ((StyleTag word t ∧ Untypes word ('<' :: t ++ ['>']) ('<' :: t1 ++ ['>'])) ∨ (¬ StyleTag word t ∧ t1 = t)) ∧
    ((∃ h, t1.head? = some h ∧ word h = true) → '\n' ∉ t1 → Unquotes (snug ('<' :: t1) ++ ['>']) ('<' :: t' ++ ['>'])) ∧
    (NotStart t1 ∨ '\n' ∈ t1 → t' = t1)

end Verif.Spec.Html
