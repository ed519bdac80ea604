import Verif.Spec.Html
import Verif.Spec.HtmlMinimal
/-!
# Blanks between the words of a tag

Words of at least two characters, some blanks before each of them and possibly before the final `>`.
-/
namespace Verif.Spec.Html

/-- A word and the blanks before it: one blank and `extra` more. -/
structure Chunk where
  extra : Nat
  first : Char
  mid : List Char
  last : Char
  deriving Repr, DecidableEq

/-- No white space, no quotes and no brackets. -/
def dense (c : Char) : Bool := !isWhitespace c && c != '"' && c != '\'' && c != '<' && c != '>'

def Chunk.Ok (w : Chunk) : Prop := dense w.first = true ∧ (∀ c ∈ w.mid, dense c = true) ∧ dense w.last = true

/-- One blank and `n` more. -/
def blanks (n : Nat) : List Char := List.replicate (n + 1) ' '

/-- What follows the character `c` in a tag: the words of `l`, and at the end `e` (if any) blanks and `>`. `f` says how many
extra blanks are written between two characters where there are so many. -/
def spread (f : Char → Nat → Char → Nat) (c : Char) (e : Option Nat) : List Chunk → List Char
  | [] => (match e with
    | none => []
    | some n => blanks (f c n '>')) ++ ['>']
  | w :: l => blanks (f c w.extra w.first) ++ w.first :: (w.mid ++ w.last :: spread f w.last e l)

/-- As many as there are. -/
def asIs (_ : Char) (n : Nat) (_ : Char) : Nat := n

/-- None between characters of the given kinds. -/
def oneBetween (p q : Char → Bool) (a : Char) (n : Nat) (b : Char) : Nat := if p a && q b then 0 else n

/-- The last character before the end. -/
def lastOf (c : Char) : List Chunk → Char
  | [] => c
  | w :: l => lastOf w.last l

/-- No gap between characters of the given kinds. -/
def NoGap (p q : Char → Bool) (c : Char) : List Chunk → Prop
  | [] => True
  | w :: l => ¬ (p c = true ∧ q w.first = true) ∧ NoGap p q w.last l

/-- The tag `<t>` is `<`, a name that ends with `c`, and the words of `l`, with blanks before them and, if `e` says so, before
the `>`. `word` says how the name of a tag begins. -/
def WordsOf (word : Char → Bool) (t m : List Char) (c : Char) (e : Option Nat) (l : List Chunk) : Prop :=
  t ++ ['>'] = m ++ c :: spread asIs c e l ∧ (∀ d ∈ m, dense d = true) ∧ dense c = true ∧ (∀ w ∈ l, w.Ok) ∧
    ∃ h, (m ++ [c]).head? = some h ∧ word h = true

/-- The gaps between characters of a kind, in order. -/
def gaps (p : Char → Bool) (c : Char) : List Chunk → List (Char × Nat × Char)
  | [] => []
  | w :: l => (if p c && p w.first then [(c, w.extra, w.first)] else []) ++ gaps p w.last l

/-- None for the given gaps. -/
def oneFor (H : List (Char × Nat × Char)) (a : Char) (n : Nat) (b : Char) : Nat := if (a, n, b) ∈ H then 0 else n

/-- None between word characters and between a digit and the end of the tag. -/
def oneBoth (word digit : Char → Bool) (a : Char) (n : Nat) (b : Char) : Nat :=
  if (word a && word b) || (digit a && b == '>') then 0 else n

/-- The last word has two characters, and the gap before it looks like the first of the gaps. -/
def Twin (p : Char → Bool) (c : Char) (l : List Chunk) : Prop :=
  ∃ a w, l = a ++ [w] ∧ w.mid = [] ∧ (gaps p c l).head? = some (lastOf c a, w.extra, w.first)

/-! ## With quotes -/

def Chunk.text (w : Chunk) : List Char := w.first :: (w.mid ++ [w.last])

/-- Begins with a name and `=`. -/
def Chunk.attr (word : Char → Bool) (w : Chunk) : Bool :=
  !(w.text.takeWhile word).isEmpty && (w.text.dropWhile word).head? == some '='

/-- No white space and no brackets; after a name and `=` there is something, and more than a quote; and `width="` and `height="`
only at the beginning, with letters, digits and `-_.` up to the quote at the end. -/
def Chunk.Fair (word : Char → Bool) (w : Chunk) : Prop :=
  (∀ c ∈ w.text, isWhitespace c = false ∧ c ≠ '<' ∧ c ≠ '>') ∧
  (∀ n r, (∀ c ∈ n, word c = true) → w.text = n ++ '=' :: r → r ≠ [] ∧ r ≠ ['"'] ∧ r ≠ ['\'']) ∧
  ∀ k, k = "width".toList ∨ k = "height".toList → ∀ a b, w.text = a ++ (k ++ '=' :: '"' :: b) →
    a = [] ∧ ∃ v, v ≠ [] ∧ (∀ c ∈ v, plainSign c = true) ∧ b = v ++ ['"']

/-- A width or height without its quotes. -/
def unquoted (t : List Char) : List Char :=
  if "width=\"".toList.isPrefixOf t || "height=\"".toList.isPrefixOf t then t.filter (· != '"') else t

/-- A width or height in quotes. -/
def Chunk.sized (w : Chunk) : Bool := "width=\"".toList.isPrefixOf w.text || "height=\"".toList.isPrefixOf w.text

/-- The word without the quotes of a width or height. -/
def Chunk.bare (w : Chunk) : Chunk :=
  if w.sized then
    { w with mid := (w.mid.filter (· != '"')).dropLast, last := ((w.mid.filter (· != '"')).getLast?).getD w.last }
  else w

/-- The word behind a width or height in quotes comes after a single blank or is an attribute, or it would not be drawn near
behind the same width or height without quotes. `p` is the end of the width or height before the words. -/
def Steady (word : Char → Bool) : Option Char → List Chunk → Prop
  | _, [] => True
  | p, w :: l => (∀ c, p = some c → word c = true → word w.first = true → w.extra = 0 ∨ w.attr word = true) ∧
    Steady word (if w.sized then some w.bare.last else none) l

/-- The words with blanks before them, widths and heights without quotes, and `>`. -/
def written (l : List Chunk) : List Char := (l.flatMap fun w => blanks w.extra ++ unquoted w.text) ++ ['>']

/-- One blank between word characters and before an attribute that comes after a quote. -/
def settled (word : Char → Bool) (c : Char) : List Chunk → List Chunk
  | [] => []
  | w :: l =>
    { w with extra := if (word c && word w.first) || ((c == '"' || c == '\'') && w.attr word) then 0 else w.extra } ::
      settled word w.last l

/-- The tag `<t>` is `<`, a name that ends with `c`, and the words of `l` with blanks before them; blanks before the `>` only
after a quote. -/
def AttrsOf (word : Char → Bool) (t m : List Char) (c : Char) (e : Option Nat) (l : List Chunk) : Prop :=
  t ++ ['>'] = m ++ c :: spread asIs c e l ∧ (∀ d ∈ m, dense d = true) ∧ dense c = true ∧ (∀ w ∈ l, w.Fair word) ∧
    (∃ h, (m ++ [c]).head? = some h ∧ word h = true) ∧ (e = none ∨ lastOf c l = '"' ∨ lastOf c l = '\'')

/-! ## With any white space -/

/-- A blank, a line break or more white space than one. -/
def Wide (g : List Char) : Prop := (∀ c ∈ g, isWhitespace c = true) ∧ (g = [' '] ∨ g = ['\n'] ∨ g = ['\r'] ∨ 2 ≤ g.length)

/-- The words, each behind its white space, and `e` before the end of the tag. -/
def strewn (e : List Char) : List (List Char × Chunk) → List Char
  | [] => e ++ ['>']
  | (g, w) :: l => g ++ (w.text ++ strewn e l)

/-- The words, each behind one blank. -/
def oneEach (l : List (List Char × Chunk)) : List Chunk := l.map fun p => { p.2 with extra := 0 }

/-- The tag `<t>` is `<`, a name that ends with `c`, and the words of `l` behind white space; white space before the `>` only
after a quote. -/
def StrewnOf (word : Char → Bool) (t m : List Char) (c : Char) (e : List Char) (l : List (List Char × Chunk)) : Prop :=
  t ++ ['>'] = m ++ c :: strewn e l ∧ (∀ d ∈ m, dense d = true) ∧ dense c = true ∧ (∀ p ∈ l, Wide p.1 ∧ p.2.Fair word) ∧
    (∃ h, (m ++ [c]).head? = some h ∧ word h = true) ∧
    (e = [] ∨ Wide e ∧ (lastOf c (l.map (·.2)) = '"' ∨ lastOf c (l.map (·.2)) = '\''))

end Verif.Spec.Html
