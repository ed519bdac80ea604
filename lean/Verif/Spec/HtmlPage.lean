import Verif.Spec.Html
import Verif.Spec.HtmlTag
/-!
# Pages made of texts, tags and comments
-/
namespace Verif.Spec.Html

inductive Seg where
  | text (t : List Char)
  /-- `<` `t` `>` -/
  | tag (t : List Char)
  /-- `<!--` `b` `-->` -/
  | comment (b : List Char)

def Seg.show : Seg → List Char
  | .text t => t
  | .tag t => '<' :: t ++ ['>']
  | .comment b => "<!--".toList ++ b ++ "-->".toList

def render (P : List Seg) : List Char := P.flatMap Seg.show

/-- No tag begins in the text: every `<` is like those of `a < b`, `a <= b` and `a << b`, and something other than white space
follows. -/
def Tagless (t : List Char) : Prop :=
  ∀ a b, t = a ++ '<' :: b → stray b = true ∧ ∃ c ∈ b, isWhitespace c = false

/-- No tag begins in a text, a tag has neither `<` nor `>` inside and does not begin like a comment, and a comment ends at the
first `-->`. -/
def Seg.Ok : Seg → Prop
  | .text t => Tagless t
  | .tag t => '<' ∉ t ∧ '>' ∉ t ∧ Sharp t ∧ ∀ u, t ≠ "!--".toList ++ u
  | .comment b => ∀ u v, b ++ "-->".toList = u ++ "-->".toList ++ v → v = []

/-- Texts and tags that together are one conditional comment, such as `<!--[if IE]>`, `<p>`, `a` and `<![endif]-->`. -/
def Block (C : List Seg) : Prop :=
  (∀ x ∈ C, match x with
    | .text t => Tagless t
    | .tag t => '<' ∉ t ∧ '>' ∉ t ∧ Sharp t
    | .comment _ => False) ∧
  ∃ b, render C = (Seg.comment b).show ∧ (Seg.comment b).Ok ∧ Conditional b

/-- A page in which a comment is either one that goes or a block that stays. -/
inductive Page : List Seg → Prop
  | nil : Page []
  | seg {x : Seg} {P : List Seg} : x.Ok → (∀ b, x = .comment b → ¬ Conditional b) → Page P → Page (x :: P)
  | block {C P : List Seg} : Block C → Page P → Page (C ++ P)

/-- A tag that begins like a comment begins like a conditional one. -/
def Opens (t : List Char) : Prop :=
  ∀ u, t = "!--".toList ++ u → ∃ w v, u = w ++ '[' :: v ∧ ∀ c ∈ w, isWhitespace c = true

/-- The text outside of tags and comments. -/
def outside (P : List Seg) : List Char :=
  P.flatMap fun
    | .text t => t
    | _ => []

/-- The same, with a blank for every comment. -/
def shown (P : List Seg) : List Char :=
  P.flatMap fun
    | .text t => t
    | .tag _ => []
    | .comment _ => [' ']

/-- The text outside of tags, of a page without comments; first argument: inside of a tag? -/
def bare : Bool → List Char → List Char
  | _, [] => []
  | false, c :: s => if c = '<' ∧ stray s = false then bare true s else c :: bare false s
  | true, c :: s => if c = '>' then bare false s else bare true s

/-- The tag makes the program leave the white space of the page alone. -/
def Pre (t : List Char) : Prop := ∃ n m u, (n = "pre".toList ∨ n = "textarea".toList) ∧ t = m ++ u ∧ m.map Char.toLower = n

/-- Begins like a `style` or `script` tag. -/
def Styled (t : List Char) : Prop := ∃ u, t = "style".toList ++ u ∨ t = "script".toList ++ u

/-- A tag whose attributes the program keeps. -/
def Kept (t : List Char) : Prop :=
  Tame Reader.init ('<' :: t ++ ['>']) ∧ (Styled t → TypeSafe Reader.init ('<' :: t ++ ['>']))

/-- A browser reads `t'` like `t`, but for attributes called `type` of `style` and `script` tags. -/
def ReadsAs (t t' : List Char) : Prop :=
  (¬ Styled t → readTag ('<' :: t' ++ ['>']) = readTag ('<' :: t ++ ['>'])) ∧
  ∀ n as b, readTag ('<' :: t ++ ['>']) = some (n, as, b) →
    ∃ bs b', readTag ('<' :: t' ++ ['>']) = some (n, bs, b') ∧ Untyped as bs

/-- An end tag, a declaration or the beginning of a comment. -/
def NotStart (t : List Char) : Prop := ∃ c u, t = c :: u ∧ (c = '/' ∨ c = '!' ∨ c = '?')

/-- White space as it shows: every run of white space is one blank; first argument: after white space? -/
def collapse : Bool → List Char → List Char
  | _, [] => []
  | p, c :: s =>
    if isWhitespace c then if p then collapse true s else ' ' :: collapse true s
    else c :: collapse false s

/-- Some gaps are one blank instead; nothing else is changed. -/
inductive Soft : List Char → List Char → Prop
  | nil : Soft [] []
  | char {s o : List Char} (c : Char) : Soft s o → Soft (c :: s) (c :: o)
  | gap {w s o : List Char} : w ≠ [] → (∀ c ∈ w, isWhitespace c = true) → Soft s o → Soft (w ++ s) (' ' :: o)

/-- The text before the first tag, and every tag with the text after it; a comment counts as a blank. -/
def pieces : List Seg → List Char × List (List Char × List Char)
  | [] => ([], [])
  | .text t :: P => (t ++ (pieces P).1, (pieces P).2)
  | .comment _ :: P => (' ' :: (pieces P).1, (pieces P).2)
  | .tag t :: P => ([], (t, (pieces P).1) :: (pieces P).2)

/-- The same tags, up to `R`, one by one. -/
inductive Pairs (R : List Char → List Char → Prop) : List (List Char × List Char) → List (List Char × List Char) → Prop
  | nil : Pairs R [] []
  | cons {t t' x x' : List Char} {l l' : List (List Char × List Char)} : R t t' → Soft x x' →
      Pairs R l l' → Pairs R ((t, x) :: l) ((t', x') :: l')

/-- The same tags, up to `R`, and between them the same text, but for gaps that are one blank instead. -/
def Alike (R : List Char → List Char → Prop) (P Q : List Seg) : Prop :=
  Soft (pieces P).1 (pieces Q).1 ∧ Pairs R (pieces P).2 (pieces Q).2

/-- The tags of a page. -/
def tags (P : List Seg) : List (List Char) :=
  P.filterMap fun
    | .tag t => some t
    | _ => none

/-- `Q` is `P` with every comment replaced by a blank, the listed tags left out and every other tag changed according to `R`. -/
inductive Rewritten (R : List Char → List Char → Prop) : List Seg → List Seg → Prop
  | nil : Rewritten R [] []
  | text {t : List Char} {P Q : List Seg} : Rewritten R P Q → Rewritten R (.text t :: P) (.text t :: Q)
  | comment {b : List Char} {P Q : List Seg} : Rewritten R P Q → Rewritten R (.comment b :: P) (.text [' '] :: Q)
  | drop {t : List Char} {P Q : List Seg} : Listed ('<' :: t ++ ['>']) → Rewritten R P Q → Rewritten R (.tag t :: P) Q
  | tag {t t' : List Char} {P Q : List Seg} : ¬ Listed ('<' :: t ++ ['>']) → R t t' → Rewritten R P Q →
      Rewritten R (.tag t :: P) (.tag t' :: Q)

end Verif.Spec.Html
