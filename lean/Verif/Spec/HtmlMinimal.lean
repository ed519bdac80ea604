import Verif.Spec.HtmlPage
/-!
# Pages in which nothing is left to be done
-/
namespace Verif.Spec.Html

/-- A tag of a text: there is no `<` before it, or none after the last `>` before it. -/
def TagOf (s t : List Char) : Prop :=
  ∃ a w b, s = a ++ w ++ '<' :: t ++ '>' :: b ∧ (a = [] ∨ ∃ x, a = x ++ ['>']) ∧ '<' ∉ w ∧ '<' ∉ t ∧ '>' ∉ t

/-- A start tag in one line. -/
def StartOf (s t : List Char) : Prop := TagOf s t ∧ '\n' ∉ t ∧ ∃ c u, t = c :: u ∧ c.isAlpha = true

/-- Read from left to right, all comments are as asked. -/
inductive AllComments (ok : List Char → Prop) : List Char → Prop
  | nil : AllComments ok []
  | char {c : Char} {s : List Char} : (∀ body rest, ¬ CommentAt (c :: s) body rest) → AllComments ok s → AllComments ok (c :: s)
  | comment {s body rest : List Char} : CommentAt s body rest → ok body → AllComments ok rest → AllComments ok s

/-- A value that needs no quotes. -/
def plainSign (c : Char) : Bool := c.isAlphanum || c == '-' || c == '_' || c == '.'

/-- Nothing is left of what the minifier is to remove. -/
structure Minimal (s : List Char) : Prop where
  /-- No white space at the ends of the page. -/
  trimmed : Trimmed s
  /-- No comments but conditional ones. -/
  comments : AllComments Conditional s
  /-- No tags that can be left out. -/
  listed : ∀ a t b, Listed t → s ≠ a ++ t ++ b
  /-- Without preformatted text, no line breaks and no white space of two or more characters. -/
  single : ¬ Mentions "<pre".toList s → ¬ Mentions "<textarea".toList s → '\r' ∉ s ∧ '\n' ∉ s ∧ Apart s
  /-- No white space between a quote and the end of a tag. -/
  closed : ∀ t a q w, StartOf s t → t = a ++ q :: w → q = '"' ∨ q = '\'' → (∀ c ∈ w, isWhitespace c = true) → w = []
  /-- No white space of two or more characters between a quote and the name of an attribute. -/
  named : ∀ t a q w n b, StartOf s t → t = a ++ q :: (w ++ n ++ '=' :: b) → q = '"' ∨ q = '\'' →
    (∀ c ∈ w, isWhitespace c = true) → n ≠ [] → (∀ c ∈ n, c.isAlphanum = true) → w.length ≤ 1
  /-- No quotes around a width or height that does not need them. -/
  sized : ∀ t a d k v b, StartOf s t → t = a ++ d :: (k ++ "=\"".toList ++ v ++ '"' :: b) → isWhitespace d = true →
    (k = "width".toList ∨ k = "height".toList) → v ≠ [] → ∃ c ∈ v, plainSign c = false
  /-- No type in a `style` or `script` tag. -/
  typed : ∀ t n d a c v b, StartOf s t → (n = "style".toList ∨ n = "script".toList) → isWhitespace d = true → c.isAlphanum = true →
    t ≠ n ++ d :: (a ++ "type=\"".toList ++ c :: (v ++ '"' :: b))

end Verif.Spec.Html
