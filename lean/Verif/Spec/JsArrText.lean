import Verif.Spec.JsAggText
import Verif.Spec.JsAgg
/-!
# The text of a script with strings aggregated into an array

What a reader of the written script should see. Independent of the model.
-/
namespace Verif.Spec.Js
open JsAgg (content)

/-- A literal in double quotes. -/
def quoted (c : List Char) : Lexeme := .str ('"' :: (c ++ ['"']))

/-- In double quotes this is one literal. -/
def quotable (c : List Char) : Bool := closeString '"' (c ++ ['"']) == some (c ++ ['"'], [])

/-- The elements of an array. -/
def items : List (List Char) → List Lexeme
  | [] => []
  | [c] => [quoted c]
  | c :: d :: l => quoted c :: .punct [','] :: items (d :: l)

/-- More elements. -/
def moreItems (l : List (List Char)) : List Lexeme := l.flatMap fun c => [.punct [','], quoted c]

/-- `var name=["c1","c2"];`. -/
def arrayDecl (name : List Char) (N : List (List Char)) : List Lexeme :=
  .word "var".toList :: .word name :: .punct ['='] :: .punct ['['] :: (items N ++ [.punct [']'], .punct [';']])

/-- The content of a literal. -/
def literalContent : Lexeme → Option (List Char)
  | .str s => some (content s)
  | _ => none

/-- `var name=[` or `let name=[`. -/
def arrayHead (k name : List Char) : List Lexeme := [.word k, .word name, .punct ['='], .punct ['[']]

/-- The script `body` with the new elements `N` of the array `name`: nothing is new, or a declaration is put in front, or the elements
are put at the end of an array that is there and has the literals `O`. -/
inductive Extended (name : List Char) (O N : List (List Char)) (body : List Lexeme) : Bool → List Lexeme → Prop where
  | nothing : O = [] → N = [] → Extended name O N body false body
  | declared : O = [] → N ≠ [] → Extended name O N body true (arrayDecl name N ++ body)
  | added {k : List Char} {pre arr post : List Lexeme} : k = "var".toList ∨ k = "let".toList →
      body = pre ++ arrayHead k name ++ arr ++ .punct [']'] :: post → .punct [']'] ∉ arr → arr.filterMap literalContent = O →
      Extended name O N body false (pre ++ arrayHead k name ++ arr ++ (if arr = [] then items N else moreItems N) ++ .punct [']'] :: post)

/-- A lexeme and what is in its place: the same, or for a literal `name[k]`, where `k` is the index of its content. -/
def Indexed (name : List Char) (C : List (List Char)) (a : Lexeme) (p : List Lexeme) : Prop :=
  p = [a] ∨ ∃ s d k, a = .str s ∧ p = [.word name, .punct ['['], .word d, .punct [']']] ∧ d ≠ [] ∧ (∀ c ∈ d, isDigit c = true) ∧
    value d = k ∧ C[k]? = some (content s)

/-- Literals with these contents, separated by commas. -/
inductive CommaList : List Lexeme → List (List Char) → Prop where
  | nil : CommaList [] []
  | one {s : List Char} : CommaList [.str s] [content s]
  | more {s : List Char} {ls : List Lexeme} {C : List (List Char)} : C ≠ [] → CommaList ls C →
      CommaList (.str s :: .punct [','] :: ls) (content s :: C)

/-- The content of the literal is that of more than one literal. -/
def sameContent (ls : List Lexeme) (s : List Char) : Bool := decide (2 ≤ ls.countP fun l => literalContent l == some (content s))

/-- No literal whose content occurs more than once has a word, a regex or another literal before it. -/
def LooseArray (ls : List Lexeme) : Prop := looseFrom (fun _ => true) (sameContent ls) none ls = true

/-- The content of literals that occur more than once can be put in double quotes. -/
def Quotable (ls : List Lexeme) : Prop := ∀ s, .str s ∈ ls → sameContent ls s = true → quotable (content s) = true

/-- An identifier of letters, digits, `_` and `$` that is neither a keyword nor a number. -/
def identifier (w : List Char) : Bool :=
  w.head?.any (fun c => !isDigit c) &&
  w.all (fun c => c ∈ "abcdefghijklmnopqrstuvwxyzABCDEFGHIJKLMNOPQRSTUVWXYZ0123456789_$".toList) && isName w && !keywords.contains w

end Verif.Spec.Js
