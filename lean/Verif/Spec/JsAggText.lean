import Verif.Spec.JsOut
/-!
# The text of a script with aggregated strings

What a reader of the written script should see: a declaration of the new variables, and then the script with some literals
replaced by names. Independent of the model.
-/
namespace Verif.Spec.Js

/-- `n1=s1,n2=s2` for pairs of a literal and a name. -/
def assignments : List (List Char × List Char) → List Lexeme
  | [] => []
  | [(s, n)] => [.word n, .punct ['='], .str s]
  | (s, n) :: p :: l => .word n :: .punct ['='] :: .str s :: .punct [','] :: assignments (p :: l)

/-- `var n1=s1,n2=s2;`. -/
def prelude : List (List Char × List Char) → List Lexeme
  | [] => []
  | p :: l => .word "var".toList :: (assignments (p :: l) ++ [.punct [';']])

/-- The script `src` has `n=s`. -/
def Assigns (src : List Lexeme) (n s : List Char) : Prop := ∃ pre post, src = pre ++ .word n :: .punct ['='] :: .str s :: post

/-- A lexeme of `src` and the lexeme in its place: the same, or for a literal a name that `D` gives to it or that is assigned it
by `src`. -/
def Renamed (D : List (List Char × List Char)) (src : List Lexeme) (a b : Lexeme) : Prop :=
  b = a ∨ ∃ s n, a = .str s ∧ b = .word n ∧ ((s, n) ∈ D ∨ Assigns src n s)

/-- Position by position. -/
inductive Pointwise {α β : Type} (R : α → β → Prop) : List α → List β → Prop
  | nil : Pointwise R [] []
  | cons {a : α} {b : β} {l : List α} {l' : List β} : R a b → Pointwise R l l' → Pointwise R (a :: l) (b :: l')

/-- A name may be written directly after this lexeme. -/
def freeBefore : Lexeme → Bool
  | .word _ => false
  | .regex _ _ => false
  | .str _ => false
  | _ => true

/-- A name may be followed by this lexeme: a blank is written before `in` and `instanceof`. -/
def freeAfter : Lexeme → Bool
  | .word w => wordOperator w
  | _ => true

/-- No literal for which `rep` holds has a word, a regex or another literal directly before it or something else than `after`
allows directly after it. -/
def looseFrom (after : Lexeme → Bool) (rep : List Char → Bool) : Option Lexeme → List Lexeme → Bool
  | _, [] => true
  | prev, a :: ls =>
    (match a with
     | .str s => !rep s || (prev.all freeBefore && ls.head?.all after)
     | _ => true) && looseFrom after rep (some a) ls

/-- The literal occurs more than once. -/
def repeated (ls : List Lexeme) (s : List Char) : Bool := decide (2 ≤ ls.count (.str s))

/-- No literal that occurs more than once is next to a word, apart from `in` and `instanceof` behind it. -/
def Loose (ls : List Lexeme) : Prop := looseFrom freeAfter (repeated ls) none ls = true

end Verif.Spec.Js
