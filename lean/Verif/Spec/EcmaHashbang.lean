import Verif.Spec.Ecma
/-!
# Hashbang comments

ECMA-262 (2023), 12.5: a script may begin with a comment that is introduced by `#!` and ends with the line.
-/
namespace Verif.Spec.Ecma

/-- Does the script begin with a hashbang comment? -/
def Hashbang (s : List Char) : Prop := ∃ r, s = '#' :: '!' :: r

/-- The script without the hashbang comment. -/
def code : List Char → List Char
  | '#' :: '!' :: r => (afterLine r).getD []
  | s => s

end Verif.Spec.Ecma
