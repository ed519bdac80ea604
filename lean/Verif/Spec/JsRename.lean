import Verif.Spec.JsArrText
/-!
# Scripts with renamed words

What it means to give other names to words of a script, see C90.
-/
namespace Verif.Spec.Js

/-- Some words get another name, the other lexemes stay. -/
def rename (r : List Char → Option (List Char)) : Lexeme → Lexeme
  | .word w => .word ((r w).getD w)
  | l => l

/-- Only names and keywords are renamed, and every new name is an identifier. -/
def Names (r : List Char → Option (List Char)) : Prop := ∀ w n, r w = some n → isName w = true ∧ identifier n = true

/-- Only names and keywords are renamed, `in` and `instanceof` are not, and every new name is an identifier. -/
def Renames (r : List Char → Option (List Char)) : Prop :=
  ∀ w n, r w = some n → isName w = true ∧ wordOperator w = false ∧ identifier n = true

/-- Does the new name of a word that follows a regex look like a flag of it? -/
def flagged (r : List Char → Option (List Char)) : Lexeme → List Lexeme → Bool
  | .regex _ _, .word w :: _ => (r w).any fun n => n.head?.any isFlag
  | _, _ => false

/-- No new name looks like a flag of a regex. -/
def unflagged (r : List Char → Option (List Char)) : List Lexeme → Bool
  | [] => true
  | a :: ls => !flagged r a ls && unflagged r ls

end Verif.Spec.Js
