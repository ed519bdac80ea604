import Verif.Spec.Js
/-!
# How lexemes are spelled

The inverse direction of `Spec.Js.lex`: which texts a lexeme stands for.
-/
namespace Verif.Spec.Js

inductive Spells : Lexeme → List Char → Prop
  | word (w : List Char) : Spells (.word w) w
  | blank (c : Char) : Spells (.blank c) [c]
  | return : Spells (.blank '\n') ['\r']
  | punct (t : List Char) : Spells (.punct t) t
  | str (t : List Char) : Spells (.str t) t
  | regex (b fl : List Char) : Spells (.regex b fl) ('/' :: b ++ '/' :: fl)
  | line (b : List Char) (c : Char) : isNewline c = true → (∀ x ∈ b, isNewline x = false) → Spells (.comment b) ('/' :: '/' :: b ++ [c])
  | block (b : List Char) : closeBlock (b ++ ['*', '/']) = some (b, []) → Spells (.comment b) ('/' :: '*' :: b ++ ['*', '/'])
  | license (b : List Char) : Spells (.license b) ('/' :: '*' :: '!' :: b ++ ['*', '/'])

/-- A list of lexemes spells a text. -/
inductive SpellsAll : List Lexeme → List Char → Prop
  | nil : SpellsAll [] []
  | cons {l : Lexeme} {ls : List Lexeme} {t s : List Char} : Spells l t → SpellsAll ls s → SpellsAll (l :: ls) (t ++ s)

/-- No word directly follows another one. -/
def WordsApart (ls : List Lexeme) : Prop := ∀ p w w' q, ls ≠ p ++ .word w :: .word w' :: q

end Verif.Spec.Js
