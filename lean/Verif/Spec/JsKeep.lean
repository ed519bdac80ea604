import Verif.Spec.JsOut
/-!
# The text of a script that keeps some of its blanks

What a reader of the written script should see. Independent of the model.
-/
namespace Verif.Spec.Js

/-- A lexeme that matters, or a blank that `keep` asks for. -/
def wanted (keep : Char → Bool) : Lexeme → Bool
  | .blank c => keep c
  | l => solid l

/-- The script with the blanks that `keep` asks for. -/
def layout (keep : Char → Bool) (ls : List Lexeme) : List Lexeme := ls.filter (wanted keep)

/-- The second script is the first one without some of its semicolons: of those that come first (the flag: nothing has been read yet), of
those directly before a closing brace, and the last lexeme. -/
inductive Trimmed : Bool → List Lexeme → List Lexeme → Prop
  | nil {z : Bool} : Trimmed z [] []
  | keep {z : Bool} {l : Lexeme} {a b : List Lexeme} : Trimmed false a b → Trimmed z (l :: a) (l :: b)
  | first {a b : List Lexeme} : Trimmed true a b → Trimmed true (.punct [';'] :: a) b
  | brace {z : Bool} {a b : List Lexeme} : Trimmed false a b → Trimmed z (.punct [';'] :: .punct ['}'] :: a) (.punct ['}'] :: b)
  | last {z : Bool} : Trimmed z [.punct [';']] []

/-- The second list is the first one with some blanks put in. -/
inductive Padded : List Lexeme → List Lexeme → Prop
  | nil : Padded [] []
  | same {l : Lexeme} {a b : List Lexeme} : Padded a b → Padded (l :: a) (l :: b)
  | blank {a b : List Lexeme} : Padded a b → Padded a (.blank ' ' :: b)

/-- Semicolons are looked at together with the lexeme behind them, which then stays whatever it is: one before a closing brace and one
at the end are left out. -/
def trimPairs : List Lexeme → List Lexeme
  | [] => []
  | [.punct [';']] => []
  | .punct [';'] :: n :: r => if n = .punct ['}'] then n :: trimPairs r else .punct [';'] :: n :: trimPairs r
  | l :: r => l :: trimPairs r

/-- The semicolons that are left out: those that come first, and those of `trimPairs`. -/
def trim (ls : List Lexeme) : List Lexeme := trimPairs (ls.dropWhile (· == .punct [';']))

/-- The script with the blanks that `keep` asks for, and with all of its semicolons or not. -/
def keptLayout (keep : Char → Bool) (semis : Bool) (ls : List Lexeme) : List Lexeme :=
  if semis then layout keep ls else trim (layout keep ls)

/-- The script without the semicolons that `trimPairs` leaves out of its layout; blanks and comments stay. `paired`: the next lexeme that is
wanted stands behind a semicolon. -/
def prunePairs (keep : Char → Bool) : Bool → List Lexeme → List Lexeme
  | _, [] => []
  | paired, l :: r =>
    if wanted keep l = false then l :: prunePairs keep paired r
    else if l = .punct [';'] ∧ paired = false then
      match (layout keep r).head? with
      | none => prunePairs keep false r
      | some n => if n = .punct ['}'] then prunePairs keep false r else l :: prunePairs keep true r
    else l :: prunePairs keep false r

/-- The script without the semicolons that `trim` leaves out of its layout. -/
def prune (keep : Char → Bool) : List Lexeme → List Lexeme
  | [] => []
  | l :: r =>
    if wanted keep l = false then l :: prune keep r
    else if l = .punct [';'] then prune keep r
    else prunePairs keep false (l :: r)

/-- The script, with all of its semicolons or not. -/
def pruned (keep : Char → Bool) (semis : Bool) (ls : List Lexeme) : List Lexeme := if semis then ls else prune keep ls

end Verif.Spec.Js
