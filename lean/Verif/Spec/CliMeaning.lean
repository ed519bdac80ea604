import Verif.Spec.CliRun
import Verif.Spec.Json
import Verif.Spec.CssSyntax
import Verif.Spec.EcmaLines
/-!
# What the files that the command line program reads and writes mean

`Means` compares two files by the standards of their types. `Plain` collects the conditions on the input under which the minified text is
known to mean the same.
-/
namespace Verif.Spec.Cli
open Verif.Cli

/-- `t` means what `s` means: a JSON text of the same value; a style sheet of the same tokens; a script of the same tokens with the same line
breaks where they matter, but for empty statements at its beginning. -/
def Means (ty : FileType) (s t : List Char) : Prop :=
  match ty with
  | .json => ∀ v, Json.Text v s → Json.Text v t
  | .css => CssSyntax.toks t = CssSyntax.toks s
  | .js => ∃ k, (∀ p ∈ (Ecma.lines Ecma.usualRule Ecma.usual s).take k, p.2 = .punct [';']) ∧
      Ecma.lines Ecma.usualRule Ecma.usual t = (Ecma.lines Ecma.usualRule Ecma.usual s).drop k
  | .unknown => False

/-- The file is what its type says. -/
def Valid (ty : FileType) (s : List Char) : Prop :=
  match ty with
  | .json => ∃ v, Json.Text v s
  | .css => CssSyntax.wellFormed s
  | .js => Js.Closed s ∧ ∀ t ∈ Ecma.toks Ecma.usual s, Ecma.good t = true
  | .unknown => False

/-- The conditions of C01, C69, C70 and C71, for the usual rules: nothing confuses the minifier, no gap that is removed keeps two tokens apart,
and no line break matters. -/
def Plain (alpha : Char → Bool) (ty : FileType) (s : List Char) : Prop :=
  match ty with
  | .json => ∃ v, Json.Text v s ∧ Json.AllStrings (¬ Json.Swallowed ·) v ∧ Json.AllStrings (fun b => ∀ c ∈ b, Json.visible c = true) v
  | .css => CssSyntax.tame (Css.items s) = true ∧ (∀ t ∈ CssSyntax.toks s, CssSyntax.plainTok t = true) ∧
      CssSyntax.risky alpha [] (Css.marks (Css.items s)).acc = false
  | .js => Js.Closed s ∧ (∀ l ∈ Js.lex s, Ecma.oddComment l = false) ∧ (∀ l ∈ Js.lex s, Js.shorten l = l) ∧
      Ecma.fits Ecma.usual [] (Ecma.pieces (Ecma.mainPart (Js.lex s))) = true ∧
      ∀ p ∈ (Ecma.lines Ecma.usualRule Ecma.usual s).drop (Ecma.semicolons (Js.lex s)), p.1 = false
  | .unknown => False

end Verif.Spec.Cli
