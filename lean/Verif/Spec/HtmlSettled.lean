import Verif.Spec.HtmlPage
/-!
# Tags that are settled after one run
-/
namespace Verif.Spec.Html

/-- White space, a slash or the end of the tag comes next. -/
def Stops (u : List Char) : Prop := ∃ d v, u = d :: v ∧ (isWhitespace d = true ∨ d = '>' ∨ d = '/')

/-- After `="value"` there is white space, a slash or the end of the tag; the value is not empty and has neither white space nor `"`. -/
def Spaced (s : List Char) : Prop := ∀ a v u, s = a ++ '=' :: '"' :: (v ++ '"' :: u) → v ≠ [] →
  (∀ c ∈ v, isWhitespace c = false ∧ c ≠ '"') → Stops u

/-- The same for `type="value"`, with any value. -/
def TypeSpaced (s : List Char) : Prop := ∀ a v u, s = a ++ "type=\"".toList ++ (v ++ '"' :: u) → '"' ∉ v → Stops u

/-- A tag with room after its attributes, and without a `type` in a `style` or `script` tag of several lines. -/
def Settled (t : List Char) : Prop :=
  Spaced (t ++ ['>']) ∧
  (Styled t → TypeSpaced (t ++ ['>']) ∧ ('\n' ∈ t → ∀ a b, t ≠ a ++ "type=\"".toList ++ b))

end Verif.Spec.Html
