import Verif.Model.JsonRead
/-!
# What a streaming minifier should deliver

Only the vocabulary of readers (`Event`) and results (`Res`) is taken from the model.
-/
namespace Verif.Spec.JsonRead
open Verif.JsonRead (Event Res)

/-- Drop characters from the front until at least `n` bytes are gone. -/
def cover : Nat → List Char → List Char
  | 0, k => k
  | _ + 1, [] => []
  | n + 1, c :: cs => cover (n + 1 - c.utf8Size) cs

/-- A reader of text `k` whose every `read(n)` fills the buffer with the next `n` bytes but which, like the code,
forgets the rest of a character that does not fit. -/
def readsOf : List Nat → List Char → List Res
  | [], _ => []
  | n :: ns, k => .ok ((utf8 k).take n) :: readsOf ns (cover n k)

/-- The ideal: consecutive pieces of the text. -/
def idealReads : List Nat → List UInt8 → List Res
  | [], _ => []
  | n :: ns, k => .ok (k.take n) :: idealReads ns (k.drop n)

/-- The bytes delivered by an error-free reader up to its first short read, for requests of size `n`. -/
def seen (n : Nat) : List Event → List UInt8
  | [] => []
  | .chunk bs :: es => bs ++ (if bs ≠ [] ∧ bs.length % n = 0 then seen n es else [])
  | .fail _ :: _ => []

/-- The reader fails before its first short read, for requests of size `n`. -/
def failsEarly (n : Nat) : List Event → Prop
  | [] => False
  | .chunk bs :: es => bs ≠ [] ∧ bs.length % n = 0 ∧ failsEarly n es
  | .fail _ :: _ => True

/-- Every chunk but the last is a positive multiple of `n` long, so that no request of size `n` is answered short
before the end; and the reader never fails. -/
def Full (n : Nat) : List Event → Prop
  | [] => True
  | [.chunk _] => True
  | .chunk bs :: es => bs ≠ [] ∧ bs.length % n = 0 ∧ Full n es
  | .fail _ :: _ => False

/-- All the bytes of a reader. -/
def content : List Event → List UInt8
  | [] => []
  | .chunk bs :: es => bs ++ content es
  | .fail _ :: es => content es

end Verif.Spec.JsonRead
