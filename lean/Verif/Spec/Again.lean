/-!
# Doing something again and again
-/
namespace Verif.Spec

/-- `n` runs of `f`, each on the result of the one before; `none` if one of them fails. -/
def again {α : Type} (f : α → Option α) : Nat → α → Option α
  | 0, a => some a
  | n + 1, a => (f a).bind (again f n)

end Verif.Spec
