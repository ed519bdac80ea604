import Verif.Basic.Str
/-!
# What the command line program should do

Written without the model's functions on paths: a path is a list of bytes, 47 is the separator and 46 the dot.
-/
namespace Verif.Spec.Cli

/-- What may follow the last name of a path without changing what it names: separators and `/.`. -/
inductive Trail : List UInt8 → Prop
  | nil : Trail []
  | sep {t : List UInt8} : Trail t → Trail (47 :: t)
  | cur {t : List UInt8} : Trail t → Trail (47 :: 46 :: t)

/-- The part of a path before a name: nothing, or something that ends with a separator. -/
def Lead (pre : List UInt8) : Prop := pre = [] ∨ ∃ q, pre = q ++ [47]

/-- A name as it can stand in a directory. -/
def IsName (n : List UInt8) : Prop := n ≠ [] ∧ 47 ∉ n ∧ n ≠ [46] ∧ n ≠ [46, 46]

/-- The path `p` names the entry `n` in the directory `pre`. -/
def Names (p pre n : List UInt8) : Prop := ∃ t, p = pre ++ n ++ t ∧ Lead pre ∧ IsName n ∧ Trail t

/-- `n` is made of `stem` and the extension `e`: what follows the last dot, unless that dot comes first. -/
def HasExt (n stem e : List UInt8) : Prop := n = stem ++ 46 :: e ∧ stem ≠ [] ∧ 46 ∉ e

/-- `n` has no extension: no dot, or only one that comes first. -/
def NoExt (n : List UInt8) : Prop := 46 ∉ n ∨ ∃ m, n = 46 :: m ∧ 46 ∉ m

/-- The last name of `p` has the extension `e`. -/
def PathExt (p e : List UInt8) : Prop := ∃ pre n stem, Names p pre n ∧ HasExt n stem e

/-- `e` is `w` up to the case of ASCII letters; `w` is in lower case. -/
inductive CaseOf : List UInt8 → List UInt8 → Prop
  | nil : CaseOf [] []
  | same {b : UInt8} {e w : List UInt8} : CaseOf e w → CaseOf (b :: e) (b :: w)
  | upper {b : UInt8} {e w : List UInt8} : 65 ≤ b → b ≤ 90 → CaseOf e w → CaseOf (b :: e) ((b + 32) :: w)

/-- The stem of a name: all of it if it has no extension. -/
def Stem (n stem : List UInt8) : Prop := (NoExt n ∧ stem = n) ∨ ∃ e, HasExt n stem e

/-- Going from a directory to what a name in a path means there; locations are lists of names, innermost first. -/
def enter (l : List (List UInt8)) (n : List UInt8) : List (List UInt8) :=
  if n = [] ∨ n = [46] then l else if n = [46, 46] then l.tail else n :: l

/-- Follow the bytes of a path from `l`; `n` is the name read so far. -/
def follow (l : List (List UInt8)) (n : List UInt8) : List UInt8 → List (List UInt8)
  | [] => enter l n
  | b :: p => if b = 47 then follow (enter l n) [] p else follow l (n ++ [b]) p

/-- Where a path leads from the working directory `cwd` (there are no links). -/
def place (cwd : List (List UInt8)) (p : List UInt8) : List (List UInt8) :=
  follow (if p.head? = some 47 then [] else cwd) [] p

/-- The name of the output for an input named `n`, where `ty` is `css`, `js` or `json`. -/
def MinName (n ty n' : List UInt8) : Prop := ∃ stem, Stem n stem ∧ n' = stem ++ [46, 109, 105, 110, 46] ++ ty

/-- The path of the output for the input `p`: beside it without `-o`; as given with `-o` unless that is a directory; below
that directory otherwise, unless `p` is absolute. -/
def OutPath (isDir : List UInt8 → Bool) (p : List UInt8) (out : Option (List UInt8)) (ty o : List UInt8) : Prop :=
  ∃ pre n n', Names p pre n ∧ MinName n ty n' ∧
    match out with
    | none => o = pre ++ n'
    | some op =>
      if isDir op then
        if p.head? = some 47 then o = pre ++ n'
        else if op.getLast? = some 47 then o = op ++ pre ++ n'
        else o = op ++ [47] ++ pre ++ n'
      else o = op

end Verif.Spec.Cli
