import Verif.Model.Cli
import Verif.Spec.Cli
/-!
# Types, contents and targets of a run of the command line program

These use the model of the operating system (`FS`, `resolve`, `isDir`) and of the minifiers, but nothing of src/cli.rs except
the names of the types.
-/
namespace Verif.Cli
open Verif.Spec.Cli

/-- The root is a directory, the place above a directory is one, and so is the working directory. -/
structure Wf (fs : FS) : Prop where
  root : fs.isDirAt [] = true
  above : ∀ l, fs.isDirAt l = true → fs.isDirAt l.tail = true
  cwd : fs.isDirAt fs.cwd = true

/-- The type a path is taken for: what `-t` says, or what its extension says. -/
def TypeOf (p : Path) (ext : Option FileType) (t : FileType) : Prop :=
  t ≠ .unknown ∧ match ext with
    | some v => v = t
    | none => ∃ e, PathExt p e ∧ CaseOf e t.asStr

/-- `text` is the minified version of `s`. -/
def Minified (alpha : Char → Bool) (t : FileType) (s text : List Char) : Prop :=
  match t with
  | .css => Css.minify alpha s = .ok text
  | .js => Js.minify s = .ok text
  | .json => text = Json.minifyStr s
  | .unknown => False

/-- The places a run over `p` may write to. -/
def Target (fs : FS) (out : Option Path) (ext : Option FileType) (p : Path) (l : Loc) : Prop :=
  ∃ t o, TypeOf p ext t ∧ OutPath (isDir fs) p out t.asStr o ∧ l = place fs.cwd o

/-- An input that can be processed: its path, its type, its name and the directory it is in, its content, the minified content
and the name of the output. -/
structure Job where
  path : Path
  ty : FileType
  name : Name
  dir : Loc
  content : List Char
  text : List Char
  minName : Name

/-- Where the output goes without `-o`. -/
def Job.target (j : Job) : Loc := j.minName :: j.dir

/-- Where the input is. -/
def Job.source (j : Job) : Loc := j.name :: j.dir

/-- Everything is in place for `j`: the input is there, can be read and is valid; the output can be created or overwritten and
there is room for it. -/
structure Job.Ok (alpha : Char → Bool) (fs : FS) (ext : Option FileType) (j : Job) : Prop where
  type : TypeOf j.path ext j.ty
  leads : resolve fs j.path = .ok j.source
  input : ∃ w, fs.node j.source = some (.file (utf8 j.content) true w)
  valid : Minified alpha j.ty j.content j.text
  name : MinName j.name j.ty.asStr j.minName
  output : (∃ d r, fs.node j.target = some (.file d r true)) ∨
    (fs.node j.target = none ∧ fs.node j.dir = some (.dir true))
  room : ∀ k, fs.room j.target = some k → (utf8 j.text).length ≤ k

/-- Whether a file written over what is at `l` can be read. -/
def readable (fs : FS) (l : Loc) : Bool :=
  match fs.node l with
  | some (.file _ r _) => r
  | _ => true

/-! ## With `-o` -/

/-- `..` is among the names in `r`. -/
def Climbs (r : Path) : Prop := ∃ u v, r = u ++ [46, 46] ++ v ∧ Lead u ∧ (v = [] ∨ v.head? = some 47)

/-- Every directory on the way along `pre` is there, or it can be created: nothing is in its place, and the directory above is
writable or missing as well. What is missing is not left again by `..`. -/
def Clear (fs : FS) (pre : Path) : Prop :=
  ∀ q r, pre = q ++ 47 :: r →
    fs.isDirAt (place fs.cwd (q ++ [47])) = true ∨
    (fs.node (place fs.cwd (q ++ [47])) = none ∧
      (fs.node (place fs.cwd (q ++ [47])).tail = none ∨ fs.node (place fs.cwd (q ++ [47])).tail = some (.dir true)) ∧
      ¬ Climbs r)

/-- An input that can be processed with `-o`: its path, its type, where it is, its content, the minified content, and the path
of the output. -/
structure OutJob where
  path : Path
  ty : FileType
  source : Loc
  content : List Char
  text : List Char
  pre : Path
  name : Name

/-- Where the directory of the output is. -/
def OutJob.dir (fs : FS) (j : OutJob) : Loc := place fs.cwd j.pre

/-- Where the output goes. -/
def OutJob.target (fs : FS) (j : OutJob) : Loc := j.name :: j.dir fs

/-- Everything is in place for `j`: the input is there, can be read and is valid; the directories of the output are there or can
be created; the output can be created or overwritten and there is room for it. -/
structure OutJob.Ok (alpha : Char → Bool) (fs : FS) (op : Path) (ext : Option FileType) (j : OutJob) : Prop where
  type : TypeOf j.path ext j.ty
  leads : resolve fs j.path = .ok j.source
  input : ∃ w, fs.node j.source = some (.file (utf8 j.content) true w)
  valid : Minified alpha j.ty j.content j.text
  out : OutPath (isDir fs) j.path (some op) j.ty.asStr (j.pre ++ j.name)
  parts : Lead j.pre ∧ IsName j.name
  clear : Clear fs j.pre
  output : (∃ d r, fs.node (j.target fs) = some (.file d r true)) ∨
    (fs.node (j.target fs) = none ∧ (fs.node (j.dir fs) = none ∨ fs.node (j.dir fs) = some (.dir true)))
  room : ∀ k, fs.room (j.target fs) = some k → (utf8 j.text).length ≤ k

/-- Two jobs that do not get in each other's way: neither output is the other one or above it, and the output of the first is not
the input of the second. -/
def OutJob.Apart (fs : FS) (i j : OutJob) : Prop :=
  ¬ i.target fs <:+ j.target fs ∧ ¬ j.target fs <:+ i.target fs ∧ i.target fs ≠ j.source

/-- `fs'` is `fs` but for new directories above or at `l`. -/
def Grown (fs fs' : FS) (l : Loc) : Prop :=
  ∀ k, fs'.node k = fs.node k ∨ (k <:+ l ∧ fs.node k = none ∧ fs'.node k = some (.dir true))

end Verif.Cli
