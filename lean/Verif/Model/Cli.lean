import Verif.Model.Css
import Verif.Model.JsTools
import Verif.Model.JsonRead
/-!
# The command line program, src/cli.rs and src/main.rs

Parts of the standard library and of the operating system that the program relies on are modelled first:

* A path (`PathBuf`, `OsStr` on Unix) is a list of bytes. The operations of `std::path` are those of its Unix version.
* The file system is a tree without links. A location is a list of names, innermost first. The kernel's path walk is
  `resolve`. Permissions are one bit for reading and one for writing a file and one for creating entries in a directory;
  directories can always be searched. `room` says after how many bytes a write to a file fails.
* A process runs alone: nobody else changes the file system meanwhile.
-/
namespace Verif.Cli
open Verif.JsonRead

abbrev Bytes := List UInt8
/-- An `OsStr` without a separator in it. -/
abbrev Name := List UInt8
/-- `PathBuf`. -/
abbrev Path := List UInt8
/-- A place in the tree: names from the innermost to the outermost; `[]` is the root. -/
abbrev Loc := List Name

def slash : UInt8 := 47
def dot : UInt8 := 46

/-! ## `std::path` (Unix) -/

/-- The text between the separators: what both the kernel and `Path::components` walk over. There is always at least one
piece. -/
def pieces : Path → List Name
  | [] => [[]]
  | b :: p =>
    if b == slash then [] :: pieces p
    else
      match pieces p with
      | [] => [[b]]
      | n :: ns => (b :: n) :: ns

/-- Pieces that `Path::components` skips (but for the first one of a path). -/
def dead (n : Name) : Bool := n == [] || n == [dot]

/-- The inverse of `pieces`. -/
def joinPieces : List Name → Path
  | [] => []
  | [n] => n
  | n :: ns => n ++ slash :: joinPieces ns

/-- The pieces from the last component of a path (`Components::next_back`) to its start, last first. Empty if the path has
no component but the root and a leading `.`. -/
def live (p : Path) : List Name := (pieces p).reverse.dropWhile dead

/-- `Path::file_name`: the last component, if it is a normal one. -/
def fileName (p : Path) : Option Name :=
  match live p with
  | [] => none
  | n :: _ => if n == [dot, dot] then none else some n

/-- `rsplitn(2, |b| *b == b'.')` of `rsplit_file_at_dot`: the text before the last dot, if there is one, and the text after
it. -/
def splitDot : Name → Option Name × Name
  | [] => (none, [])
  | b :: n =>
    match splitDot n with
    | (some pre, post) => (some (b :: pre), post)
    | (none, post) => if b == dot then (some [], post) else (none, b :: post)

/-- `rsplit_file_at_dot`; `".."` is not passed to it here. -/
def rsplitFileAtDot (n : Name) : Option Name × Option Name :=
  match splitDot n with
  | (some [], _) => (some n, none)
  | (pre, post) => (pre, some post)

/-- `Path::extension`. -/
def extension (p : Path) : Option Name :=
  match fileName p with
  | none => none
  | some n =>
    match rsplitFileAtDot n with
    | (some _, post) => post
    | (none, _) => none

/-- `Path::file_stem`. -/
def fileStem (p : Path) : Option Name :=
  match fileName p with
  | none => none
  | some n =>
    match rsplitFileAtDot n with
    | (some pre, _) => some pre
    | (none, post) => post

/-- `PathBuf::set_extension` with a non-empty extension: everything after the file stem is cut off, then a dot and the
extension are added. Without a file name nothing happens. -/
def setExtension (p : Path) (ext : Bytes) : Path :=
  match fileStem p with
  | none => p
  | some stem => joinPieces ((live p).tail.reverse ++ [stem]) ++ dot :: ext

/-- `Path::is_absolute`. -/
def isAbsolute (p : Path) : Bool := p.head? == some slash

/-- `PathBuf::push`. -/
def push (p q : Path) : Path :=
  if isAbsolute q then q
  else
    match p.getLast? with
    | some b => if b == slash then p ++ q else p ++ slash :: q
    | none => q

/-- `Components::as_path` of the given pieces (last first) once the trailing skipped ones are gone: a lone first piece that
is empty is the root (if the path began with a separator), a lone `.` is kept. -/
def asPath (absolute : Bool) : List Name → Path
  | [] => if absolute then [slash] else []
  | [n] => if n == [] then (if absolute then [slash] else []) else n
  | n :: ns => if dead n then asPath absolute ns else joinPieces (n :: ns).reverse

/-- `Path::parent`: `None` for the root and for the empty path. -/
def parent (p : Path) : Option Path :=
  match live p with
  | [] =>
    -- only the root, or a leading `.`
    if !isAbsolute p && (pieces p).head? == some [dot] then some [] else none
  | _ :: ns => some (asPath (isAbsolute p) ns)

/-! ## The file system -/

inductive Node where
  /-- A regular file: its content, whether it can be read and whether it can be written. -/
  | file (data : Bytes) (r w : Bool)
  /-- A directory: whether entries can be created in it. -/
  | dir (w : Bool)
  deriving Repr, DecidableEq

structure FS where
  node : Loc → Option Node
  /-- The working directory. -/
  cwd : Loc
  /-- The number of bytes after which writing to a file fails, if it does. -/
  room : Loc → Option Nat

/-- Error kinds as far as `create_dir_all` tells them apart. -/
inductive Errno where
  | noent
  | other
  deriving Repr, DecidableEq

/-- One step of the kernel's path walk. -/
def stepLoc (l : Loc) (n : Name) : Loc :=
  if dead n then l else if n == [dot, dot] then l.tail else n :: l

def FS.isDirAt (fs : FS) (l : Loc) : Bool :=
  match fs.node l with
  | some (.dir _) => true
  | _ => false

/-- The kernel's path walk: all but the last place have to be directories. -/
def walk (fs : FS) : Loc → List Name → Except Errno Loc
  | l, [] => .ok l
  | l, n :: ns =>
    match fs.node l with
    | some (.dir _) => walk fs (stepLoc l n) ns
    | some (.file ..) => .error .other
    | none => .error .noent

def resolve (fs : FS) (p : Path) : Except Errno Loc :=
  if p == [] then .error .noent
  else walk fs (if isAbsolute p then [] else fs.cwd) (pieces p)

/-- `Path::is_dir`. -/
def isDir (fs : FS) (p : Path) : Bool :=
  match resolve fs p with
  | .ok l => fs.isDirAt l
  | .error _ => false

def FS.set (fs : FS) (l : Loc) (n : Node) : FS := { fs with node := fun k => if k = l then some n else fs.node k }

/-- Whether entries can be created in the directory that holds `l`. -/
def FS.canCreate (fs : FS) (l : Loc) : Bool := fs.node l.tail == some (.dir true)

/-- `mkdir(2)`. -/
def mkdir (fs : FS) (p : Path) : Except Errno FS :=
  match resolve fs p with
  | .error e => .error e
  | .ok l =>
    match fs.node l with
    | some _ => .error .other
    | none => if fs.canCreate l then .ok (fs.set l (.dir true)) else .error .other

/-- `std::fs::create_dir_all`; `fuel` bounds the number of calls (one per component at most). The file system is returned
in both cases: directories created before an error stay. -/
def createDirAll : Nat → FS → Path → FS × Bool
  | 0, fs, _ => (fs, false)
  | fuel + 1, fs, p =>
    if p == [] then (fs, true)
    else
      match mkdir fs p with
      | .ok fs => (fs, true)
      | .error .other => (fs, isDir fs p)
      | .error .noent =>
        match parent p with
        | none => (fs, false)
        | some q =>
          match createDirAll fuel fs q with
          | (fs, false) => (fs, false)
          | (fs, true) =>
            match mkdir fs p with
            | .ok fs => (fs, true)
            | .error _ => (fs, isDir fs p)

/-- `OpenOptions::new().truncate(true).write(true).create(true).open(p)`. -/
def openTrunc (fs : FS) (p : Path) : Option (FS × Loc) :=
  match resolve fs p with
  | .error _ => none
  | .ok l =>
    match fs.node l with
    | some (.file _ r true) => some (fs.set l (.file [] r true), l)
    | some (.file _ _ false) => none
    | some (.dir _) => none
    | none => if fs.canCreate l then some (fs.set l (.file [] true true), l) else none

/-- `write_all` to a file that has just been truncated: all of it, or as much as there is room for and an error. -/
def writeAll (fs : FS) (l : Loc) (bs : Bytes) : FS × Bool :=
  match fs.node l with
  | some (.file _ r w) =>
    match fs.room l with
    | none => (fs.set l (.file bs r w), true)
    | some k => if bs.length ≤ k then (fs.set l (.file bs r w), true) else (fs.set l (.file (bs.take k) r w), false)
  | _ => (fs, false)

/-! ## `String::from_utf8` -/

/-- The standard library's validation (RFC 3629), one character after the other. -/
def decodeFuel : Nat → Bytes → Option (List Char)
  | _, [] => some []
  | 0, _ :: _ => none
  | k + 1, b :: bs =>
    match utf8CharWidth b with
    | 0 => none
    | 1 => (decodeFuel k bs).map (Char.ofNat b.toNat :: ·)
    | w =>
      match fromUtf8 ((b :: bs).take w) with
      | none => none
      | some c => (decodeFuel k ((b :: bs).drop w)).map (c :: ·)

def decode (bs : Bytes) : Option (List Char) := decodeFuel bs.length bs

/-! ## src/cli.rs -/

/-- `FileType`, cli.rs:60-67. -/
inductive FileType where
  | css
  | js
  | json
  | unknown
  deriving Repr, DecidableEq

/-- A string literal as bytes. -/
def lit (s : String) : Bytes := s.toList.map fun c => UInt8.ofNat c.toNat

/-- `FileType::as_str`, cli.rs:69-78. -/
def FileType.asStr : FileType → Bytes
  | .css => lit "css"
  | .js => lit "js"
  | .json => lit "json"
  | .unknown => lit "unknown"

/-- `FromStr for FileType`, cli.rs:97-107, and the `-t` option (`value_parser!(FileType)`, cli.rs:80-96): the names of
`value_variants` are compared as they are. -/
def FileType.parse (s : Bytes) : Option FileType := [FileType.css, .js, .json].find? fun v => v.asStr == s

/-- `u8::to_ascii_lowercase`. -/
def lowerByte (b : UInt8) : UInt8 := if 65 ≤ b && b ≤ 90 then b + 32 else b

/-- `From<&PathBuf> for FileType`, cli.rs:109-122; `none` is the panic of `to_str().unwrap()`. -/
def FileType.of (p : Path) : Option FileType :=
  match extension p with
  | none => some .unknown
  | some e =>
    match decode (e.map lowerByte) with
    | none => none
    | some s =>
      if s == "css".toList then some .css
      else if s == "js".toList then some .js
      else if s == "json".toList then some .json
      else some .unknown

/-- `get_all_data`, cli.rs:124-129: an `Err` from `File::open`, or the panic of `read_to_string(..).unwrap()` for a file that
is not UTF-8 and for a directory (which can be opened, but not read). -/
def getAllData (fs : FS) (p : Path) : Out (List Char) :=
  match resolve fs p with
  | .error _ => .err "not found"
  | .ok l =>
    match fs.node l with
    | none => .err "not found"
    | some (.dir _) => .panic "is a directory"
    | some (.file _ false _) => .err "permission denied"
    | some (.file data true _) =>
      match decode data with
      | none => .panic "stream did not contain valid UTF-8"
      | some s => .ok s

/-- `func`, cli.rs:163-172. The `expect`s are panics. -/
def minifyAs (alpha : Char → Bool) : FileType → List Char → Out (List Char)
  | .css, s =>
    match Css.minify alpha s with
    | .ok o => .ok o
    | _ => .panic "css minification failed"
  | .js, s =>
    match Js.minify s with
    | .ok o => .ok o
    | _ => .panic "js minification failed"
  | .json, s => .ok (Json.minifyStr s)
  | .unknown, _ => .panic "unknow file extension..."

/-- `format!("min.{}", file_ext.as_str())`. -/
def minExt (t : FileType) : Bytes := lit "min." ++ t.asStr

/-- `op` as the user gave it, or a file in the directory `op`, cli.rs:144-149. -/
def givenOut (fs : FS) (path op : Path) (t : FileType) : Path :=
  if isDir fs op then setExtension (push op path) (minExt t) else op

/-- The directory that has to hold `op` is created, cli.rs:150-152; `false` is the panic of `unwrap`. -/
def prepare (fs : FS) (op : Path) : FS × Bool :=
  match parent op with
  | none => (fs, true)
  | some d => if isDir fs d then (fs, true) else createDirAll (d.length + 1) fs d

/-- `out`, cli.rs:142-161; the flag is false for a panic. -/
def outPath (fs : FS) (path : Path) (out : Option Path) (t : FileType) : FS × Path × Bool :=
  match out with
  | some op =>
    let op := givenOut fs path op t
    let (fs, ok) := prepare fs op
    (fs, op, ok)
  | none => (fs, setExtension path (minExt t), true)

/-- What a call of `write_out_file` tells, and whether it comes back. -/
inductive Note where
  /-- `unknow file extension...` -/
  | unknown
  /-- `{file_path:?}: {e}` -/
  | readError
  /-- `Impossible to create new file` -/
  | cannotCreate
  /-- `Impossible to write into` -/
  | cannotWrite
  /-- `done -> generated into` -/
  | done
  /-- The process dies. -/
  | panic
  deriving Repr, DecidableEq

/-- `write_out_file`, cli.rs:131-187. -/
def writeOutFile (alpha : Char → Bool) (fs : FS) (path : Path) (out : Option Path) (ext : Option FileType) : FS × Note :=
  match (match ext with | some v => some v | none => FileType.of path) with
  | none => (fs, .panic)
  | some t =>
    if t == .unknown then (fs, .unknown)
    else
      match getAllData fs path with
      | .err _ => (fs, .readError)
      | .panic _ => (fs, .panic)
      | .ok content =>
        match outPath fs path out t with
        | (fs, _, false) => (fs, .panic)
        | (fs, o, true) =>
          match openTrunc fs o with
          | none => (fs, .cannotCreate)
          | some (fs, l) =>
            match minifyAs alpha t content with
            | .ok text =>
              match writeAll fs l (utf8 text) with
              | (fs, true) => (fs, .done)
              | (fs, false) => (fs, .cannotWrite)
            | _ => (fs, .panic)

/-- The loop of `Cli::init`, cli.rs:53-55: the files in the order given, up to a panic. -/
def run (alpha : Char → Bool) (out : Option Path) (ext : Option FileType) : FS → List Path → FS × List Note
  | fs, [] => (fs, [])
  | fs, p :: ps =>
    match writeOutFile alpha fs p out ext with
    | (fs, .panic) => (fs, [.panic])
    | (fs, n) =>
      match run alpha out ext fs ps with
      | (fs, ns) => (fs, n :: ns)

end Verif.Cli
