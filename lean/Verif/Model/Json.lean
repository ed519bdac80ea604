import Verif.Basic.Sink
/-!
# `minifier::json` on strings

Transcription of `src/json/json_minifier.rs` and `src/json/string.rs`.
-/
namespace Verif.Json

/-- `JsonMinifier`, src/json/json_minifier.rs:4-7; `{}` is `JsonMinifier::new` (lines 16-21).
`escaped_quotation : u8` only takes the values 0..4, so `Nat` loses nothing. -/
structure St where
  isString : Bool := false
  esc : Nat := 0
  deriving Repr, DecidableEq

/-- The state change of `is_whitespace_outside_string`, src/json/json_minifier.rs:37-48. -/
def step (m : St) (item1 : Char) (item2 : Option Char) : St :=
  if !m.isString && item1 == '"' then
    { m with isString := true }
  else if m.isString then
    let m := if item1 == '\\' && item2 == some '"' then { m with esc := 4 } else m
    if m.esc > 0 then { m with esc := m.esc - 1 }
    else if item1 == '"' then { m with isString := false }
    else m
  else m

/-- `is_whitespace_outside_string`, src/json/json_minifier.rs:32-50: answer and new state. -/
def isWhitespaceOutsideString (m : St) (item1 : Char) (item2 : Option Char) : Bool × St :=
  let m' := step m item1 item2
  (!m'.isString && isWhitespace item1, m')

/-- `keep_element`, src/json/json_minifier.rs:25-29. The `||` short-circuits: a control character leaves the
state alone. -/
def keepElement (m : St) (item1 : Char) (item2 : Option Char) : Bool × St :=
  if isAsciiControl item1 then (false, m)
  else
    let r := isWhitespaceOutsideString m item1 item2
    (!r.1, r.2)

/-- `JsonMultiFilter` (src/json/string.rs:9-15) with the predicate fixed to `keep_element`, the only one the
crate uses. -/
structure Filter where
  minifier : St := {}
  iter : List Char
  initialized : Bool := false
  item1 : Option Char := none
  deriving Repr, DecidableEq

/-- The `while let` loop of `next`, src/json/string.rs:57-63, recursing on the remaining characters. -/
def nextLoop (m : St) : Option Char → List Char → Option Char × Filter
  | none, iter => (none, { minifier := m, iter := iter, initialized := true, item1 := none })
  | some item, [] =>
    let k := keepElement m item none
    (if k.1 then some item else none, { minifier := k.2, iter := [], initialized := true, item1 := none })
  | some item, c :: iter =>
    let k := keepElement m item (some c)
    if k.1 then (some item, { minifier := k.2, iter := iter, initialized := true, item1 := some c })
    else nextLoop k.2 (some c) iter

/-- `JsonMultiFilter::next`, src/json/string.rs:51-64. -/
def Filter.next (f : Filter) : Option Char × Filter :=
  if f.initialized then nextLoop f.minifier f.item1 f.iter
  else nextLoop f.minifier f.iter.head? f.iter.tail

/-- `for token in self`: iterate `next` until `None` (string.rs:77, 95). The fuel is an upper bound on the number of
items; `collect_enough` in `Proofs/Json` shows that the bound used by `toChunks` suffices. -/
def collect : Nat → Filter → List Char
  | 0, _ => []
  | n + 1, f =>
    match f.next with
    | (some c, f') => c :: collect n f'
    | (none, _) => []

/-- `minify`, src/json/mod.rs:40-42. -/
def minify (json : List Char) : Filter := { iter := json }

/-- The items produced by `Minified`, in order: each is written with its own `write!(w, "{token}")`. -/
def toChars (f : Filter) : List Char := collect (f.iter.length + 2) f

/-- `Minified::to_string` (src/json/string.rs:93-99 on a `String`, which never fails; mod.rs:53-57). -/
def toStr (f : Filter) : List Char := toChars f

/-- `Minified::write`, src/json/string.rs:76-81 and mod.rs:48-50. -/
def write {σ : Type} (f : Filter) (k : Sink σ) (s : σ) : σ × Bool :=
  writeChunks k s ((toChars f).map fun c => [c])

/-- `json::minify(json).to_string()`. -/
def minifyStr (json : List Char) : List Char := toStr (minify json)

end Verif.Json
