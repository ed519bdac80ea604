/-!
# JSON texts (RFC 8259)

An independent description of JSON: values, the texts that denote them, and the compact text of a value.
Nothing here mentions the minifier.
-/
namespace Verif.Spec.Json

/-- A hexadecimal digit. -/
def isHex (c : Char) : Bool :=
  ('0' ≤ c && c ≤ '9') || ('a' ≤ c && c ≤ 'f') || ('A' ≤ c && c ≤ 'F')

/-- The raw characters between the quotes of a string literal (RFC 8259, section 7). -/
inductive Body : List Char → Prop
  | nil : Body []
  /-- `unescaped`: anything but a quote, a backslash or a character below U+0020 -/
  | plain {c : Char} {b : List Char} : c ≠ '"' → c ≠ '\\' → 0x20 ≤ c.toNat → Body b → Body (c :: b)
  | esc {c : Char} {b : List Char} : c ∈ ['"', '\\', '/', 'b', 'f', 'n', 'r', 't'] → Body b → Body ('\\' :: c :: b)
  | uni {h1 h2 h3 h4 : Char} {b : List Char} : isHex h1 → isHex h2 → isHex h3 → isHex h4 → Body b →
      Body ('\\' :: 'u' :: h1 :: h2 :: h3 :: h4 :: b)

def isDigit (c : Char) : Bool := '0' ≤ c && c ≤ '9'

/-- Numbers (RFC 8259, section 6): optional minus, integer part without superfluous zero, fraction, exponent. -/
def IsNumber (s : List Char) : Prop :=
  ∃ sign int frac exp, s = sign ++ int ++ frac ++ exp ∧
    (sign = [] ∨ sign = ['-']) ∧
    (int = ['0'] ∨ ∃ d ds, int = d :: ds ∧ isDigit d ∧ d ≠ '0' ∧ ∀ x ∈ ds, isDigit x) ∧
    (frac = [] ∨ ∃ ds, frac = '.' :: ds ∧ ds ≠ [] ∧ ∀ x ∈ ds, isDigit x) ∧
    (exp = [] ∨ ∃ e sg ds, exp = e :: (sg ++ ds) ∧ (e = 'e' ∨ e = 'E') ∧ (sg = [] ∨ sg = ['+'] ∨ sg = ['-']) ∧
      ds ≠ [] ∧ ∀ x ∈ ds, isDigit x)

mutual
/-- JSON values. Strings and numbers keep their spelling, since a minifier must keep it. -/
inductive JVal
  | null | tru | fls
  | num (spelling : List Char)
  | str (body : List Char)
  | arr (elems : JVals)
  | obj (members : JMems)
/-- The elements of an array. -/
inductive JVals
  | nil
  | cons (v : JVal) (vs : JVals)
/-- The members of an object, keys given by their raw bodies. -/
inductive JMems
  | nil
  | cons (key : List Char) (v : JVal) (ms : JMems)
end

/-- Insignificant whitespace (RFC 8259, section 2). -/
def IsWs (w : List Char) : Prop := ∀ c ∈ w, c = ' ' ∨ c = '\t' ∨ c = '\n' ∨ c = '\r'

/-- A string literal with its quotes. -/
def quoted (b : List Char) : List Char := '"' :: (b ++ ['"'])

mutual
/-- `Value v s`: `s` denotes `v`, with no whitespace around it. -/
inductive Value : JVal → List Char → Prop
  | null : Value .null ['n', 'u', 'l', 'l']
  | tru : Value .tru ['t', 'r', 'u', 'e']
  | fls : Value .fls ['f', 'a', 'l', 's', 'e']
  | num {s} : IsNumber s → Value (.num s) s
  | str {b} : Body b → Value (.str b) (quoted b)
  | arrNil {w} : IsWs w → Value (.arr .nil) ('[' :: (w ++ [']']))
  | arr {vs s} : Elems vs s → Value (.arr vs) ('[' :: (s ++ [']']))
  | objNil {w} : IsWs w → Value (.obj .nil) ('{' :: (w ++ ['}']))
  | obj {ms s} : Members ms s → Value (.obj ms) ('{' :: (s ++ ['}']))
/-- `Text v s`: `s` denotes `v`, with any whitespace around it (RFC 8259 `JSON-text`). -/
inductive Text : JVal → List Char → Prop
  | mk {v w1 s w2} : IsWs w1 → Value v s → IsWs w2 → Text v (w1 ++ (s ++ w2))
/-- One or more array elements separated by commas. -/
inductive Elems : JVals → List Char → Prop
  | one {v s} : Text v s → Elems (.cons v .nil) s
  | cons {v vs s t} : Text v s → Elems vs t → Elems (.cons v vs) (s ++ (',' :: t))
/-- One or more object members separated by commas. -/
inductive Members : JMems → List Char → Prop
  | one {k v w1 w2 s} : IsWs w1 → Body k → IsWs w2 → Text v s →
      Members (.cons k v .nil) (w1 ++ (quoted k ++ (w2 ++ (':' :: s))))
  | cons {k v w1 w2 s ms t} : IsWs w1 → Body k → IsWs w2 → Text v s → Members ms t →
      Members (.cons k v ms) ((w1 ++ (quoted k ++ (w2 ++ (':' :: s)))) ++ (',' :: t))
end

mutual
/-- The text of a value without any whitespace. -/
def compact : JVal → List Char
  | .null => ['n', 'u', 'l', 'l']
  | .tru => ['t', 'r', 'u', 'e']
  | .fls => ['f', 'a', 'l', 's', 'e']
  | .num s => s
  | .str b => quoted b
  | .arr vs => '[' :: (compactElems vs ++ [']'])
  | .obj ms => '{' :: (compactMems ms ++ ['}'])
def compactElems : JVals → List Char
  | .nil => []
  | .cons v .nil => compact v
  | .cons v vs => compact v ++ (',' :: compactElems vs)
def compactMems : JMems → List Char
  | .nil => []
  | .cons k v .nil => quoted k ++ (':' :: compact v)
  | .cons k v ms => (quoted k ++ (':' :: compact v)) ++ (',' :: compactMems ms)
end

mutual
/-- Every string literal (and object key) of the value satisfies `p`. -/
def AllStrings (p : List Char → Prop) : JVal → Prop
  | .str b => p b
  | .arr vs => AllStringsE p vs
  | .obj ms => AllStringsM p ms
  | _ => True
def AllStringsE (p : List Char → Prop) : JVals → Prop
  | .nil => True
  | .cons v vs => AllStrings p v ∧ AllStringsE p vs
def AllStringsM (p : List Char → Prop) : JMems → Prop
  | .nil => True
  | .cons k v ms => p k ∧ AllStrings p v ∧ AllStringsM p ms
end

/-- Not an ASCII control character. Within a legal string body this only excludes U+007F. -/
def visible (c : Char) : Bool := 0x20 ≤ c.toNat && c.toNat != 0x7f

/-- The bodies a JSON scanner that ignores quotes for two characters after `\"` gets wrong: some `\"` (possibly made with the closing quote itself) is
followed by at most two visible characters, closing quote included. -/
def Swallowed (b : List Char) : Prop :=
  ∃ p q, b ++ ['"'] = p ++ ('\\' :: '"' :: q) ∧ (q.filter visible).length ≤ 2

mutual
/-- The value with U+007F dropped from all its strings and keys. -/
def squeezed : JVal → JVal
  | .str b => .str (b.filter visible)
  | .arr vs => .arr (squeezedE vs)
  | .obj ms => .obj (squeezedM ms)
  | .null => .null
  | .tru => .tru
  | .fls => .fls
  | .num s => .num s
def squeezedE : JVals → JVals
  | .nil => .nil
  | .cons v vs => .cons (squeezed v) (squeezedE vs)
def squeezedM : JMems → JMems
  | .nil => .nil
  | .cons k v ms => .cons (k.filter visible) (squeezed v) (squeezedM ms)
end

end Verif.Spec.Json
