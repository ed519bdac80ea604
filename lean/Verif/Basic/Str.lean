/-!
# Strings, byte offsets and outcomes

What the rest of the model assumes about the Rust standard library.

* A `&str` is a `List Char`; its bytes are the UTF-8 encoding of the characters.
* `&s[a..b]` is `slice s a b`; `none` stands for the panic raised when `a > b`, when an end is out of range
  or when it is not on a character boundary.
* `s.char_indices()` is `indices s`.
-/
namespace Verif

/-- The result of running a piece of Rust: a value, an `Err(..)`, or a panic. -/
inductive Out (α : Type) where
  | ok (a : α)
  | err (e : String)
  | panic (why : String)
  deriving Repr, DecidableEq

namespace Out

def bind {α β : Type} : Out α → (α → Out β) → Out β
  | .ok a, f => f a
  | .err e, _ => .err e
  | .panic w, _ => .panic w

instance : Monad Out where
  pure := .ok
  bind := bind

@[simp] theorem bind_ok {α β : Type} (a : α) (f : α → Out β) : (Out.ok a >>= f) = f a := rfl
@[simp] theorem bind_err {α β : Type} (e : String) (f : α → Out β) : (Out.err e >>= f) = .err e := rfl
@[simp] theorem bind_panic {α β : Type} (e : String) (f : α → Out β) : (Out.panic e >>= f) = .panic e := rfl
@[simp] theorem pure_eq {α : Type} (a : α) : (pure a : Out α) = .ok a := rfl

def isPanic {α : Type} : Out α → Bool
  | .panic _ => true
  | _ => false

def isOk {α : Type} : Out α → Bool
  | .ok _ => true
  | _ => false

/-- `Option::unwrap` / indexing: `none` panics. -/
def ofOption {α : Type} (why : String) : Option α → Out α
  | some a => .ok a
  | none => .panic why

end Out

/-- `str::len`: number of UTF-8 bytes. -/
def blen : List Char → Nat
  | [] => 0
  | c :: cs => c.utf8Size + blen cs

/-- Cut a string at byte offset `n`; `none` if `n` is past the end or inside a character. -/
def cutAt : List Char → Nat → Option (List Char × List Char)
  | s, 0 => some ([], s)
  | [], _ + 1 => none
  | c :: cs, n + 1 =>
    if c.utf8Size ≤ n + 1 then
      (cutAt cs (n + 1 - c.utf8Size)).map fun p => (c :: p.1, p.2)
    else none

/-- `&s[a..b]`. -/
def slice (s : List Char) (a b : Nat) : Option (List Char) :=
  if a ≤ b then
    match cutAt s a with
    | some (_, t) => (cutAt t (b - a)).map Prod.fst
    | none => none
  else none

/-- `&s[a..]`. -/
def sliceFrom (s : List Char) (a : Nat) : Option (List Char) := (cutAt s a).map Prod.snd

/-- The items `s.char_indices()` yields when `s` starts at byte offset `off`. -/
def indicesFrom (off : Nat) : List Char → List (Nat × Char)
  | [] => []
  | c :: cs => (off, c) :: indicesFrom (off + c.utf8Size) cs

/-- `s.char_indices()`. -/
def indices (s : List Char) : List (Nat × Char) := indicesFrom 0 s

/-- `char::is_whitespace`: the Unicode White_Space property. -/
def isWhitespace (c : Char) : Bool :=
  let n := c.toNat
  (9 ≤ n && n ≤ 13) || n == 32 || n == 0x85 || n == 0xA0 || n == 0x1680 || (0x2000 ≤ n && n ≤ 0x200A)
    || n == 0x2028 || n == 0x2029 || n == 0x202F || n == 0x205F || n == 0x3000

/-- `char::is_ascii_control`. -/
def isAsciiControl (c : Char) : Bool := c.toNat < 32 || c.toNat == 127

/-- The bytes of a string. -/
def utf8 (s : List Char) : List UInt8 := s.flatMap String.utf8EncodeChar

@[simp] theorem blen_nil : blen [] = 0 := rfl
@[simp] theorem blen_cons (c : Char) (cs : List Char) : blen (c :: cs) = c.utf8Size + blen cs := rfl

@[simp] theorem blen_append (s t : List Char) : blen (s ++ t) = blen s + blen t := by
  induction s with
  | nil => simp
  | cons c cs ih => simp [ih]; omega

theorem cutAt_append (p t : List Char) : cutAt (p ++ t) (blen p) = some (p, t) := by
  induction p with
  | nil => cases t <;> rfl
  | cons c cs ih =>
    have h := Char.utf8Size_pos c
    obtain ⟨k, hk⟩ : ∃ k, blen (c :: cs) = k + 1 := ⟨c.utf8Size + blen cs - 1, by simp; omega⟩
    have hk' : c.utf8Size + blen cs = k + 1 := by simpa using hk
    rw [hk, List.cons_append, cutAt, if_pos (by omega), show k + 1 - c.utf8Size = blen cs by omega, ih]
    rfl

/-- A slice between two character boundaries is the text between them. -/
theorem slice_append (p m t : List Char) :
    slice (p ++ m ++ t) (blen p) (blen p + blen m) = some m := by
  unfold slice
  rw [if_pos (by omega), List.append_assoc, cutAt_append]
  simp only [Nat.add_sub_cancel_left, cutAt_append, Option.map_some]

theorem slice_append' {s p m t : List Char} {a b : Nat} (hs : s = p ++ (m ++ t)) (ha : a = blen p)
    (hb : b = blen p + blen m) : slice s a b = some m := by
  subst hs ha hb
  rw [← List.append_assoc]
  exact slice_append p m t

theorem sliceFrom_append (p t : List Char) : sliceFrom (p ++ t) (blen p) = some t := by
  unfold sliceFrom
  rw [cutAt_append]; rfl

theorem indicesFrom_append (off : Nat) (s t : List Char) :
    indicesFrom off (s ++ t) = indicesFrom off s ++ indicesFrom (off + blen s) t := by
  induction s generalizing off with
  | nil => simp [indicesFrom]
  | cons c cs ih => simp [indicesFrom, ih, Nat.add_assoc]

@[simp] theorem indicesFrom_length (off : Nat) (s : List Char) : (indicesFrom off s).length = s.length := by
  induction s generalizing off with
  | nil => rfl
  | cons c cs ih => simp [indicesFrom, ih]

theorem length_le_blen (s : List Char) : s.length ≤ blen s := by
  induction s with
  | nil => simp
  | cons c cs ih => have := Char.utf8Size_pos c; simp; omega

end Verif
