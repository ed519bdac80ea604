import Verif.Model.Json
/-!
# `minifier::json::minify_from_read`

Transcription of `src/json/read/*.rs`.

The underlying reader `R: Read` is a script: the list of things it will do. `InternalReader` always asks for the
same number of bytes, so a script describes every finite behaviour of every reader that obeys the `Read` contract
(`Ok(n)` with `n` at most the buffer length), with short reads, spurious ends of file and errors anywhere.
-/
namespace Verif.JsonRead
open Json (St keepElement)

/-- `io::ErrorKind`, as far as the code tells kinds apart. -/
inductive Kind where
  | interrupted
  | invalidData
  | other
  deriving Repr, DecidableEq

/-- One thing the reader does: deliver (at most) these bytes, or fail once. A chunk longer than the buffer is delivered
in several calls. `chunk []` is a call that returns `Ok(0)`. -/
inductive Event where
  | chunk (bytes : List UInt8)
  | fail (k : Kind)
  deriving Repr, DecidableEq

/-- `R::read(buf)` with `buf.len() = n`. After the last event the reader is at end of file. -/
def Script.read (n : Nat) : List Event → Except Kind (List UInt8) × List Event
  | [] => (.ok [], [])
  | .fail k :: es => (.error k, es)
  | .chunk bs :: es =>
    if bs.length ≤ n then (.ok bs, es) else (.ok (bs.take n), .chunk (bs.drop n) :: es)

/-- `Buffer`, src/json/read/internal_buffer.rs:6-11. `data` is the part of the vector that the last successful read
has filled (the rest of the vector is never looked at: `next` stops at `data_size`). -/
structure Buffer where
  data : List UInt8
  readPos : Nat
  bufferSize : Nat
  dataSize : Nat
  deriving Repr, DecidableEq

/-- `Buffer::new`, internal_buffer.rs:14-21. -/
def Buffer.new (size : Nat) : Buffer := { data := [], readPos := 0, bufferSize := size, dataSize := 0 }

/-- `Buffer::next`, internal_buffer.rs:32-39. -/
def Buffer.next (b : Buffer) : Option UInt8 × Buffer :=
  if b.readPos ≥ b.dataSize then (none, b)
  else (b.data[b.readPos]?, { b with readPos := b.readPos + 1 })

/-- `Buffer::cont`, internal_buffer.rs:41-43. -/
def Buffer.cont (b : Buffer) : Bool := b.dataSize == b.bufferSize

/-- `InternalReader`, src/json/read/internal_reader.rs:9-13. -/
structure InternalReader where
  read : List Event
  bufferSize : Nat
  buffer : Buffer
  deriving Repr, DecidableEq

/-- `InternalReader::read_data`, internal_reader.rs:26-30, with `update_metadata`, internal_buffer.rs:27-30.
`none` is `Ok(())`. On an error the buffer is left alone. -/
def readData (read : List Event) (b : Buffer) : Option Kind × List Event × Buffer :=
  match Script.read b.bufferSize read with
  | (.ok bs, r) => (none, r, { b with data := bs, readPos := 0, dataSize := bs.length })
  | (.error k, r) => (some k, r, b)

/-- `InternalReader::new`, internal_reader.rs:16-24. The reader is consumed even on error. -/
def InternalReader.new (read : List Event) (bufferSize : Nat) : Except Kind InternalReader :=
  match readData read (Buffer.new bufferSize) with
  | (none, r, b) => .ok { read := r, bufferSize := bufferSize, buffer := b }
  | (some k, _, _) => .error k

/-- `InternalReader::next`, internal_reader.rs:47-62. The `loop` goes round at most once more after a successful
`read_data`: either bytes arrived and `buffer.next()` answers, or none did and `cont()` is false (the buffer size is
not 0 here). -/
def InternalReader.next (r : InternalReader) : Option (Except Kind UInt8) × InternalReader :=
  if r.bufferSize == 0 then (none, r)
  else
    match r.buffer.next with
    | (some item, b) => (some (.ok item), { r with buffer := b })
    | (none, b) =>
      if b.cont then
        match readData r.read b with
        | (some k, rd, b') => (some (.error k), { r with read := rd, buffer := b' })
        | (none, rd, b') =>
          match b'.next with
          | (some item, b'') => (some (.ok item), { r with read := rd, buffer := b'' })
          | (none, b'') => (none, { r with read := rd, buffer := b'' })
      else (none, { r with buffer := b })

/-- `CharsError`, src/json/read/byte_to_char.rs:104-111. -/
inductive CharsError where
  | notUtf8
  | other (k : Kind)
  deriving Repr, DecidableEq

/-- `utf8_char_width` and its table `UTF8_CHAR_WIDTH`, byte_to_char.rs:77-99. -/
def utf8CharWidth (b : UInt8) : Nat :=
  if b.toNat < 0x80 then 1
  else if b.toNat < 0xC2 then 0
  else if b.toNat < 0xE0 then 2
  else if b.toNat < 0xF0 then 3
  else if b.toNat < 0xF5 then 4
  else 0

/-- A UTF-8 continuation byte. -/
abbrev IsCont (b : UInt8) : Prop := 0x80 ≤ b.toNat ∧ b.toNat < 0xC0

/-- A code point, if it is a Unicode scalar value. -/
def scalar (n : Nat) : Option Char := if h : n.isValidChar then some (Char.ofNatAux n h) else none

/-- `from_utf8(buf).ok()` and `s.chars().next().unwrap()` (byte_to_char.rs:70-73) for a buffer of the width announced
by its first byte: the standard library's validation (RFC 3629: continuation bytes, no overlong forms, no surrogates,
at most U+10FFFF). -/
def fromUtf8 : List UInt8 → Option Char
  | [a, b] =>
    if 0xC2 ≤ a.toNat ∧ a.toNat < 0xE0 ∧ IsCont b then
      scalar ((a.toNat - 0xC0) * 64 + (b.toNat - 0x80))
    else none
  | [a, b, c] =>
    if 0xE0 ≤ a.toNat ∧ a.toNat < 0xF0 ∧ IsCont b ∧ IsCont c then
      let v := (a.toNat - 0xE0) * 4096 + (b.toNat - 0x80) * 64 + (c.toNat - 0x80)
      if 0x800 ≤ v then scalar v else none
    else none
  | [a, b, c, d] =>
    if 0xF0 ≤ a.toNat ∧ a.toNat < 0xF5 ∧ IsCont b ∧ IsCont c ∧ IsCont d then
      let v := (a.toNat - 0xF0) * 262144 + (b.toNat - 0x80) * 4096 + (c.toNat - 0x80) * 64 + (d.toNat - 0x80)
      if 0x10000 ≤ v then scalar v else none
    else none
  | _ => none

/-- The inner `while start < width` of `ByteToChar::next`, byte_to_char.rs:57-69: fetch `k` more bytes. -/
def moreBytes : Nat → InternalReader → Except CharsError (List UInt8) × InternalReader
  | 0, r => (.ok [], r)
  | k + 1, r =>
    match r.next with
    | (some (.error e), r) => (.error (.other e), r)
    | (none, r) => (.error .notUtf8, r)
    | (some (.ok b), r) =>
      match moreBytes k r with
      | (.ok bs, r) => (.ok (b :: bs), r)
      | (.error e, r) => (.error e, r)

/-- `ByteToChar::next`, byte_to_char.rs:42-74. (`ByteToChar` only wraps an `InternalReader`.) -/
def nextChar (r : InternalReader) : Option (Except CharsError Char) × InternalReader :=
  match r.next with
  | (some (.error e), r) => (some (.error (.other e)), r)
  | (none, r) => (none, r)
  | (some (.ok first), r) =>
    let width := utf8CharWidth first
    if width == 1 then (some (.ok (Char.ofNat first.toNat)), r)
    else if width == 0 then (some (.error .notUtf8), r)
    else
      match moreBytes (width - 1) r with
      | (.error e, r) => (some (.error e), r)
      | (.ok bs, r) =>
        match fromUtf8 (first :: bs) with
        | some c => (some (.ok c), r)
        | none => (some (.error .notUtf8), r)

/-- `for c in byte_to_char`: the characters up to the end or the first error (fuel: number of characters). -/
def drain : Nat → InternalReader → List Char × Option CharsError
  | 0, _ => ([], none)
  | fuel + 1, r =>
    match nextChar r with
    | (none, _) => ([], none)
    | (some (.error e), _) => ([], some e)
    | (some (.ok c), r) => let d := drain fuel r; (c :: d.1, d.2)

/-- `JsonRead`, src/json/read/json_read.rs:13-21, with the predicate fixed to `keep_element`. -/
structure JsonRead where
  minifier : St := {}
  read : Option (List Event)
  iter : Option InternalReader := none
  initialized : Bool := false
  itemIter : Option (List UInt8) := none
  item1 : Option Char := none
  deriving Repr, DecidableEq

/-- `minify_from_read`, src/json/mod.rs:76-78 and `JsonRead::new`, json_read.rs:25-35. -/
def minifyFromRead (r : List Event) : JsonRead := { read := some r }

/-- What a call to `read` gives: `Ok(n)` with the `n` bytes put at the front of the buffer, an error, or a panic. -/
inductive Res where
  | ok (bytes : List UInt8)
  | err (k : Kind)
  | panic
  deriving Repr, DecidableEq

/-- `From<CharsError> for Error`, json_read.rs:102-106: every cause becomes `InvalidData`. -/
def CharsError.toKind : CharsError → Kind := fun _ => .invalidData

/-- `add_char_to_buffer`, json_read.rs:47-58: move bytes of `item_iter` to the buffer while there is room. Answer: bytes
written so far and what is left in `item_iter`. -/
def addChar (room : Nat) (bytes : List UInt8) : List UInt8 × List UInt8 := (bytes.take room, bytes.drop room)

/-- The `while let` loop of `read`, json_read.rs:88-98. `out` is what is already in the buffer, `n` its length. The fuel
bounds the number of iterations; `loop_fuel` in `Proofs/JsonRead` shows that `JsonRead.read` hands out enough. -/
def loop (n : Nat) : Nat → JsonRead → List UInt8 → Res × JsonRead
  | 0, j, _ => (.panic, j)
  | fuel + 1, j, out =>
    match j.item1, j.iter with
    | none, _ => (.ok out, j)
    | some _, none => (.panic, j)
    | some item, some it =>
      match nextChar it with
      | (some (.error e), it) => (.err e.toKind, { j with item1 := none, iter := some it })
      | (nx, it) =>
        let item1 : Option Char := match nx with
          | some (.ok c) => some c
          | _ => none
        let k := keepElement j.minifier item item1
        let j := { j with item1 := item1, iter := some it, minifier := k.2 }
        let p := if k.1 then addChar (n - out.length) (String.utf8EncodeChar item) else ([], j.itemIter.getD [])
        let j := if k.1 then { j with itemIter := some p.2 } else j
        let out := out ++ p.1
        if out.length ≥ n then (.ok out, j) else loop n fuel j out

/-- How many bytes a script can still deliver. -/
def Script.size : List Event → Nat
  | [] => 0
  | .chunk bs :: es => bs.length + 1 + Script.size es
  | .fail _ :: es => 1 + Script.size es

/-- Fuel for `loop`: more than the characters that can still come. -/
def fuelFor (j : JsonRead) : Nat :=
  match j.iter with
  | none => 2
  | some it => it.buffer.data.length + Script.size it.read + 2

/-- `JsonRead::read`, json_read.rs:75-99, for a buffer of length `n`. -/
def JsonRead.readBuf (j : JsonRead) (n : Nat) : Res × JsonRead :=
  if n == 0 then (.ok [], j)
  else if j.initialized then loop n (fuelFor j) j []
  else
    match j.read with
    | none => (.panic, j)
    | some r =>
      let j := { j with read := none }
      match InternalReader.new r n with
      | .error k => (.err k, j)
      | .ok it =>
        match nextChar it with
        | (some (.error e), it) => (.err e.toKind, { j with iter := some it })
        | (nx, it) =>
          let item1 : Option Char := match nx with
            | some (.ok c) => some c
            | _ => none
          let j := { j with iter := some it, item1 := item1, initialized := true }
          loop n (fuelFor j) j []

/-- A sequence of calls to `read` with buffers of the given lengths. A panic ends the sequence. -/
def runReads : JsonRead → List Nat → List Res × JsonRead
  | j, [] => ([], j)
  | j, n :: ns =>
    match j.readBuf n with
    | (.panic, j) => ([.panic], j)
    | (r, j) =>
      let (rs, j) := runReads j ns
      (r :: rs, j)

/-- All the bytes a sequence of calls has delivered. -/
def delivered : List Res → List UInt8
  | [] => []
  | .ok bs :: rs => bs ++ delivered rs
  | _ :: rs => delivered rs

end Verif.JsonRead
