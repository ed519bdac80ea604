import Verif.Model.JsToken
/-!
# `minifier::js::tokenize`

Transcription of `src/js/token.rs`, lines 545-1018. The vector `v` of tokens is a list with its last element first
(`v.last()` is the head, `push` is `cons`, `pop` is `tail`) until `tokenize` returns it.

The Rust loops jump around in an iterator with look-ahead and a replay buffer. They become recursions with fuel; each call
hands out `Peek.weight it + 1`, and `Proofs/JsTerm` shows that this is always enough.
-/
namespace Verif.Js

abbrev Iter := List (Nat × Char)

/-- `MyPeekable`, token.rs:846-851; `{ inner := indices source }` is `MyPeekable::new` (853-861). -/
structure Peek where
  inner : Iter
  saved : Iter := []
  peeked : Option (Nat × Char) := none
  isSaving : Bool := false
  deriving Repr, DecidableEq

namespace Peek

/-- `start_save`, token.rs:863-868. -/
def startSave (it : Peek) : Peek :=
  { it with isSaving := true, saved := match it.peeked with | some p => it.saved ++ [p] | none => it.saved }

/-- `drop_save`, token.rs:870-873. -/
def dropSave (it : Peek) : Peek := { it with isSaving := false, saved := [] }

/-- `stop_save`, token.rs:875-881. -/
def stopSave (it : Peek) : Peek :=
  { it with isSaving := false, saved := (match it.peeked with | some p => it.saved ++ [p] | none => it.saved), peeked := none }

/-- `peek`, token.rs:884-894: answer and new state. -/
def peek (it : Peek) : Option (Nat × Char) × Peek :=
  match it.peeked with
  | some p => (some p, it)
  | none =>
    match it.inner with
    | [] => (none, it)
    | p :: r => (some p, { it with inner := r, peeked := some p, saved := if it.isSaving then it.saved ++ [p] else it.saved })

/-- `Iterator::next`, token.rs:897-916. -/
def next (it : Peek) : Option (Nat × Char) × Peek :=
  match it.peeked with
  | some p => (some p, { it with peeked := none })
  | none =>
    match it.isSaving, it.saved with
    | false, p :: r => (some p, { it with saved := r })
    | _, _ =>
      match it.inner with
      | [] => (none, it)
      | p :: r => (some p, { it with inner := r, saved := if it.isSaving then it.saved ++ [p] else it.saved })

/-- How many items can still come, at most (for the fuel). -/
def weight (it : Peek) : Nat := 2 * it.inner.length + it.saved.length + (if it.peeked.isSome then 1 else 0)

end Peek

/-- What stands for running forever. -/
def noFuel {α : Type} : Out α := .panic "out of fuel"

/-- `&source[a..b]`. -/
def sub (source : List Char) (a b : Nat) : Out (List Char) := Out.ofOption "slice" (slice source a b)

/-- The loop of `get_line_comment`, token.rs:551-559. Answer: the token and the new `start_pos`, if any. -/
def lineLoop (source : List Char) (start : Nat) : Nat → Peek → Out (Option (Token × Nat) × Peek)
  | 0, _ => noFuel
  | fuel + 1, it =>
    match it.next with
    | (none, it) => .ok (none, it)
    | (some (pos, c), it) =>
      if RChar.ofChar c == some .backline then do
        let s ← sub source start pos
        .ok (some (.comment s, pos), it)
      else lineLoop source start fuel it

/-- `get_line_comment`, token.rs:545-561. The last component is the new `start_pos`. -/
def getLineComment (source : List Char) (it : Peek) (startPos : Nat) : Out (Option Token × Peek × Nat) := do
  match ← lineLoop source (startPos + 1) (it.weight + 1) it with
  | (some (t, p), it) => .ok (some t, it, p)
  | (none, it) => .ok (none, it, startPos + 1)

/-- The `while back > 0` loop at the beginning of `get_regex`, token.rs:569-590: `false` is the early `None`. -/
def regexAllowed : List Token → Bool
  | [] => true
  | t :: v =>
    if t.isWhite || t.isComment || t.isLicense then regexAllowed v
    else
      match t with
      | .char .semiColon => true
      | .char .colon => true
      | .char .comma => true
      | .char .openBracket => true
      | .char .openParen => true
      | .char .exclamationMark => true
      | .char .openCurly => true
      | .char .questionMark => true
      | .char .backline => true
      | .char .pipe => true
      | .char .ampersand => true
      | t => t.isOp || t.isCond

/-- The flags of a regex, token.rs:600-611: `is_global`, `is_interactive`, `add`. -/
def flagLoop : Nat → Peek → Bool → Bool → Nat → Out (Bool × Bool × Nat × Peek)
  | 0, _, _, _, _ => noFuel
  | fuel + 1, it, g, i, add =>
    match it.peek with
    | (some (_, 'i'), it) => flagLoop fuel it.next.2 g true (add + 1)
    | (some (_, 'g'), it) => flagLoop fuel it.next.2 true i (add + 1)
    | (_, it) => .ok (g, i, add, it)

/-- The `while let` loop of `get_regex`, token.rs:592-624, with the `stop_save` after it. -/
def regexLoop (source : List Char) (startPos : Nat) : Nat → Peek → Out (Option (Token × Nat) × Peek)
  | 0, _ => noFuel
  | fuel + 1, it =>
    match it.next with
    | (none, it) => .ok (none, it.stopSave)
    | (some (pos, c), it) =>
      if c == '\\' then regexLoop source startPos fuel it.next.2
      else if RChar.ofChar c == some .slash then do
        let (g, i, add, it) ← flagLoop (it.weight + 1) it false false 0
        let r ← sub source (startPos + 1) pos
        .ok (some (.regex r g i, pos + add), it.dropSave)
      else if RChar.ofChar c == some .backline then .ok (none, it.stopSave)
      else regexLoop source startPos fuel it

/-- `get_regex`, token.rs:563-627. -/
def getRegex (source : List Char) (it : Peek) (startPos : Nat) (v : List Token) : Out (Option Token × Peek × Nat) :=
  if !regexAllowed v then .ok (none, it, startPos)
  else do
    let it := it.startSave
    match ← regexLoop source startPos (it.weight + 1) it with
    | (some (t, p), it) => .ok (some t, it, p)
    | (none, it) => .ok (none, it, startPos)

/-- The `for` loop of `get_comment`, token.rs:651-662: the final `current_pos`. -/
def commentLoop : Nat → RChar → Nat → Peek → Out (Nat × Peek)
  | 0, _, _, _ => noFuel
  | fuel + 1, prev, cur, it =>
    match it.next with
    | (none, it) => .ok (cur, it)
    | (some (pos, c), it) =>
      match RChar.ofChar c with
      | some rc =>
        if rc == .slash && prev == .star then
          if pos < 2 then .panic "attempt to subtract with overflow" else .ok (pos - 2, it)
        else commentLoop fuel rc pos it
      | none => commentLoop fuel .space pos it

/-- `get_comment`, token.rs:629-668. -/
def getComment (source : List Char) (it : Peek) (startPos : Nat) : Out (Token × Peek × Nat) := do
  let startPos := startPos + 1
  let (license, startPos, prev, it) := match it.next with
    | (some (_, c), it) =>
      if c == '!' then (true, startPos + 1, RChar.quote, it)
      else (false, startPos, (RChar.ofChar c).getD .quote, it)
    | (none, it) => (false, startPos, RChar.quote, it)
  let (cur, it) ← commentLoop (it.weight + 1) prev startPos it
  if blen source < 1 then .panic "attempt to subtract with overflow"
  else do
    let cur := min cur (blen source - 1)
    let s ← sub source startPos (cur + 1)
    .ok (if license then .license s else .comment s, it, cur + 2)

/-- `get_string`, token.rs:670-691. -/
def strLoop (source : List Char) (startPos : Nat) (start : RChar) : Nat → Peek → Out (Option (Token × Nat) × Peek)
  | 0, _ => noFuel
  | fuel + 1, it =>
    match it.next with
    | (none, it) => .ok (none, it)
    | (some (pos, c), it) =>
      if c == '\\' then strLoop source startPos start fuel it.next.2
      else if RChar.ofChar c == some start then do
        let s ← sub source startPos (pos + 1)
        .ok (some (.str s, pos), it)
      else strLoop source startPos start fuel it

/-- `get_string`, token.rs:670-691. -/
def getString (source : List Char) (it : Peek) (startPos : Nat) (start : RChar) : Out (Option Token × Peek × Nat) := do
  match ← strLoop source startPos start (it.weight + 1) it with
  | (some (t, p), it) => .ok (some t, it, p)
  | (none, it) => .ok (none, it, startPos)

/-- `MAX_BACKTICK_NESTING`, token.rs:697. -/
def maxBacktickNesting : Nat := 1000

mutual

/-- `get_backtick_string`, token.rs:699-753. -/
def backtick (source : List Char) (startPos depth : Nat) : Nat → Peek → Out (Option (Token × Nat) × Peek)
  | 0, _ => noFuel
  | fuel + 1, it =>
    match it.next with
    | (none, it) => .ok (none, it)
    | (some (pos, c), it) =>
      if c == '\\' then backtick source startPos depth fuel it.next.2
      else
        -- `c == '$' && iterator.peek()...`: the iterator is only peeked into after a `$`
        let (brace, it) := if c == '$' then (it.peek.1.map Prod.snd == some '{', it.peek.2) else (false, it)
        if brace then do
          match ← interpolation source depth 0 fuel it with
          | (true, it) => backtick source startPos depth fuel it
          | (false, it) => .ok (none, it)
        else if c == '`' then do
          let s ← sub source startPos (pos + 1)
          .ok (some (.str s, pos), it)
        else backtick source startPos depth fuel it

/-- The inner `loop` of `get_backtick_string`, token.rs:714-745: `false` is the `return Ok(None)`. -/
def interpolation (source : List Char) (depth : Nat) (count : Int) : Nat → Peek → Out (Bool × Peek)
  | 0, _ => noFuel
  | fuel + 1, it =>
    match it.next with
    | (none, it) => .ok (false, it)
    | (some (pos, c), it) =>
      if c == '\\' then interpolation source depth count fuel it.next.2
      else if c == '"' || c == '\'' then do
        let (_, it, _) ← getString source it pos (if c == '"' then .doubleQuote else .quote)
        interpolation source depth count fuel it
      else if c == '`' then
        if depth ≥ maxBacktickNesting then .err "Too nested backtick (`) string"
        else do
          let (_, it) ← backtick source pos (depth + 1) fuel it
          interpolation source depth count fuel it
      else if c == '{' then interpolation source depth (count + 1) fuel it
      else if c == '}' then
        if count - 1 = 0 then .ok (true, it) else interpolation source depth (count - 1) fuel it
      else interpolation source depth count fuel it

end

/-- The call of `get_backtick_string` in `tokenize`. -/
def getBacktick (source : List Char) (it : Peek) (startPos : Nat) : Out (Option Token × Peek × Nat) := do
  match ← backtick source startPos 0 (it.weight + 1) it with
  | (some (t, p), it) => .ok (some t, it, p)
  | (none, it) => .ok (none, it, startPos)

/-- `first_useful`, token.rs:755-763. -/
def firstUseful : List Token → Option Token
  | [] => none
  | t :: v => if t.isWhite then firstUseful v else some t

/-- The token for a word, token.rs:767-775. -/
def wordToken (w : List Char) : Token :=
  match Keyword.ofStr w with
  | some k => .keyword k
  | none =>
    match parseU64 w with
    | some n => .number n
    | none => if isF64 w then .float w else .other w

/-- `fill_other`, token.rs:765-777. -/
def fillOther (source : List Char) (v : List Token) (start pos : Nat) : Out (List Token) :=
  if start < pos then do
    let w ← sub source start pos
    .ok (wordToken w :: v)
  else .ok v

/-- `handle_equal_sign`, token.rs:779-833: `none` is `false`. -/
def handleEqualSign (v : List Token) (c : RChar) : Option (List Token) :=
  if c != .equalSign then none
  else
    match v.head?.getD (.other []) with
    | .op .equal => some (.cond .equalTo :: v.tail)
    | .cond .equalTo => some (.cond .superEqualTo :: v.tail)
    | .char .exclamationMark => some (.cond .differentThan :: v.tail)
    | .cond .differentThan => some (.cond .superDifferentThan :: v.tail)
    | .op .divide => some (.op .divideEqual :: v.tail)
    | .op .multiply => some (.op .multiplyEqual :: v.tail)
    | .op .addition => some (.op .additionEqual :: v.tail)
    | .op .subtract => some (.op .subtractEqual :: v.tail)
    | .op .modulo => some (.op .moduloEqual :: v.tail)
    | .cond .superiorThan => some (.cond .superiorOrEqualTo :: v.tail)
    | .cond .inferiorThan => some (.cond .inferiorOrEqualTo :: v.tail)
    | _ => none

/-- `x as u8 >= b'0' && x as u8 <= b'9'`, token.rs:841: the cast keeps the low eight bits. -/
def lowByteIsDigit (c : Char) : Bool := decide (48 ≤ c.toNat % 256) && decide (c.toNat % 256 ≤ 57)

/-- `check_if_number`, token.rs:835-844: answer and iterator (the last test peeks). -/
def checkIfNumber (source : List Char) (it : Peek) (start pos : Nat) : Out (Bool × Peek) := do
  let w ← sub source start pos
  if w.contains '.' then .ok (false, it)
  else if (parseU64 w).isSome then .ok (true, it)
  else
    match it.peek with
    | (some (_, x), it) => .ok (lowByteIsDigit x, it)
    | (none, it) => .ok (false, it)

/-- The characters that may follow the dot of a number, token.rs:935. -/
def afterDot : List Char := "0123456789,; \t\n<>/*&|{}[]-+=~%^:!".toList

/-- The token of a reserved character that is not treated specially, token.rs:1005-1011. -/
def charToken (c : RChar) : Token :=
  match Op.ofRChar c with
  | some o => .op o
  | none =>
    match Cond.ofRChar c with
    | some o => .cond o
    | none => .char c

/-- The last two arms of the `match` in `tokenize`, token.rs:1003-1012. -/
def defaultArm (v : List Token) (c : RChar) : List Token :=
  match handleEqualSign v c with
  | some v => v
  | none => charToken c :: v

/-- `v.push(s)` if there is one. -/
def pushOpt (v : List Token) : Option Token → List Token
  | some t => t :: v
  | none => v

/-- The guard of the regex arm, token.rs:967-971: answer and iterator. -/
def regexGuard (it : Peek) (v : List Token) : Bool × Peek :=
  match it.peek with
  | (some (_, x), it) => (x != '/' && x != '*' && !((firstUseful v).getD (.str [])).isOther, it)
  | (none, it) => (false, it)

/-- `v.last().unwrap_or(&Token::Other(""))`. -/
def lastToken (v : List Token) : Token := v.head?.getD (.other [])

/-- The `match c` of `tokenize`, token.rs:946-1013: new vector, iterator and `pos`. -/
def reserved (source : List Char) (v : List Token) (it : Peek) (pos : Nat) (c : RChar) : Out (List Token × Peek × Nat) :=
  match c with
  | .quote => do
    let (s, it, pos) ← getString source it pos c
    .ok (pushOpt v s, it, pos)
  | .doubleQuote => do
    let (s, it, pos) ← getString source it pos c
    .ok (pushOpt v s, it, pos)
  | .backTick => do
    let (s, it, pos) ← getBacktick source it pos
    .ok (pushOpt v s, it, pos)
  | .slash =>
    if (lastToken v).eqOp .divide then do
      let (s, it, pos) ← getLineComment source it pos
      .ok (pushOpt v.tail s, it, pos)
    else
      let (g, it) := regexGuard it v
      if g then do
        match ← getRegex source it pos v with
        | (some r, it, pos) => .ok (r :: v, it, pos)
        | (none, it, pos) => .ok (.op .divide :: v, it, pos)
      else .ok (defaultArm v c, it, pos)
  | .star =>
    if (lastToken v).eqOp .divide then do
      let (s, it, pos) ← getComment source it pos
      .ok (s :: v.tail, it, pos)
    else .ok (defaultArm v c, it, pos)
  | .pipe => if (lastToken v).eqChar .pipe then .ok (.cond .or :: v.tail, it, pos) else .ok (defaultArm v c, it, pos)
  | .ampersand => if (lastToken v).eqChar .ampersand then .ok (.cond .and :: v.tail, it, pos) else .ok (defaultArm v c, it, pos)
  | c => .ok (defaultArm v c, it, pos)

/-- The treatment of a dot, token.rs:932-944: `none` is the `continue`, `some` the new `v` and `start`. -/
def dotCheck (source : List Char) (v : List Token) (start pos : Nat) (it : Peek) :
    Out (Option (List Token × Nat) × Peek) := do
  let (num, it) ← checkIfNumber source it start pos
  if num then
    match it.peek with
    | (some (_, x), it) =>
      if !afterDot.contains x then do
        let v ← fillOther source v start pos
        .ok (some (v, pos), it)
      else .ok (none, it)
    | (none, it) => .ok (none, it)
  else .ok (some (v, start), it)

/-- The `if` around it: only a dot is checked. -/
def dotStep (source : List Char) (v : List Token) (start pos : Nat) (it : Peek) (rc : RChar) :
    Out (Option (List Token × Nat) × Peek) :=
  if rc == .dot then dotCheck source v start pos it else .ok (some (v, start), it)

/-- The `loop` of `tokenize`, token.rs:923-1016. -/
def tokLoop (source : List Char) : Nat → List Token → Nat → Peek → Out (List Token)
  | 0, _, _, _ => noFuel
  | fuel + 1, v, start, it =>
    match it.next with
    | (none, _) => fillOther source v start (blen source)
    | (some (pos, c), it) =>
      match RChar.ofChar c with
      | none => tokLoop source fuel v start it
      | some rc => do
        let (r, it) ← dotStep source v start pos it rc
        match r with
        | none => tokLoop source fuel v start it
        | some (v, start) => do
          let v ← fillOther source v start pos
          let (v, it, pos) ← reserved source v it pos rc
          tokLoop source fuel v (pos + 1) it

/-- `tokenize`, token.rs:918-1018, also `simple_minify`, src/js/tools.rs:618-620. -/
def tokenize (source : List Char) : Out (List Token) := do
  let it : Peek := { inner := indices source }
  let v ← tokLoop source (it.weight + 1) [] 0 it
  .ok v.reverse

end Verif.Js
