import Verif.Model.JsLex
/-!
# `minifier::js`: cleaning, replacing and writing token lists

Transcription of `src/js/token.rs` 1020-1071, `src/js/utils.rs` 116-397 and `src/js/tools.rs` 187-206.
-/
namespace Verif.Js

/-! ## Cleaning -/

/-- `get_next`, src/js/utils.rs:243-252: the next useful token and the rest. -/
def getNext : List Token → Option (Token × List Token)
  | [] => none
  | t :: ts => if t.isComment || t.isWhite then getNext ts else some (t, ts)

/-- The loop of `clean_tokens`, utils.rs:273-296. `v` has its last element first. -/
def cleanLoop : Nat → List Token → List Token → List Token
  | 0, v, _ => v
  | fuel + 1, v, ts =>
    match getNext ts with
    | none => v
    | some (t, ts) =>
      if t.isWhite then cleanLoop fuel v ts
      else if t.getChar == some .semiColon && v.isEmpty then cleanLoop fuel v ts
      else cleanLoop fuel (t :: v) ts

/-- `clean_tokens`, utils.rs:269-298. The loop takes at least one token per turn, so the length is enough fuel. -/
def cleanTokens (ts : List Token) : List Token := (cleanLoop (ts.length + 1) [] ts).reverse

/-- `clean_token`, utils.rs:302-312. -/
def cleanToken (t : Token) (next : Option Token) : Bool :=
  !t.isComment &&
    match t.getChar with
    | some x => !x.isWhite && (x != .semiColon || next != some (.char .closeCurly))
    | none => true

/-- `get_next_except`, utils.rs:314-326. -/
def getNextExcept (f : Token → Bool) : List Token → Option (Token × List Token)
  | [] => none
  | t :: ts => if (t.isComment || t.isWhite) && f t then getNextExcept f ts else some (t, ts)

/-- The loop of `clean_tokens_except`, utils.rs:352-380. `v` has its last element first. -/
def cleanExceptLoop (f : Token → Bool) : Nat → List Token → List Token → List Token
  | 0, v, _ => v
  | fuel + 1, v, ts =>
    match getNextExcept f ts with
    | none => v
    | some (t, ts) =>
      if t.isWhite then
        if f t then cleanExceptLoop f fuel v ts else cleanExceptLoop f fuel (t :: v) ts
      else if t.getChar == some .semiColon then
        if v.isEmpty then cleanExceptLoop f fuel (if !f t then t :: v else v) ts
        else
          match getNextExcept f ts with
          | some (next, ts) =>
            cleanExceptLoop f fuel (next :: (if next != .char .closeCurly || !f t then t :: v else v)) ts
          | none => cleanExceptLoop f fuel (if !f t then t :: v else v) []
      else cleanExceptLoop f fuel (t :: v) ts

/-- `clean_tokens_except`, utils.rs:348-382. -/
def cleanTokensExcept (f : Token → Bool) (ts : List Token) : List Token :=
  (cleanExceptLoop f (ts.length + 1) [] ts).reverse

/-- `clean_token_except`, utils.rs:387-397. -/
def cleanTokenExcept (f : Token → Bool) (t : Token) (next : Option Token) : Bool :=
  if !cleanToken t next then !f t else true

/-! ## Replacing -/

/-- `replace_token_with`, utils.rs:131-140. -/
def replaceTokenWith (f : Token → Option Token) (t : Token) : Token :=
  match f t with
  | some t' => t'
  | none => t

/-- `replace_tokens_with`, utils.rs:117-127. -/
def replaceTokensWith (f : Token → Option Token) : List Token → List Token
  | [] => []
  | t :: ts =>
    (match f t with
     | some t' => t'
     | none => t) :: replaceTokensWith f ts

/-! ## Finding variables -/

/-- The loop over the tokens before an identifier, utils.rs:186-197, from position `p` downwards. The token at position 0
is not looked at. -/
def backScan (ts : List Token) : Nat → Bool
  | 0 => true
  | p + 1 =>
    match ts[p + 1]? with
    | none => false
    | some t =>
      if t.isComment || t.isWhite then backScan ts p
      else t == .char .comma || t == .keyword .kLet || t == .keyword .kVar

/-- The loop after the `=`, utils.rs:207-220: position of the value (`none` is the `break`). -/
def valueScan : Nat → List Token → Option Nat
  | _, [] => none
  | i, t :: ts =>
    if t.isStr || t.isOther || t.isRegex || t.isNumber || t.isFloat then some i
    else if !t.isComment && !t.isWhite then none
    else valueScan (i + 1) ts

/-- The loop after the name, utils.rs:204-234: `none` is `break`, `some none` is `return Some((tmp, None))`. -/
def nameScan : Nat → List Token → Option (Option Nat)
  | _, [] => none
  | i, t :: ts =>
    if t == .op .equal then (valueScan (i + 1) ts).map some
    else if t.getChar == some .comma || t.getChar == some .semiColon then some none
    else if !(t.isComment || (t.isWhite && t.getChar != some .backline)) then none
    else nameScan (i + 1) ts

/-- The outer loop, utils.rs:201-239. -/
def varScan : Nat → List Token → Option (Nat × Option Nat)
  | _, [] => none
  | i, t :: ts =>
    if t.isOther then
      match nameScan (i + 1) ts with
      | some r => some (i, r)
      | none => varScan (i + 1) ts
    else varScan (i + 1) ts

/-- `get_variable_name_and_value_positions`, utils.rs:172-241. -/
def getVarPositions (ts : List Token) (pos : Nat) : Option (Nat × Option Nat) :=
  match ts[pos]? with
  | none => none
  | some (.keyword .kLet) => varScan (pos + 1) (ts.drop (pos + 1))
  | some (.keyword .kVar) => varScan (pos + 1) (ts.drop (pos + 1))
  | some (.other _) => if 0 < pos then (if backScan ts (pos - 1) then varScan pos (ts.drop pos) else none) else none
  | some _ => none

/-! ## Writing -/

/-- The blank before a token, src/js/token.rs:1027-1035. -/
def spaceBefore (prev : Option Token) (t : Token) : Bool :=
  match prev with
  | none => false
  | some p => t.requiresBefore && !p.isKeyword && !p.isOther && !p.isChar && !p.isStr

/-- The character after a token, token.rs:1037-1042. -/
def spaceAfter (t : Token) (next : Option Token) : Option Char :=
  match t with
  | .keyword _ => next.bind Token.getRequired
  | .other _ => next.bind Token.getRequired
  | _ => none

/-- `tokens_writer!` for a writer that never fails, token.rs:1023-1047; `Display for Tokens`, 1056-1061. -/
def displayFrom (prev : Option Token) : List Token → List Char
  | [] => []
  | t :: ts =>
    (if spaceBefore prev t then [' '] else []) ++ t.display ++ (spaceAfter t ts.head?).toList ++ displayFrom (some t) ts

/-- `Tokens::to_string`. -/
def display (ts : List Token) : List Char := displayFrom none ts

/-- `write!(w, "{}", token)`, with token.rs:386-415. The result of writing the body of a regex is only looked at after its
flags have been written too (lines 398-405). -/
def writeToken {σ : Type} (k : Sink σ) (s : σ) : Token → σ × Bool
  | .license x => writeChunks k s [['/', '*', '!'], x, ['*', '/']]
  | .regex r g i =>
    let x := writeChunks k s [['/'], r, ['/']]
    let y := if g then writeChunks k x.1 [['g']] else (x.1, true)
    if !y.2 then (y.1, false)
    else
      let z := if i then writeChunks k y.1 [['i']] else (y.1, true)
      if !z.2 then (z.1, false) else (z.1, x.2)
  | t => writeChunks k s [t.display]

/-- `Tokens::write`, token.rs:1049-1054 with `tokens_writer!`. -/
def writeFrom {σ : Type} (k : Sink σ) (s : σ) (prev : Option Token) : List Token → σ × Bool
  | [] => (s, true)
  | t :: ts =>
    match writeChunks k s (if spaceBefore prev t then [[' ']] else []) with
    | (s, false) => (s, false)
    | (s, true) =>
      match writeToken k s t with
      | (s, false) => (s, false)
      | (s, true) =>
        match writeChunks k s (match spaceAfter t ts.head? with | some c => [[c]] | none => []) with
        | (s, false) => (s, false)
        | (s, true) => writeFrom k s (some t) ts

/-- `Tokens::write`. -/
def write {σ : Type} (k : Sink σ) (s : σ) (ts : List Token) : σ × Bool := writeFrom k s none ts

/-- `js::minify(source)`, src/js/tools.rs:187-192: the tokens of the result. -/
def minifyTokens (source : List Char) : Out (List Token) := do
  let ts ← tokenize source
  .ok (cleanTokens ts)

/-- `js::minify(source)?.to_string()`. -/
def minify (source : List Char) : Out (List Char) := do
  let ts ← minifyTokens source
  .ok (display ts)

end Verif.Js
