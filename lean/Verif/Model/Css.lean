import Verif.Basic.Sink
/-!
# `minifier::css::minify`

Transcription of `src/css/token.rs` and `src/css/mod.rs`. The vector `v` of tokens is a list with its last element
first (`v.last()` is the head, `push` is `cons`, `pop` is `tail`) until it is handed to `clean_tokens`.

`Char::is_alphabetic` is a parameter `alpha`, so that everything holds whatever the Unicode version.
-/
namespace Verif.Css

/-- `ReservedChar`, src/css/token.rs:9-34. -/
inductive RChar where
  | comma | superiorThan | openParen | closeParen | openCurly | closeCurly | openBracket | closeBracket
  | colon | semiColon | slash | plus | equalSign | space | tab | backline | star | quote | doubleQuote
  | pipe | tilde | dollar | circumflex | backslash
  deriving Repr, DecidableEq

/-- `Display for ReservedChar`, token.rs:36-69. -/
def RChar.toChar : RChar → Char
  | .comma => ','
  | .openParen => '('
  | .closeParen => ')'
  | .openCurly => '{'
  | .closeCurly => '}'
  | .openBracket => '['
  | .closeBracket => ']'
  | .colon => ':'
  | .semiColon => ';'
  | .slash => '/'
  | .star => '*'
  | .plus => '+'
  | .equalSign => '='
  | .space => ' '
  | .tab => '\t'
  | .backline => '\n'
  | .superiorThan => '>'
  | .quote => '\''
  | .doubleQuote => '"'
  | .pipe => '|'
  | .tilde => '~'
  | .dollar => '$'
  | .circumflex => '^'
  | .backslash => '\\'

/-- `TryFrom<char> for ReservedChar`, token.rs:71-103. -/
def RChar.ofChar (c : Char) : Option RChar :=
  match c with
  | '\'' => some .quote
  | '"' => some .doubleQuote
  | ',' => some .comma
  | '(' => some .openParen
  | ')' => some .closeParen
  | '{' => some .openCurly
  | '}' => some .closeCurly
  | '[' => some .openBracket
  | ']' => some .closeBracket
  | ':' => some .colon
  | ';' => some .semiColon
  | '/' => some .slash
  | '*' => some .star
  | '+' => some .plus
  | '=' => some .equalSign
  | ' ' => some .space
  | '\t' => some .tab
  | '\n' => some .backline
  | '\r' => some .backline
  | '>' => some .superiorThan
  | '|' => some .pipe
  | '~' => some .tilde
  | '$' => some .dollar
  | '^' => some .circumflex
  | '\\' => some .backslash
  | _ => none

/-- `ReservedChar::is_useless`, token.rs:106-110. -/
def RChar.isUseless (c : RChar) : Bool := c == .space || c == .tab || c == .backline

/-- `Operator`, token.rs:117-124. -/
inductive Operator where
  | plus | multiply | minus | modulo | divide
  deriving Repr, DecidableEq

/-- `Display for Operator`, token.rs:126-140. -/
def Operator.toChar : Operator → Char
  | .plus => '+'
  | .multiply => '*'
  | .minus => '-'
  | .modulo => '%'
  | .divide => '/'

/-- `TryFrom<ReservedChar> for Operator`, token.rs:157-168. (`TryFrom<char>`, 142-155, has no caller.) -/
def Operator.ofRChar : RChar → Option Operator
  | .slash => some .divide
  | .star => some .multiply
  | .plus => some .plus
  | _ => none

/-- `ReservedChar::is_operator`, token.rs:112-114. -/
def RChar.isOperator (c : RChar) : Bool := (Operator.ofRChar c).isSome

/-- `SelectorElement`, token.rs:170-177. -/
inductive Sel where
  | pseudoClass (s : List Char)
  | cls (s : List Char)
  | id (s : List Char)
  | tag (s : List Char)
  | media (s : List Char)
  deriving Repr, DecidableEq

/-- `TryFrom<&str> for SelectorElement`, token.rs:179-213 (`none` is `Err`; the message is never looked at).
`value.chars().next().unwrap_or(' ')` is a blank for the empty string, which is not alphabetic. -/
def Sel.ofStr (alpha : Char → Bool) : List Char → Option Sel
  | '.' :: v => if v.isEmpty then none else some (.cls v)
  | '#' :: v => if v.isEmpty then none else some (.id v)
  | '@' :: v => if v.isEmpty then none else some (.media v)
  | ':' :: v => if v.isEmpty then none else some (.pseudoClass v)
  | c :: v => if alpha c then some (.tag (c :: v)) else none
  | [] => none

/-- `Display for SelectorElement`, token.rs:215-225. -/
def Sel.display : Sel → List Char
  | .cls c => '.' :: c
  | .id i => '#' :: i
  | .tag t => t
  | .media m => '@' :: m ++ [' ']
  | .pseudoClass p => ':' :: p

/-- `SelectorOperator`, token.rs:227-239. -/
inductive SelOp where
  | oneAttributeEquals | equalsOrStartsWithFollowedByDash | endsWith | firstStartsWith | contains
  deriving Repr, DecidableEq

/-- `Display for SelectorOperator`, token.rs:241-251. -/
def SelOp.display : SelOp → List Char
  | .oneAttributeEquals => ['~', '=']
  | .equalsOrStartsWithFollowedByDash => ['|', '=']
  | .endsWith => ['$', '=']
  | .firstStartsWith => ['^', '=']
  | .contains => ['*', '=']

/-- `Token`, token.rs:253-265. -/
inductive Token where
  | comment (s : List Char)
  | license (s : List Char)
  | char (c : RChar)
  | other (s : List Char)
  | sel (s : Sel)
  | str (s : List Char)
  | selOp (o : SelOp)
  | operator (o : Operator)
  deriving Repr, DecidableEq

/-- `Display for Token`, token.rs:267-282 (`writeln!` for a licence). -/
def Token.display : Token → List Char
  | .comment c => c
  | .license l => '/' :: '*' :: '!' :: l ++ ['*', '/', '\n']
  | .char c => [c.toChar]
  | .other s => s
  | .sel s => s.display
  | .str s => s
  | .selOp o => o.display
  | .operator o => [o.toChar]

/-- `Token::is_comment`, token.rs:285-287. -/
def Token.isComment : Token → Bool
  | .comment _ => true
  | _ => false

/-- `Token::is_char`, token.rs:289-291. -/
def Token.isChar : Token → Bool
  | .char _ => true
  | _ => false

/-- `Token::get_char`, token.rs:293-298. -/
def Token.getChar : Token → Option RChar
  | .char c => some c
  | _ => none

/-- `Token::is_useless`, token.rs:300-305. -/
def Token.isUseless : Token → Bool
  | .char c => c.isUseless
  | _ => false

/-- `Token::is_a_media`, token.rs:307-309. -/
def Token.isMedia : Token → Bool
  | .sel (.media _) => true
  | _ => false

/-- `Token::is_a_selector_element`, token.rs:311-313. -/
def Token.isSel : Token → Bool
  | .sel _ => true
  | _ => false

/-- `Token::is_a_license`, token.rs:315-317. -/
def Token.isLicense : Token → Bool
  | .license _ => true
  | _ => false

/-- `Token::is_operator`, token.rs:319-325. -/
def Token.isOperator : Token → Bool
  | .operator _ => true
  | .char c => c.isOperator
  | _ => false

/-- An iterator over `char_indices()`: what is left. -/
abbrev Iter := List (Nat × Char)

/-- `&source[a..b]`. -/
def sub (source : List Char) (a b : Nat) : Out (List Char) := Out.ofOption "slice" (slice source a b)

/-- The `for` loop of `get_comment`, token.rs:359-371. `none` is the `None` at the end. -/
def commentLoop (source : List Char) (license : Bool) (contentStart : Nat) :
    RChar → Iter → Out (Option (Token × Nat × Iter))
  | _, [] => .ok none
  | prev, (pos, c) :: it =>
    match RChar.ofChar c with
    | some rc =>
      if rc == .slash && prev == .star then do
        if pos = 0 then .panic "attempt to subtract with overflow" else
        let body ← sub source contentStart (pos - 1)
        return some (if license then .license body else .comment body, pos, it)
      else commentLoop source license contentStart rc it
    | none => commentLoop source license contentStart .space it

/-- `get_comment`, token.rs:337-372; also returns the new `start_pos` and the iterator. -/
def getComment (source : List Char) (it : Iter) (startPos : Nat) : Out (Option (Token × Nat × Iter)) :=
  match it with
  | [] => commentLoop source false (startPos + 1) .quote []
  | (_, c) :: it =>
    if c == '!' || (c == '*' && it.head?.map Prod.snd != some '/') then
      commentLoop source true (startPos + 2) .quote it
    else
      commentLoop source false (startPos + 1) ((RChar.ofChar c).getD .quote) it

/-- `get_string`, token.rs:374-395. -/
def getString (source : List Char) (startPos : Nat) (start : RChar) : Iter → Out (Option (Token × Nat × Iter))
  | [] => .ok none
  | [(pos, c)] =>
    if c == '\\' then .ok none
    else if RChar.ofChar c == some start then do
      let s ← sub source startPos (pos + 1)
      return some (.str s, pos, [])
    else .ok none
  | (pos, c) :: x :: it =>
    if c == '\\' then getString source startPos start it
    else if RChar.ofChar c == some start then do
      let s ← sub source startPos (pos + 1)
      return some (.str s, pos, x :: it)
    else getString source startPos start (x :: it)

/-- The variables of `tokenize`, token.rs:433-438. `v` has its last element first. -/
structure TS where
  v : List Token := []
  start : Nat := 0
  isInBlock : Int := 0
  isInMedia : Bool := false
  isInAttr : Bool := false
  deriving Repr, DecidableEq

/-- `fill_other`, token.rs:397-429. -/
def fillOther (alpha : Char → Bool) (source : List Char) (st : TS) (pos : Nat) : Out (List Token) :=
  if st.start < pos then
    if !st.isInAttr && ((st.isInBlock == 0 && !st.isInMedia) || (st.isInMedia && st.isInBlock == 1)) then do
      let isPseudoClass := st.v.head? == some (.char .colon)
      let add := if isPseudoClass then 1 else 0
      if st.start < add then .panic "attempt to subtract with overflow" else
      let w ← sub source (st.start - add) pos
      match Sel.ofStr alpha w with
      | some s => return .sel s :: (if isPseudoClass then st.v.tail else st.v)
      | none =>
        let s ← sub source st.start pos
        return .other s :: st.v
    else do
      let s ← sub source st.start pos
      return .other s :: st.v
  else .ok st.v

/-- The selector operator made of `v.last()` and an `=`, token.rs:529-543. -/
def selOpOf (v : List Token) : Option SelOp :=
  match ((v.head?.getD (.char .space)).getChar).getD .space with
  | .tilde => some .oneAttributeEquals
  | .pipe => some .equalsOrStartsWithFollowedByDash
  | .dollar => some .endsWith
  | .circumflex => some .firstStartsWith
  | .star => some .contains
  | _ => none

/-- When a blank is recorded, token.rs:555-569. -/
def wantsSpace : Option Token → Bool
  | some c =>
    !c.isUseless && (!c.isChar || c.isOperator || c.getChar == some .closeParen || c.getChar == some .closeBracket)
  | none => false

/-- One turn of the loop of `tokenize` for a reserved character, token.rs:456-577, from the `match c` on: `fill_other` has
been called and `st.isInMedia` updated. Returns the new state and iterator. -/
def reserved (source : List Char) (st : TS) (pos : Nat) (rc : RChar) (it : Iter) : Out (TS × Iter) :=
  match rc with
  | .backslash =>
    let v := .char .backslash :: st.v
    match it with
    | (idx, c) :: it => do
      let s ← sub source idx (idx + c.utf8Size)
      return ({ st with v := .other s :: v, start := pos + c.utf8Size + 1 }, it)
    | [] => return ({ st with v := v, start := pos + 1 }, [])
  | .quote | .doubleQuote => do
    match ← getString source pos rc it with
    | some (s, pos, it) => return ({ st with v := s :: st.v, start := pos + 1 }, it)
    | none => .err "Unclosed string"
  | .slash =>
    if it.head?.map Prod.snd == some '*' then do
      match ← getComment source it.tail (pos + 1) with
      | some (s, pos, it) => return ({ st with v := s :: st.v, start := pos + 1 }, it)
      | none => .err "Unclosed comment"
    else return ({ st with v := .char rc :: st.v, start := pos + 1 }, it)
  | .openBracket =>
    if st.isInAttr then .err "Already in attribute selector"
    else return ({ st with isInAttr := true, v := .char rc :: st.v, start := pos + 1 }, it)
  | .closeBracket =>
    if !st.isInAttr then .err "Unexpected ']'"
    else return ({ st with isInAttr := false, v := .char rc :: st.v, start := pos + 1 }, it)
  | .openCurly =>
    return ({ st with isInBlock := st.isInBlock + 1, v := .char rc :: st.v, start := pos + 1 }, it)
  | .closeCurly =>
    let b := st.isInBlock - 1
    if b < 0 then .err "Too much '}'"
    else
      return ({ st with isInBlock := b, isInMedia := if b = 0 then false else st.isInMedia, v := .char rc :: st.v,
                        start := pos + 1 }, it)
  | .semiColon =>
    return ({ st with isInMedia := if st.isInBlock = 0 then false else st.isInMedia, v := .char rc :: st.v,
                      start := pos + 1 }, it)
  | .equalSign =>
    match selOpOf st.v with
    | some r => return ({ st with v := .selOp r :: st.v.tail, start := pos + 1 }, it)
    | none => return ({ st with v := .char rc :: st.v, start := pos + 1 }, it)
  | rc =>
    if !rc.isUseless then return ({ st with v := .char rc :: st.v, start := pos + 1 }, it)
    else if wantsSpace st.v.head? then return ({ st with v := .char .space :: st.v, start := pos + 1 }, it)
    else
      match Operator.ofRChar rc with
      | some op => return ({ st with v := .operator op :: st.v, start := pos + 1 }, it)
      | none => return ({ st with start := pos + 1 }, it)

/-- The `loop` of `tokenize`, token.rs:440-578; `fuel` bounds the number of turns (the length of the iterator plus one is
enough, `loop_fuel`). -/
def loop (alpha : Char → Bool) (source : List Char) : Nat → TS → Iter → Out (List Token)
  | 0, _, _ => .panic "out of fuel"
  | _ + 1, st, [] => fillOther alpha source st (blen source)
  | fuel + 1, st, (pos, c) :: it =>
    match RChar.ofChar c with
    | none => loop alpha source fuel st it
    | some rc => do
      let v ← fillOther alpha source st pos
      let media := st.isInMedia || (v.head?.getD (.char .space)).isMedia
      let (st, it) ← reserved source { st with v := v, isInMedia := media } pos rc it
      loop alpha source fuel st it

/-- `clean_tokens`, token.rs:582-681, as a recursion over the rest of the vector: `prev` is the last retained token,
`v.get(i + 1)` is the head of the rest. -/
def keepBlank (inCalc : Bool) (prev : Option Token) (next : Option Token) : Bool :=
  match prev with
  | none => true
  | some p =>
    if p == .char .closeBracket then
      match next with
      | some n => !(n.isUseless || n == .char .openCurly)
      | none => true
    else if (match p with | .other _ => true | _ => false) &&
        (match next with | some (.other _) => true | some (.char .openParen) => true | _ => false) then true
    else if p.isSel && next == some (.char .star) then true
    else if p == .char .star && (match next with | some n => n.isSel | none => false) then true
    else if (p == .char .star || p == .char .circumflex || p == .char .dollar || p == .char .tilde) &&
        next == some (.char .equalSign) then true
    else if p == .char .slash && next == some (.char .star) then true
    else if inCalc && p.isUseless then false
    else if !inCalc then
      if ((p.isChar && p != .char .closeParen) || p.isMedia || p.isLicense) ||
          (match next with | some n => n.isChar && n != .char .openBracket | none => false) then false
      else true
    else true

/-- `is_in_calc` and `paren` at token `t`, token.rs:596-605. -/
def calcStep (inCalc : Bool) (paren : Int) (t : Token) : Bool × Int :=
  if t == .other ['c', 'a', 'l', 'c'] then (true, paren)
  else if inCalc then
    if t == .char .closeParen then (paren - 1 != 0, paren - 1)
    else if t == .char .openParen then (inCalc, paren + 1)
    else (inCalc, paren)
  else (inCalc, paren)

/-- The loop and the final `retain` of `clean_tokens`, token.rs:595-681. -/
def cleanFrom (inCalc : Bool) (paren : Int) (prev : Option Token) : List Token → List Token
  | [] => []
  | t :: rest =>
    let c := calcStep inCalc paren t
    if t.isUseless || t.isComment then
      if keepBlank c.1 prev rest.head? then
        let t' := if t.isComment then .char .space else t
        t' :: cleanFrom c.1 c.2 (some t') rest
      else cleanFrom c.1 c.2 prev rest
    else t :: cleanFrom c.1 c.2 (some t) rest

/-- `clean_tokens`, token.rs:582-681. -/
def cleanTokens (v : List Token) : List Token := cleanFrom false 0 none v

/-- `tokenize` without the final `clean_tokens`, token.rs:432-578. -/
def rawTokens (alpha : Char → Bool) (source : List Char) : Out (List Token) := do
  let v ← loop alpha source (source.length + 1) {} (indices source)
  return v.reverse

/-- `tokenize`, token.rs:432-580. -/
def tokenize (alpha : Char → Bool) (source : List Char) : Out (List Token) := do
  let v ← rawTokens alpha source
  return cleanTokens v

/-- `Display for Tokens`, token.rs:695-702. -/
def display (ts : List Token) : List Char := ts.flatMap Token.display

/-- `css::minify(s).to_string()`, src/css/mod.rs:21-37. -/
def minify (alpha : Char → Bool) (s : List Char) : Out (List Char) := do
  let ts ← tokenize alpha s
  return display ts

/-- `css::minify(s)?.write(w)`, token.rs:687-692: one `write!` per token. The pieces handed to `write_all`. -/
def chunks (ts : List Token) : List (List Char) := ts.map Token.display

end Verif.Css
