import Verif.Basic.Sink
/-!
# `minifier::js`: the tokens

Transcription of the types of `src/js/token.rs` (lines 1-543) and of the two number parsers of the standard library that
the tokenizer calls.
-/
namespace Verif.Js

/-- `ReservedChar`, src/js/token.rs:8-38. -/
inductive RChar where
  | comma | openParen | closeParen | openCurly | closeCurly | openBracket | closeBracket | colon | semiColon | dot
  | quote | doubleQuote | exclamationMark | questionMark | slash | modulo | star | minus | plus | equalSign | backslash
  | space | tab | backline | lessThan | superiorThan | pipe | ampersand | backTick
  deriving Repr, DecidableEq

/-- `ReservedChar::is_white_character`, token.rs:41-45. -/
def RChar.isWhite (c : RChar) : Bool := c == .space || c == .tab || c == .backline

/-- `Display for ReservedChar`, token.rs:48-86. -/
def RChar.toChar : RChar → Char
  | .comma => ','
  | .openParen => '('
  | .closeParen => ')'
  | .openCurly => '{'
  | .closeCurly => '}'
  | .openBracket => '['
  | .closeBracket => ']'
  | .colon => ':'
  | .semiColon => ';'
  | .dot => '.'
  | .quote => '\''
  | .doubleQuote => '"'
  | .exclamationMark => '!'
  | .questionMark => '?'
  | .slash => '/'
  | .modulo => '%'
  | .star => '*'
  | .minus => '-'
  | .plus => '+'
  | .equalSign => '='
  | .backslash => '\\'
  | .space => ' '
  | .tab => '\t'
  | .backline => '\n'
  | .lessThan => '<'
  | .superiorThan => '>'
  | .pipe => '|'
  | .ampersand => '&'
  | .backTick => '`'

/-- `TryFrom<char> for ReservedChar`, token.rs:88-125. -/
def RChar.ofChar (c : Char) : Option RChar :=
  match c with
  | ',' => some .comma
  | '(' => some .openParen
  | ')' => some .closeParen
  | '{' => some .openCurly
  | '}' => some .closeCurly
  | '[' => some .openBracket
  | ']' => some .closeBracket
  | ':' => some .colon
  | ';' => some .semiColon
  | '.' => some .dot
  | '\'' => some .quote
  | '"' => some .doubleQuote
  | '!' => some .exclamationMark
  | '?' => some .questionMark
  | '/' => some .slash
  | '%' => some .modulo
  | '*' => some .star
  | '-' => some .minus
  | '+' => some .plus
  | '=' => some .equalSign
  | '\\' => some .backslash
  | ' ' => some .space
  | '\t' => some .tab
  | '\n' => some .backline
  | '\r' => some .backline
  | '<' => some .lessThan
  | '>' => some .superiorThan
  | '|' => some .pipe
  | '&' => some .ampersand
  | '`' => some .backTick
  | _ => none

/-- `Keyword`, token.rs:128-160. -/
inductive Keyword where
  | kBreak | kCase | kCatch | kConst | kContinue | kDefault | kDo | kElse | kFalse | kFinally | kFunction | kFor | kIf
  | kIn | kInstanceOf | kLet | kNew | kNull | kPrivate | kProtected | kPublic | kReturn | kSwitch | kThis | kThrow
  | kTrue | kTry | kTypeof | kStatic | kVar | kWhile
  deriving Repr, DecidableEq

/-- `Keyword::requires_before`, token.rs:163-165. -/
def Keyword.requiresBefore (k : Keyword) : Bool := k == .kIn || k == .kInstanceOf

/-- `Display for Keyword`, token.rs:168-208. -/
def Keyword.display : Keyword → List Char
  | .kBreak => "break".toList
  | .kCase => "case".toList
  | .kCatch => "catch".toList
  | .kConst => "const".toList
  | .kContinue => "continue".toList
  | .kDefault => "default".toList
  | .kDo => "do".toList
  | .kElse => "else".toList
  | .kFalse => "false".toList
  | .kFinally => "finally".toList
  | .kFunction => "function".toList
  | .kFor => "for".toList
  | .kIf => "if".toList
  | .kIn => "in".toList
  | .kInstanceOf => "instanceof".toList
  | .kLet => "let".toList
  | .kNew => "new".toList
  | .kNull => "null".toList
  | .kPrivate => "private".toList
  | .kProtected => "protected".toList
  | .kPublic => "public".toList
  | .kReturn => "return".toList
  | .kSwitch => "switch".toList
  | .kThis => "this".toList
  | .kThrow => "throw".toList
  | .kTrue => "true".toList
  | .kTry => "try".toList
  | .kTypeof => "typeof".toList
  | .kStatic => "static".toList
  | .kVar => "var".toList
  | .kWhile => "while".toList

/-- The arms of `TryFrom<&str> for Keyword`, token.rs:214-245. -/
def keywordTable : List (List Char × Keyword) := [
  ("break".toList, .kBreak), ("case".toList, .kCase), ("catch".toList, .kCatch), ("const".toList, .kConst),
  ("continue".toList, .kContinue), ("default".toList, .kDefault), ("do".toList, .kDo), ("else".toList, .kElse),
  ("false".toList, .kFalse), ("finally".toList, .kFinally), ("function".toList, .kFunction), ("for".toList, .kFor),
  ("if".toList, .kIf), ("in".toList, .kIn), ("instanceof".toList, .kInstanceOf), ("let".toList, .kLet),
  ("new".toList, .kNew), ("null".toList, .kNull), ("private".toList, .kPrivate), ("protected".toList, .kProtected),
  ("public".toList, .kPublic), ("return".toList, .kReturn), ("switch".toList, .kSwitch), ("this".toList, .kThis),
  ("throw".toList, .kThrow), ("true".toList, .kTrue), ("try".toList, .kTry), ("typeof".toList, .kTypeof),
  ("static".toList, .kStatic), ("var".toList, .kVar), ("while".toList, .kWhile)]

/-- `TryFrom<&str> for Keyword`, token.rs:210-249 (`none` is `Err`). -/
def Keyword.ofStr (s : List Char) : Option Keyword := keywordTable.lookup s

/-- `Condition`, token.rs:252-263. -/
inductive Cond where
  | and | or | differentThan | superDifferentThan | equalTo | superEqualTo | superiorThan | superiorOrEqualTo
  | inferiorThan | inferiorOrEqualTo
  deriving Repr, DecidableEq

/-- `Display for Condition`, token.rs:265-284. -/
def Cond.display : Cond → List Char
  | .and => ['&', '&']
  | .or => ['|', '|']
  | .differentThan => ['!', '=']
  | .superDifferentThan => ['!', '=', '=']
  | .equalTo => ['=', '=']
  | .superEqualTo => ['=', '=', '=']
  | .superiorThan => ['>']
  | .superiorOrEqualTo => ['>', '=']
  | .inferiorThan => ['<']
  | .inferiorOrEqualTo => ['<', '=']

/-- `TryFrom<ReservedChar> for Condition`, token.rs:286-296. -/
def Cond.ofRChar : RChar → Option Cond
  | .superiorThan => some .superiorThan
  | .lessThan => some .inferiorThan
  | _ => none

/-- `Operation`, token.rs:299-311. -/
inductive Op where
  | addition | additionEqual | subtract | subtractEqual | multiply | multiplyEqual | divide | divideEqual | modulo
  | moduloEqual | equal
  deriving Repr, DecidableEq

/-- `Display for Operation`, token.rs:327-347. -/
def Op.display : Op → List Char
  | .addition => ['+']
  | .additionEqual => ['+', '=']
  | .subtract => ['-']
  | .subtractEqual => ['-', '=']
  | .multiply => ['*']
  | .multiplyEqual => ['*', '=']
  | .divide => ['/']
  | .divideEqual => ['/', '=']
  | .modulo => ['%']
  | .moduloEqual => ['%', '=']
  | .equal => ['=']

/-- `TryFrom<ReservedChar> for Operation`, token.rs:349-363. -/
def Op.ofRChar : RChar → Option Op
  | .plus => some .addition
  | .minus => some .subtract
  | .slash => some .divide
  | .star => some .multiply
  | .modulo => some .modulo
  | .equalSign => some .equal
  | _ => none

/-- `Token`, token.rs:366-384. -/
inductive Token where
  | keyword (k : Keyword)
  | char (c : RChar)
  | str (s : List Char)
  | comment (s : List Char)
  | license (s : List Char)
  | other (s : List Char)
  | regex (regex : List Char) (isGlobal isInteractive : Bool)
  | cond (c : Cond)
  | op (o : Op)
  | createdVarDecl (s : List Char)
  | createdVar (s : List Char)
  | number (n : Nat)
  | float (s : List Char)
  deriving Repr, DecidableEq

/-- The digits of a number in base ten, last one first (fuel: at least the number of digits). -/
def natDigitsRev : Nat → Nat → List Char
  | 0, _ => []
  | fuel + 1, n =>
    if n < 10 then [Char.ofNat (48 + n)] else Char.ofNat (48 + n % 10) :: natDigitsRev fuel (n / 10)

/-- `Display for usize`. -/
def natDisplay (n : Nat) : List Char := (natDigitsRev (n + 1) n).reverse

/-- `Display for Token`, token.rs:386-415, when nothing fails. -/
def Token.display : Token → List Char
  | .keyword k => k.display
  | .char c => [c.toChar]
  | .str s => s
  | .comment s => s
  | .license s => '/' :: '*' :: '!' :: s ++ ['*', '/']
  | .other s => s
  | .regex r g i => '/' :: r ++ ['/'] ++ (if g then ['g'] else []) ++ (if i then ['i'] else [])
  | .cond c => c.display
  | .op o => o.display
  | .createdVarDecl s => s
  | .createdVar s => s
  | .number n => natDisplay n
  | .float s => s

/-- `Token::is_comment`, token.rs:418-420. -/
def Token.isComment : Token → Bool
  | .comment _ => true
  | _ => false

/-- `Token::is_license`, token.rs:422-424. -/
def Token.isLicense : Token → Bool
  | .license _ => true
  | _ => false

/-- `Token::is_reserved_char`, token.rs:426-428. -/
def Token.isChar : Token → Bool
  | .char _ => true
  | _ => false

/-- `Token::get_char`, token.rs:430-435. -/
def Token.getChar : Token → Option RChar
  | .char c => some c
  | _ => none

/-- `Token::eq_char`, token.rs:437-442. -/
def Token.eqChar (t : Token) (rc : RChar) : Bool :=
  match t with
  | .char c => c == rc
  | _ => false

/-- `Token::eq_operation`, token.rs:444-449. -/
def Token.eqOp (t : Token) (o : Op) : Bool :=
  match t with
  | .op o' => o' == o
  | _ => false

/-- `Token::is_operation`, token.rs:451-453. -/
def Token.isOp : Token → Bool
  | .op _ => true
  | _ => false

/-- `Token::is_condition`, token.rs:462-464. -/
def Token.isCond : Token → Bool
  | .cond _ => true
  | _ => false

/-- `Token::is_other`, token.rs:466-468. -/
def Token.isOther : Token → Bool
  | .other _ => true
  | _ => false

/-- `Token::get_other`, token.rs:470-475. -/
def Token.getOther : Token → Option (List Char)
  | .other s => some s
  | _ => none

/-- `Token::is_white_character`, token.rs:477-482. -/
def Token.isWhite : Token → Bool
  | .char c => c.isWhite
  | _ => false

/-- `Token::is_keyword`, token.rs:484-486. -/
def Token.isKeyword : Token → Bool
  | .keyword _ => true
  | _ => false

/-- `Token::is_string`, token.rs:495-497. -/
def Token.isStr : Token → Bool
  | .str _ => true
  | _ => false

/-- `Token::get_string`, token.rs:499-504. -/
def Token.getStr : Token → Option (List Char)
  | .str s => some s
  | _ => none

/-- `Token::is_regex`, token.rs:506-508. -/
def Token.isRegex : Token → Bool
  | .regex _ _ _ => true
  | _ => false

/-- `Token::is_number`, token.rs:518-520. -/
def Token.isNumber : Token → Bool
  | .number _ => true
  | _ => false

/-- `Token::is_floating_number`, token.rs:522-524. -/
def Token.isFloat : Token → Bool
  | .float _ => true
  | _ => false

/-- `Token::get_required`, token.rs:526-535. -/
def Token.getRequired : Token → Option Char
  | .keyword _ => some ' '
  | .other _ => some ' '
  | .createdVarDecl _ => some ' '
  | .number _ => some ' '
  | .float _ => some ' '
  | _ => none

/-- `Token::requires_before`, token.rs:537-542. -/
def Token.requiresBefore : Token → Bool
  | .keyword k => k.requiresBefore
  | _ => false

/-! ## Numbers of the standard library -/

def isDigit (c : Char) : Bool := decide (48 ≤ c.toNat) && decide (c.toNat ≤ 57)

/-- Value of a string of digits. -/
def digitsVal (acc : Nat) : List Char → Nat
  | [] => acc
  | c :: cs => digitsVal (acc * 10 + (c.toNat - 48)) cs

/-- The digits after an optional `+`. -/
def dropPlus : List Char → List Char
  | '+' :: s => s
  | s => s

/-- `usize::from_str` and `u64::from_str` on a 64-bit machine (`none` is `Err`): an optional `+`, then at least one
decimal digit and nothing else, and the value must fit. -/
def parseU64 (s : List Char) : Option Nat :=
  let d := dropPlus s
  if d.isEmpty || !d.all isDigit then none
  else if digitsVal 0 d < 2 ^ 64 then some (digitsVal 0 d) else none

def dropSign : List Char → List Char
  | '+' :: s => s
  | '-' :: s => s
  | s => s

/-- The exponent of a floating number: nothing, or `e`, a sign and at least one digit. -/
def isExponent : List Char → Bool
  | [] => true
  | c :: s => (c == 'e' || c == 'E') && !(dropSign s).isEmpty && (dropSign s).all isDigit

def lowerAscii (c : Char) : Char := if 65 ≤ c.toNat ∧ c.toNat ≤ 90 then Char.ofNat (c.toNat + 32) else c

/-- `f64::from_str(s).is_ok()`: the grammar in the documentation of `f64::from_str`. -/
def isF64 (s : List Char) : Bool :=
  let s := dropSign s
  if s.map lowerAscii ∈ ["inf".toList, "infinity".toList, "nan".toList] then true
  else
    let ip := s.takeWhile isDigit
    match s.dropWhile isDigit with
    | '.' :: r => (!ip.isEmpty || !(r.takeWhile isDigit).isEmpty) && isExponent (r.dropWhile isDigit)
    | r => !ip.isEmpty && isExponent r

end Verif.Js
