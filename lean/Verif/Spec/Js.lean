/-!
# A lexical grammar of JavaScript, as far as a minifier needs it

An independent reading of a script: a list of characters is cut into lexemes. Nothing here refers to the model of the
code. The reading is total: if a literal or comment is never closed, the list ends in a marker that says so.
-/
namespace Verif.Spec.Js

inductive Lexeme where
  /-- A maximal run of characters that are neither blank nor punctuation: a name, a keyword or a number. -/
  | word (w : List Char)
  /-- A space, tab or line break. -/
  | blank (c : Char)
  /-- Punctuation; an operator of several characters is one lexeme. -/
  | punct (t : List Char)
  /-- A string or template literal with its quotes. -/
  | str (t : List Char)
  | regex (body flags : List Char)
  | comment (body : List Char)
  | license (body : List Char)
  /-- What follows the opening quote of a string that is never closed. -/
  | openStr (rest : List Char)
  | openTemplate (rest : List Char)
  /-- A template literal nested more deeply than allowed. -/
  | tooDeep
  /-- A line comment that is not ended by a line break. -/
  | openLine (rest : List Char)
  | openBlock (rest : List Char)
  /-- A slash where a regex may stand that is not closed on its line, followed on that line by a dot, a dollar or another
  slash. -/
  | openRegex (rest : List Char)
  deriving Repr, DecidableEq

def isBlank (c : Char) : Bool := c == ' ' || c == '\t' || c == '\n' || c == '\r'

def isNewline (c : Char) : Bool := c == '\n' || c == '\r'

/-- Punctuation, quotes and slashes included. -/
def isPunct (c : Char) : Bool := c ∈ ",(){}[]:;.'\"!?/%*-+=\\<>|&`".toList

def isDigit (c : Char) : Bool := c ∈ "0123456789".toList

/-- The value of a digit. -/
def digit (c : Char) : Nat := c.toNat - '0'.toNat

/-- The value of a string of digits. -/
def value (w : List Char) : Nat := w.foldl (fun n c => 10 * n + digit c) 0

/-- An integer literal of at most 64 bits. -/
def isInteger (w : List Char) : Bool := !w.isEmpty && w.all isDigit && decide (value w < 2 ^ 64)

/-- Characters that may follow the dot at the end of a number such as `1.`. -/
def endsNumber (c : Char) : Bool := c ∈ "0123456789,; \t\n<>/*&|{}[]-+=~%^:!".toList

/-- Does a dot after the word `w` and before `cs` belong to the word (because it is a number)? -/
def dotInWord (w cs : List Char) : Bool :=
  !w.contains '.' &&
    match cs with
    | [] => isInteger w
    | x :: _ => isDigit x || (isInteger w && endsNumber x)

/-- The rest of a string literal with quote `q`, its closing quote included, and what follows. -/
def closeString (q : Char) : List Char → Option (List Char × List Char)
  | [] => none
  | ['\\'] => none
  | '\\' :: c :: cs => (closeString q cs).map fun p => ('\\' :: c :: p.1, p.2)
  | c :: cs => if c = q then some ([c], cs) else (closeString q cs).map fun p => (c :: p.1, p.2)

/-- The text of a line comment and what follows its line break. -/
def closeLine : List Char → Option (List Char × List Char)
  | [] => none
  | c :: cs => if isNewline c then some ([], cs) else (closeLine cs).map fun p => (c :: p.1, p.2)

/-- The text of a block comment and what follows it. -/
def closeBlock : List Char → Option (List Char × List Char)
  | [] => none
  | '*' :: '/' :: cs => some ([], cs)
  | c :: cs => (closeBlock cs).map fun p => (c :: p.1, p.2)

/-- The body of a regex and what follows its closing slash; a line break ends the search. -/
def closeRegex : List Char → Option (List Char × List Char)
  | [] => none
  | ['\\'] => none
  | '\\' :: c :: cs => (closeRegex cs).map fun p => ('\\' :: c :: p.1, p.2)
  | c :: cs =>
    if c = '/' then some ([], cs)
    else if isNewline c then none
    else (closeRegex cs).map fun p => (c :: p.1, p.2)

/-- The part of the text that the search for the end of a regex looks at: up to and with the first line break that is not
escaped. -/
def regexLine : List Char → List Char
  | [] => []
  | ['\\'] => ['\\']
  | '\\' :: c :: cs => '\\' :: c :: regexLine cs
  | c :: cs => if isNewline c then [c] else c :: regexLine cs

/-- A line on which an unclosed regex is harmless. -/
def calm (cs : List Char) : Bool := cs.all fun c => c != '.' && c != '/' && c != '$'

/-- Where the reading of a template literal stands: in its text, in the code of an interpolation with `n` braces open, or in
a string literal there. The stack has one number per enclosing interpolation, the innermost first: its open braces. -/
inductive Place where
  | text (stack : List Nat)
  | code (n : Nat) (stack : List Nat)
  | quoted (q : Char) (n : Nat) (stack : List Nat)
  deriving Repr, DecidableEq

/-- The end of a template literal: its text (closing quote included) and what follows; or none; or it is too deep. -/
inductive Close where
  | closed (t rest : List Char)
  | unclosed
  | tooDeep
  deriving Repr, DecidableEq

def Close.cons (c : Char) : Close → Close
  | .closed t r => .closed (c :: t) r
  | x => x

/-- Read on in a template literal; at most `limit` levels of literals may be nested in the outermost one. -/
def closeTemplate (limit : Nat) : Place → List Char → Close
  | _, [] => .unclosed
  | _, ['\\'] => .unclosed
  | p, '\\' :: c :: cs => ((closeTemplate limit p cs).cons c).cons '\\'
  | .text st, c :: cs =>
    if c = '$' ∧ cs.head? = some '{' then
      -- the brace is read next and counted
      (closeTemplate limit (.code 0 st) cs).cons c
    else if c = '`' then
      match st with
      | [] => .closed [c] cs
      | n :: st => (closeTemplate limit (.code n st) cs).cons c
    else (closeTemplate limit (.text st) cs).cons c
  | .code n st, c :: cs =>
    if c = '"' ∨ c = '\'' then (closeTemplate limit (.quoted c n st) cs).cons c
    else if c = '`' then
      if limit ≤ st.length then .tooDeep else (closeTemplate limit (.text (n :: st)) cs).cons c
    else if c = '{' then (closeTemplate limit (.code (n + 1) st) cs).cons c
    else if c = '}' then
      if n = 1 then (closeTemplate limit (.text st) cs).cons c else (closeTemplate limit (.code (n - 1) st) cs).cons c
    else (closeTemplate limit (.code n st) cs).cons c
  | .quoted q n st, c :: cs =>
    if c = q then (closeTemplate limit (.code n st) cs).cons c else (closeTemplate limit (.quoted q n st) cs).cons c

/-- Levels of template literals allowed inside the outermost one. -/
def maxNesting : Nat := 1000

def isFlag (c : Char) : Bool := c == 'g' || c == 'i'

/-- Operators made of several characters. -/
def compounds : List (List Char) :=
  ["==".toList, "===".toList, "!=".toList, "!==".toList, "/=".toList, "*=".toList, "+=".toList, "-=".toList, "%=".toList,
   ">=".toList, "<=".toList, "||".toList, "&&".toList]

/-- Punctuation after which an operand is expected, so that a slash begins a regex. -/
def beforeOperand : List (List Char) :=
  [";", ":", ",", "[", "(", "!", "{", "?", "|", "&", "+", "-", "*", "/", "%", "=", "<", ">"].map String.toList ++ compounds

/-- Can a regex stand after these lexemes (last one first)? -/
def regexPossible : List Lexeme → Bool
  | [] => true
  | .blank _ :: v => regexPossible v
  | .comment _ :: v => regexPossible v
  | .license _ :: v => regexPossible v
  | .punct t :: _ => beforeOperand.contains t
  | _ => false

/-- Add a word, if there is one. -/
def addWord (v : List Lexeme) (w : List Char) : List Lexeme := if w.isEmpty then v else .word w :: v

/-- Add a punctuation character: it joins the one before it if they make an operator. -/
def addPunct (v : List Lexeme) (c : Char) : List Lexeme :=
  match v with
  | .punct t :: v' => if compounds.contains (t ++ [c]) then .punct (t ++ [c]) :: v' else .punct [c] :: v
  | _ => .punct [c] :: v

/-- A block comment whose text begins with `!` is a licence. -/
def blockLexeme : List Char → Lexeme
  | '!' :: b => .license b
  | b => .comment b

/-- Read a script: lexemes so far (last one first), word so far, rest. The number bounds the lexemes and characters still to
be read. -/
def lexFrom : Nat → List Lexeme → List Char → List Char → List Lexeme
  | 0, v, w, _ => addWord v w
  | _ + 1, v, w, [] => addWord v w
  | n + 1, v, w, c :: cs =>
    if c = '.' ∧ dotInWord w cs = true then lexFrom n v (w ++ [c]) cs
    else if isBlank c then lexFrom n (.blank (if c = '\r' then '\n' else c) :: addWord v w) [] cs
    else if !isPunct c then lexFrom n v (w ++ [c]) cs
    else
      let v := addWord v w
      if c = '"' ∨ c = '\'' then
        match closeString c cs with
        | some (t, cs) => lexFrom n (.str (c :: t) :: v) [] cs
        | none => .openStr cs :: v
      else if c = '`' then
        match closeTemplate maxNesting (.text []) cs with
        | .closed t cs => lexFrom n (.str (c :: t) :: v) [] cs
        | .unclosed => .openTemplate cs :: v
        | .tooDeep => .tooDeep :: v
      else if c = '/' then
        match cs with
        | [] => addPunct v c
        | d :: cs' =>
          if d = '/' then
            match closeLine cs' with
            | some (b, cs) => lexFrom n (.comment b :: v) [] cs
            | none => .openLine cs' :: v
          else if d = '*' then
            match closeBlock cs' with
            | some (b, cs) => lexFrom n (blockLexeme b :: v) [] cs
            | none => .openBlock cs' :: v
          else if regexPossible v then
            match closeRegex cs with
            | some (b, cs) => lexFrom n (.regex b (cs.takeWhile isFlag) :: v) [] (cs.dropWhile isFlag)
            | none => if calm (regexLine cs) then lexFrom n (.punct [c] :: v) [] cs else .openRegex cs :: v
          else lexFrom n (addPunct v c) [] cs
      else lexFrom n (addPunct v c) [] cs

/-- The lexemes of a script, last one first. -/
def lexRev (s : List Char) : List Lexeme := lexFrom (s.length + 1) [] [] s

/-- The lexemes of a script. -/
def lex (s : List Char) : List Lexeme := (lexRev s).reverse

/-- Is every literal and comment of the script closed (and no template literal too deep)? -/
def isOpen : Lexeme → Bool
  | .openStr _ => true
  | .openTemplate _ => true
  | .tooDeep => true
  | .openLine _ => true
  | .openBlock _ => true
  | .openRegex _ => true
  | _ => false

def Closed (s : List Char) : Prop := ∀ l ∈ lex s, isOpen l = false

end Verif.Spec.Js
