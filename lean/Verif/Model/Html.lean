import Verif.Model.Css
/-!
# The HTML minifier, src/html.rs

The program leans on the crate `regex`. Its regular expressions are transcribed into the small syntax `Re`, and their meaning is
given by `ends`, the list of all ways to match at the start of a text in order of preference ("leftmost-first": alternatives
from left to right, greedy repetitions from long to short, lazy ones from short to long). Repetitions are only needed of single
characters. None of the expressions matches the empty text (`Re.solid`, see `Proofs/HtmlRe`), so that the rules of the crate
for empty matches play no part. The replacement texts contain no `$`. `Regex::new(..).unwrap()` does not fail: the expressions
are constants.

A panic (of `&str[1..]`) is `none`.
-/
namespace Verif.Html

/-- Unicode tables: `\w`, `\d` and the lower case of a character. The lower case of a `Σ` depends on its neighbours in
`str::to_lowercase`, but is never an ASCII character, and nothing else is asked of it here. -/
structure Tables where
  word : Char → Bool
  digit : Char → Bool
  lower : Char → List Char

/-- What is assumed of the tables: their ASCII part, that no white space is a word character, and that the only characters
beyond ASCII whose lower case has ASCII characters are U+0130 (`i` and a combining dot) and U+212A (`k`). -/
structure Tables.Ok (T : Tables) : Prop where
  word_ascii : ∀ c : Char, c.toNat < 128 → T.word c = (c.isAlphanum || c == '_')
  digit_ascii : ∀ c : Char, c.toNat < 128 → T.digit c = c.isDigit
  word_space : ∀ c : Char, T.word c = true → isWhitespace c = false
  digit_word : ∀ c : Char, T.digit c = true → T.word c = true
  lower_ascii : ∀ c : Char, c.toNat < 128 → T.lower c = [c.toLower]
  lower_ne : ∀ c : Char, T.lower c ≠ []
  lower_other : ∀ c : Char, 128 ≤ c.toNat → ∀ d ∈ T.lower c, d.toNat < 128 → d = 'i' ∨ d = 'k'

/-! ## Regular expressions -/

inductive Re where
  /-- One character. -/
  | ch (p : Char → Bool)
  | seq (a b : Re)
  | alt (a b : Re)
  /-- `p*` or `p*?`. -/
  | star (greedy : Bool) (p : Char → Bool)
  /-- A numbered group. -/
  | grp (i : Nat) (r : Re)

/-- A match: its text, what follows it, and the texts of the groups. -/
structure Hit where
  text : List Char
  rest : List Char
  caps : List (Nat × List Char)
  deriving Repr, DecidableEq

/-- All ways to split a text after characters in `p`, shortest first. -/
def splits (p : Char → Bool) : List Char → List (List Char × List Char)
  | [] => [([], [])]
  | c :: s => ([], c :: s) :: if p c then (splits p s).map fun x => (c :: x.1, x.2) else []

/-- All matches at the start of a text, in order of preference. -/
def ends : Re → List Char → List Hit
  | .ch _, [] => []
  | .ch p, c :: s => if p c then [⟨[c], s, []⟩] else []
  | .seq a b, s => (ends a s).flatMap fun h => (ends b h.rest).map fun k => ⟨h.text ++ k.text, k.rest, h.caps ++ k.caps⟩
  | .alt a b, s => ends a s ++ ends b s
  | .star greedy p, s =>
    let l := (splits p s).map fun x => ⟨x.1, x.2, []⟩
    if greedy then l.reverse else l
  | .grp i r, s => (ends r s).map fun h => { h with caps := (i, h.text) :: h.caps }

inductive Piece where
  | chr (c : Char)
  | hit (h : Hit)
  deriving Repr, DecidableEq

/-- A text cut into its successive leftmost matches and the characters between them; `n` bounds the number of pieces. -/
def cutFuel (r : Re) : Nat → List Char → List Piece
  | 0, _ => []
  | _ + 1, [] => []
  | n + 1, c :: s =>
    match ends r (c :: s) with
    | [] => .chr c :: cutFuel r n s
    | h :: _ => if h.text.isEmpty then .chr c :: cutFuel r n s else .hit h :: cutFuel r n h.rest

def cut (r : Re) (s : List Char) : List Piece := cutFuel r s.length s

/-- `Regex::replace_all`. -/
def replaceAll (r : Re) (f : Hit → List Char) (s : List Char) : List Char :=
  (cut r s).flatMap fun
    | .chr c => [c]
    | .hit h => f h

/-- `Regex::find_iter`, the texts of the matches. -/
def findIter (r : Re) (s : List Char) : List (List Char) :=
  (cut r s).filterMap fun
    | .chr _ => none
    | .hit h => some h.text

def Re.c (c : Char) : Re := .ch (· == c)

/-- A literal text followed by an expression. -/
def Re.lit (s : List Char) (r : Re) : Re := s.foldr (fun c r => .seq (.c c) r) r

/-- A literal text, which is not empty. -/
def Re.str : List Char → Re
  | [] => .ch fun _ => false
  | [c] => .c c
  | c :: s => .seq (.c c) (.str s)

/-- `p+`. -/
def Re.plus (p : Char → Bool) : Re := .seq (.ch p) (.star true p)

/-- `\s`, which is `White_Space`. -/
def space (c : Char) : Bool := isWhitespace c

/-- `.` -/
def notNl (c : Char) : Bool := c != '\n'

/-! ## `str` -/

/-- `str::replace`; the text to be replaced is never empty here. -/
def replaceStr (pat to s : List Char) : List Char := replaceAll (.str pat) (fun _ => to) s

/-- `str::starts_with`. -/
def startsWith (pat s : List Char) : Bool := pat.isPrefixOf s

/-- `str::find(..).is_some()`. -/
def contains (pat : List Char) : List Char → Bool
  | [] => pat.isEmpty
  | c :: s => startsWith pat (c :: s) || contains pat s

/-- `str::trim_start`. -/
def trimStart (s : List Char) : List Char := s.dropWhile space

/-- `str::trim`. -/
def trim (s : List Char) : List Char := ((trimStart s).reverse.dropWhile space).reverse

/-- `&s[1..]`: a panic if there is no first byte or if it is only a part of the first character. -/
def from1 : List Char → Option (List Char)
  | [] => none
  | c :: s => if c.utf8Size == 1 then some s else none

/-! ## src/html.rs -/

/-- `condense_whitespace`, html.rs:5-16. -/
def condenseWhitespace (T : Tables) (source : List Char) : List Char :=
  let lower := source.flatMap T.lower
  if !contains "<textarea".toList lower && !contains "<pre".toList lower then
    -- `>\s+<`
    let source := replaceAll (.seq (.c '>') (.seq (.plus space) (.c '<'))) (fun _ => "> <".toList) source
    -- `\s{2,}|[\r\n]`
    replaceAll (.alt (.seq (.ch space) (.plus space)) (.ch fun c => c == '\r' || c == '\n')) (fun _ => [' ']) source
  else trim source

/-- `[\w|\s]` -/
def wordBarSpace (T : Tables) (c : Char) : Bool := T.word c || c == '|' || space c

/-- `<(style|script)[\w|\s].*?>`, html.rs:19 -/
def styleTag (T : Tables) : Re :=
  .seq (.c '<') (.seq (.grp 1 (.alt (.str "style".toList) (.str "script".toList)))
    (.seq (.ch (wordBarSpace T)) (.seq (.star false notNl) (.c '>'))))

/-- `\s*?type="[\w|\s].*?"`, html.rs:20 -/
def typeAttr (T : Tables) : Re :=
  .seq (.star false space) (.lit "type=\"".toList (.seq (.ch (wordBarSpace T)) (.seq (.star false notNl) (.c '"'))))

/-- `condense`, html.rs:18-25. -/
def condense (T : Tables) (source : List Char) : List Char :=
  replaceAll (styleTag T) (fun h => replaceAll (typeAttr T) (fun _ => []) h.text) source

/-- `useless_tags`, html.rs:28-60. -/
def uselessTags : List (List Char) :=
  ["</area>", "</base>", "<body>", "</body>", "</br>", "</col>", "</colgroup>", "</dd>", "</dt>", "<head>", "</head>", "</hr>",
    "<html>", "</html>", "</img>", "</input>", "</li>", "</link>", "</meta>", "</option>", "</param>", "<tbody>", "</tbody>",
    "</td>", "</tfoot>", "</th>", "</thead>", "</tr>", "</basefont>", "</isindex>", "</param>"].map String.toList

/-- `clean_unneeded_tags`, html.rs:27-66. -/
def cleanUnneededTags (source : List Char) : List Char := uselessTags.foldl (fun res t => replaceStr t [] res) source

/-- `<!--(.|\n)*?-->`, html.rs:70 -/
def comment : Re := .lit "<!--".toList (.seq (.star false fun _ => true) (.str "-->".toList))

/-- `remove_comments`, html.rs:68-79. -/
def removeComments (source : List Char) : List Char :=
  replaceAll comment
    (fun h => if startsWith ['['] (trim (replaceStr "<!--".toList [' '] h.text)) then h.text else [' ']) source

/-- `<\w.*?>`, html.rs:83 -/
def anyTag (T : Tables) : Re := .seq (.c '<') (.seq (.ch T.word) (.seq (.star false notNl) (.c '>')))

/-- ` \s+|\s +`, html.rs:84 -/
def extraSpaces : Re := .alt (.seq (.c ' ') (.plus space)) (.seq (.ch space) (.plus (· == ' ')))

/-- `\w\s+\w`, html.rs:85 -/
def betweenWords (T : Tables) : Re := .seq (.ch T.word) (.seq (.plus space) (.ch T.word))

/-- `"\s+>` and `'\s+>`, html.rs:86-87 -/
def spacesBeforeClose (q : Char) : Re := .seq (.c q) (.seq (.plus space) (.c '>'))

/-- `q\s\s+\w+=` -/
def spacedName (T : Tables) (q : Char) (r : Re) : Re :=
  .seq (.c q) (.seq (.ch space) (.seq (.plus space) (.seq (.plus T.word) r)))

/-- `"\s\s+\w+="|'\s\s+\w+='|"\s\s+\w+=|'\s\s+\w+=`, html.rs:88 -/
def extraSpaces2 (T : Tables) : Re :=
  .alt (spacedName T '"' (.str "=\"".toList)) (.alt (spacedName T '\'' (.str "='".toList))
    (.alt (spacedName T '"' (.c '=')) (spacedName T '\'' (.c '='))))

/-- `\d\s+>`, html.rs:89 -/
def extraSpaces3 (T : Tables) : Re := .seq (.ch T.digit) (.seq (.plus space) (.c '>'))

/-- `[a-zA-Z]` -/
def letter (c : Char) : Bool := ('a' ≤ c && c ≤ 'z') || ('A' ≤ c && c ≤ 'Z')

/-- `[a-zA-Z0-9-_\.]` -/
def simple (c : Char) : Bool := letter c || ('0' ≤ c && c ≤ '9') || c == '-' || c == '_' || c == '.'

/-- `([a-zA-Z]+)="([a-zA-Z0-9-_\.]+)"`, html.rs:90 -/
def quotesInTag : Re :=
  .seq (.grp 1 (.plus letter)) (.lit "=\"".toList (.seq (.grp 2 (.plus simple)) (.c '"')))

/-- `extra_spaces.replace_all(.., " ")` -/
def oneSpace (s : List Char) : List Char := replaceAll extraSpaces (fun _ => [' ']) s

/-- The strings that the loop over `space1_matches` and `space6_matches` replaces, html.rs:105-111. -/
def replacements : List (List Char) → List (List Char) → List (List Char)
  | [], bs => bs
  | a :: as, [] => a :: as
  | a :: as, b :: bs => (a ++ b) :: replacements as bs

/-- The loop itself, html.rs:104-117. -/
def spaceLoop (as bs : List (List Char)) (tag : List Char) : List Char :=
  (replacements as bs).foldl (fun tag x => replaceStr x (oneSpace x) tag) tag

/-- The loop over `extra_spaces2.find_iter(&tag)`, html.rs:119-133. -/
def nameLoop : List (List Char) → List Char → Option (List Char)
  | [], output => some output
  | m :: ms, output =>
    match from1 m with
    | none => none
    | some r => nameLoop ms (replaceStr m (m.take 1 ++ ' ' :: trimStart r) output)

/-- The text of a group. -/
def Hit.cap (h : Hit) (i : Nat) : List Char := (h.caps.lookup i).getD []

/-- The closure of `quotes_in_tag.replace_all`, html.rs:134-138. -/
def unquote (h : Hit) : List Char :=
  if h.cap 1 == "width".toList || h.cap 1 == "height".toList then h.cap 1 ++ '=' :: h.cap 2
  else h.cap 1 ++ '=' :: '"' :: (h.cap 2 ++ ['"'])

/-- The closure of `any_tag.replace_all`, html.rs:93-144. -/
def tidyTag (T : Tables) (cap : List Char) : Option (List Char) :=
  if startsWith "<!".toList cap || contains "</".toList cap then some cap
  else
    let tag := replaceAll (spacesBeforeClose '"') (fun _ => "\">".toList) cap
    let tagC := replaceAll (spacesBeforeClose '\'') (fun _ => "'>".toList) tag
    let tag := spaceLoop (findIter (betweenWords T) tagC) (findIter (extraSpaces3 T) tagC) tagC
    match nameLoop (findIter (extraSpaces2 T) tag) tag with
    | none => none
    | some output => some (replaceAll quotesInTag unquote output)

/-- `replace_all` with a closure that may panic. -/
def replaceAllM (r : Re) (f : Hit → Option (List Char)) (s : List Char) : Option (List Char) :=
  ((cut r s).mapM fun (x : Piece) =>
    match x with
    | .chr c => some [c]
    | .hit h => f h).map List.flatten

/-- `unquote_attributes`, html.rs:81-147. -/
def unquoteAttributes (T : Tables) (source : List Char) : Option (List Char) :=
  (replaceAllM (anyTag T) (fun h => tidyTag T h.text) source).map trim

/-- `minify`, html.rs:150-156. -/
def minify (T : Tables) (source : List Char) : Option (List Char) :=
  (unquoteAttributes T (condenseWhitespace T (cleanUnneededTags (condense T (removeComments source))))).map trim

/-- Tables good for ASCII, for examples. -/
def ascii : Tables :=
  { word := fun c => letter c || ('0' ≤ c && c ≤ '9') || c == '_'
    digit := fun c => '0' ≤ c && c ≤ '9'
    lower := fun c => [c.toLower] }

end Verif.Html
