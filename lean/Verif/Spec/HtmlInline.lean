import Verif.Spec.HtmlPage
import Verif.Spec.EcmaLines
import Verif.Spec.CssSyntax
/-!
# Scripts and style sheets inside of a page

Which of them mean the same when gaps become one blank.
-/
namespace Verif.Spec.Html

/-! ## What they are -/

/-- Elements that contain no further tags (HTML standard, 13.1.2). -/
def rawElements : List (List Char) :=
  ["script".toList, "style".toList, "textarea".toList, "title".toList, "xmp".toList, "iframe".toList, "noembed".toList, "noframes".toList]

/-- The name of the element, if the tag `<t>` begins one of these. -/
def rawName (t : List Char) : Option (List Char) :=
  match readTag ('<' :: t ++ ['>']) with
  | some (n, _, _) => if rawElements.contains (n.map Char.toLower) then some (n.map Char.toLower) else none
  | none => none

/-- `<t>` is an end tag of the element. -/
def closes (nm t : List Char) : Bool :=
  ('/' :: nm).isPrefixOf (t.map Char.toLower) && !(t.drop (nm.length + 1)).head?.any fun c => !(blank c || c == '/')

/-- The elements of the page that contain no further tags: the name, and what is between the tags. First argument: the open element and
what has been read of it. -/
def elements : Option (List Char × List Char) → List Seg → List (List Char × List Char)
  | _, [] => []
  | none, .tag t :: P => elements ((rawName t).map fun nm => (nm, [])) P
  | none, .text _ :: P => elements none P
  | none, .comment _ :: P => elements none P
  | some (nm, x), .tag t :: P =>
    if closes nm t then (nm, x) :: elements none P else elements (some (nm, x ++ (Seg.tag t).show)) P
  | some (nm, x), .text s :: P => elements (some (nm, x ++ s)) P
  | some (nm, x), .comment b :: P => elements (some (nm, x ++ (Seg.comment b).show)) P

/-- Lists of the same length whose members correspond. -/
inductive Matched (R : List Char × List Char → List Char × List Char → Prop) :
    List (List Char × List Char) → List (List Char × List Char) → Prop
  | nil : Matched R [] []
  | cons {a b : List Char × List Char} {l m : List (List Char × List Char)} : R a b → Matched R l m → Matched R (a :: l) (b :: m)

/-- The tag is an end tag, a declaration or the beginning of a comment, or a browser reads it as a start tag and the quotes are where they
should be. -/
def Sound (t : List Char) : Prop :=
  (NotStart t ∧ ∀ c ∈ t, isWhitespace c = true → blank c = true) ∨
  (Kept t ∧ Tight Reader.init ('<' :: t ++ ['>']) ∧ (readTag ('<' :: t ++ ['>'])).isSome)

/-! ## Which of them mean the same when gaps become one blank -/

/-- White space in the text is a single blank each time. -/
def single : List Char → Bool
  | [] => true
  | c :: r => (!isWhitespace c || (c == ' ' && !r.head?.any isWhitespace)) && single r

/-- The script has no comment up to the end of a line, no token is broken off, and white space inside of tokens is single. The number bounds
the turns. -/
def easyF (goal : List Ecma.Tok → Bool) : Nat → List Ecma.Tok → List Char → Bool
  | 0, _, _ => true
  | _ + 1, _, [] => true
  | n + 1, hist, c :: r =>
    if Ecma.white c || Ecma.lineEnd c then easyF goal n hist r
    else if c = '/' ∧ r.head? = some '/' then false
    else if c = '/' ∧ r.head? = some '*' then
      match Ecma.afterBlock r.tail with
      | some r => easyF goal n hist r
      | none => false
    else
      match Ecma.token (goal hist) c r with
      | some (t, x) => single ((c :: r).take ((c :: r).length - x.length)) && easyF goal n (t :: hist) x
      | none => false

def easyAfter (goal : List Ecma.Tok → Bool) (hist : List Ecma.Tok) (s : List Char) : Bool := easyF goal s.length hist s

/-- A script that may stand in a page. -/
def easyScript (goal : List Ecma.Tok → Bool) (s : List Char) : Bool := easyAfter goal [] s

/-- The tokens of a style sheet, white space included. -/
def sheetToks (s : List Char) : List CssSyntax.Tok := CssSyntax.tokensF s.length s

/-- The style sheet has no parse errors in strings and addresses, and white space inside of tokens is single and not at their end. The number
bounds the turns. -/
def easySheetF : Nat → List Char → Bool
  | n + 1, c :: s =>
    match CssSyntax.token c s with
    | (some t, r) =>
      (t == .white || (t != .badString && t != .badUrl && single ((c :: s).take ((c :: s).length - r.length)) &&
        !((c :: s).take ((c :: s).length - r.length)).getLast?.any isWhitespace)) && easySheetF n r
    | (none, r) => easySheetF n r
  | _, _ => true

/-- Is a line break escaped? -/
def brokenEscape : List Char → Bool
  | '\\' :: c :: s => CssSyntax.newline c || brokenEscape (c :: s)
  | _ :: s => brokenEscape s
  | [] => false

/-- A style sheet that may stand in a page. -/
def easySheet (s : List Char) : Bool :=
  easySheetF s.length s && !brokenEscape s && s.all fun c => !isWhitespace c || CssSyntax.white c

end Verif.Spec.Html
