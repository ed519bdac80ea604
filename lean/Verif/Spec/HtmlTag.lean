import Verif.Model.Css
/-!
# How a browser reads a start tag

The states of the HTML standard (13.2.5.6 to 13.2.5.40) that a start tag goes through, as a reader of one tag. Nothing here
refers to the program.
-/
namespace Verif.Spec.Html

/-- White space of HTML. -/
def blank (c : Char) : Bool := c == ' ' || c == '\t' || c == '\n' || c == '\r' || c == '\x0c'

inductive St where
  | data
  | tagOpen
  | tagName
  | beforeName
  | name (n : List Char)
  | afterName (n : List Char)
  | beforeValue (n : List Char)
  | dq (n v : List Char)
  | sq (n v : List Char)
  | unq (n v : List Char)
  | afterQuoted
  | slash
  /-- The tag has ended, with `/>` or with `>`. -/
  | closed (self : Bool)
  | bad

structure Reader where
  st : St
  /-- The name of the element. -/
  tag : List Char
  attrs : List (List Char × List Char)

/-- The attribute is complete. -/
def Reader.put (r : Reader) (n v : List Char) (st : St) : Reader := ⟨st, r.tag, r.attrs ++ [(n, v)]⟩

def Reader.to (r : Reader) (st : St) : Reader := ⟨st, r.tag, r.attrs⟩

/-- "Before attribute name". -/
def Reader.begin (r : Reader) (c : Char) : Reader :=
  if blank c then r.to .beforeName
  else if c = '/' then r.to .slash
  else if c = '>' then r.to (.closed false)
  else r.to (.name [c])

def Reader.step (r : Reader) (c : Char) : Reader :=
  match r.st with
  | .data => if c = '<' then r.to .tagOpen else r.to .bad
  | .tagOpen => if c.isAlpha then ⟨.tagName, [c], r.attrs⟩ else r.to .bad
  | .tagName =>
    if blank c then r.to .beforeName
    else if c = '/' then r.to .slash
    else if c = '>' then r.to (.closed false)
    else ⟨.tagName, r.tag ++ [c], r.attrs⟩
  | .beforeName => r.begin c
  | .name n =>
    if blank c then r.to (.afterName n)
    else if c = '/' then r.put n [] .slash
    else if c = '>' then r.put n [] (.closed false)
    else if c = '=' then r.to (.beforeValue n)
    else r.to (.name (n ++ [c]))
  | .afterName n =>
    if blank c then r
    else if c = '/' then r.put n [] .slash
    else if c = '>' then r.put n [] (.closed false)
    else if c = '=' then r.to (.beforeValue n)
    else r.put n [] (.name [c])
  | .beforeValue n =>
    if blank c then r
    else if c = '"' then r.to (.dq n [])
    else if c = '\'' then r.to (.sq n [])
    else if c = '>' then r.put n [] (.closed false)
    else r.to (.unq n [c])
  | .dq n v => if c = '"' then r.put n v .afterQuoted else r.to (.dq n (v ++ [c]))
  | .sq n v => if c = '\'' then r.put n v .afterQuoted else r.to (.sq n (v ++ [c]))
  | .unq n v =>
    if blank c then r.put n v .beforeName
    else if c = '>' then r.put n v (.closed false)
    else r.to (.unq n (v ++ [c]))
  | .afterQuoted => r.begin c
  | .slash => if c = '>' then r.to (.closed true) else r.begin c
  | .closed _ => r.to .bad
  | .bad => r

def Reader.run (r : Reader) (s : List Char) : Reader := s.foldl Reader.step r

def Reader.init : Reader := ⟨.data, [], []⟩

/-- The element, its attributes in order and whether the tag ends with `/>`; nothing if the text is not exactly one start tag. -/
def readTag (s : List Char) : Option (List Char × List (List Char × List Char) × Bool) :=
  match (Reader.init.run s).st with
  | .closed b => some ((Reader.init.run s).tag, (Reader.init.run s).attrs, b)
  | _ => none

/-- Inside of quotes. -/
def St.quoted : St → Bool
  | .dq _ _ | .sq _ _ => true
  | _ => false

/-- The name of an attribute whose quotes the program may remove. -/
def sized (n : List Char) : Bool := "width".toList.isSuffixOf n || "height".toList.isSuffixOf n

/-- What is asked of a character `c` of a tag, read in state `st` and followed by `s`: a `"` opens a value, or closes one and is
followed by white space, the end of the tag or, unless the attribute is a width or height, a slash; white space inside of quotes is
single; all other white space is that of HTML. -/
def TameAt (st : St) (c : Char) (s : List Char) : Prop :=
  (c = '"' → (∃ n, st = .beforeValue n) ∨
    ∃ n v, st = .dq n v ∧ ∃ d, s.head? = some d ∧ (blank d = true ∨ d = '>' ∨ (d = '/' ∧ sized n = false))) ∧
  (isWhitespace c = true → if st.quoted then ∀ d, s.head? = some d → isWhitespace d = false else blank c = true)

def Tame : Reader → List Char → Prop
  | _, [] => True
  | r, c :: s => TameAt r.st c s ∧ Tame (r.step c) s

/-- The only white space inside of quotes is the blank. -/
def Tight : Reader → List Char → Prop
  | _, [] => True
  | r, c :: s => (isWhitespace c = true → r.st.quoted = true → c = ' ') ∧ Tight (r.step c) s

/-- An attribute name may begin here. -/
def St.between : St → Bool
  | .beforeName | .afterName _ => true
  | _ => false

/-- Every `type="` of the tag begins an attribute, whose value is not followed by a slash, and no attribute name begins with `=`. -/
def TypeSafe : Reader → List Char → Prop
  | _, [] => True
  | r, c :: s =>
    ("type=\"".toList <+: c :: s → r.st.between = true) ∧
    (c = '=' → r.st ≠ .beforeName ∧ r.st ≠ .afterQuoted ∧ r.st ≠ .slash) ∧
    (c = '"' → ∀ v, r.st = .dq "type".toList v → s.head? ≠ some '/') ∧ TypeSafe (r.step c) s

/-- The second list is the first one without some attributes called `type`. -/
inductive Untyped : List (List Char × List Char) → List (List Char × List Char) → Prop
  | nil : Untyped [] []
  | keep {as bs : List (List Char × List Char)} (a : List Char × List Char) : Untyped as bs → Untyped (a :: as) (a :: bs)
  | drop {as bs : List (List Char × List Char)} (v : List Char) : Untyped as bs → Untyped (("type".toList, v) :: as) bs

/-- Values of `type` that mean the same as no `type` at all (HTML standard, 4.2.6 and 4.12.1). -/
def defaultType (tag v : List Char) : Bool :=
  (tag == "style".toList && v == "text/css".toList) ||
  (tag == "script".toList && (v == "text/javascript".toList || v == "application/javascript".toList))

/-- The attributes that have an effect. -/
def effective (tag : List Char) (as : List (List Char × List Char)) : List (List Char × List Char) :=
  as.filter fun a => !(a.1 == "type".toList && defaultType tag a.2)

end Verif.Spec.Html
