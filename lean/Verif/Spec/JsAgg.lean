import Verif.Model.JsToken
import Verif.Spec.Js
/-!
# Aggregated strings: what the transformation should be

Nothing here refers to the functions of `Model/JsAgg`.
-/
namespace Verif.Spec.JsAgg
open Verif.Js (Token)

/-- The letters of generated names, in the order of the generator. -/
def alphabet : List Char := "abcdefghijklmnopqrstuvwxyzABCDEFGHIJKLMNOPQRSTUVWXYZ0123456789".toList

/-- The place of a word in the enumeration of all words, the first letter counting least (bijective base 62). -/
def rank : List Char → Nat
  | [] => 0
  | c :: r => alphabet.idxOf c + 1 + 62 * rank r

/-- A generated name: `r_` and at least one letter or digit. -/
def GenName (n : List Char) : Prop := ∃ l, n = 'r' :: '_' :: l ∧ l ≠ [] ∧ ∀ c ∈ l, c ∈ alphabet

/-- The declaration of new variables: `var n1=s1,n2=s2;`. -/
def declare : List (List Char × List Char) → List Token
  | [] => []
  | (s, n) :: l =>
    .keyword .kVar :: .createdVarDecl (n ++ ['='] ++ s) ::
      (l.flatMap fun p => [.char .comma, .createdVarDecl (p.2 ++ ['='] ++ p.1)]) ++ [.char .semiColon]

/-! ## Arrays -/

/-- What stands between the quotes of a literal. -/
def content (s : List Char) : List Char := s.tail.dropLast

/-- A literal has two delimiters of one byte. -/
def Quoted (s : List Char) : Prop := ∃ q c q', s = q :: (c ++ [q']) ∧ q.utf8Size = 1 ∧ q'.utf8Size = 1

/-- A literal as an element of the array. -/
def entry (c : List Char) : Token := .createdVar ('"' :: c ++ ['"'])

/-- The elements of a new array. -/
def entries : List (List Char) → List Token
  | [] => []
  | [c] => [entry c]
  | c :: d :: l => entry c :: .char .comma :: entries (d :: l)

/-- More elements. -/
def entriesAfter (l : List (List Char)) : List Token := l.flatMap fun c => [.char .comma, entry c]

/-- The contents of a literal in plain quotes. -/
def plainValue : List Char → Option (List Char)
  | [] => none
  | q :: b => if (q = '"' ∨ q = '\'') ∧ Spec.Js.closeString q b = some (b, []) then some b.dropLast else none

/-- The value of a token, where it is a literal in plain quotes. -/
def tokenValue : Token → Option (List Char)
  | .str s => plainValue s
  | .createdVar s => plainValue s
  | _ => none

/-- Comments and blanks. -/
def blank : Token → Bool
  | .comment _ => true
  | .char .space => true
  | .char .tab => true
  | .char .backline => true
  | _ => false

/-- The pieces between the commas. -/
def pieces : List Token → List (List Token)
  | [] => [[]]
  | t :: ts =>
    if t = .char .comma then [] :: pieces ts
    else
      match pieces ts with
      | [] => [[t]]
      | p :: ps => (t :: p) :: ps

/-- The values of the elements of an array literal, from the tokens between the brackets: `none` for a hole or an element that is
not a literal. Nothing stands after a trailing comma. -/
def elements (ts : List Token) : List (Option (List Char)) :=
  let ps := pieces (ts.filter fun t => !blank t)
  (if ps.getLast? = some [] then ps.dropLast else ps).map fun p =>
    match p with
    | [t] => tokenValue t
    | _ => none

/-- Tokens with commas between them. -/
def commas : List Token → List Token
  | [] => []
  | [t] => [t]
  | t :: u :: l => t :: .char .comma :: commas (u :: l)

/-- The tokens end with `var name =` or `let name =`. -/
def Announces (name : List Char) (pre : List Token) : Prop :=
  (∃ p k g1 g2 g3, (k = .keyword .kVar ∨ k = .keyword .kLet) ∧ (∀ t ∈ g1 ++ g2 ++ g3, blank t = true) ∧
    pre = p ++ k :: (g1 ++ .other name :: (g2 ++ .op .equal :: g3))) ∨
  ∃ p, pre = p ++ [.createdVarDecl ('v' :: 'a' :: 'r' :: ' ' :: (name ++ ['=']))]

/-- How often the variable is given a value. -/
def sets (name : List Char) : List Token → Nat
  | [] => 0
  | t :: ts =>
    (if (t = .other name ∧ ts.find? (fun t => !blank t) = some (.op .equal)) ∨ t = .createdVarDecl ('v' :: 'a' :: 'r' :: ' ' :: (name ++ ['=']))
      then 1 else 0) + sets name ts

/-- The variable is an array with these elements, from its one declaration. -/
def IsArray (ts : List Token) (name : List Char) (E : List (Option (List Char))) : Prop :=
  sets name ts = 1 ∧ ∃ pre arr post, ts = pre ++ .char .openBracket :: (arr ++ .char .closeBracket :: post) ∧ Announces name pre ∧
    .char .closeBracket ∉ arr ∧ elements arr = E

/-- `name[k]`. -/
def Refers (name : List Char) (k : Nat) (t : Token) : Prop :=
  ∃ d, t = .createdVar (name ++ '[' :: (d ++ [']'])) ∧ d ≠ [] ∧ (∀ c ∈ d, Spec.Js.isDigit c = true) ∧ Spec.Js.value d = k

/-- What is inserted: the declaration of a new array, or elements at the end of one that is there. -/
inductive Inserted (name : List Char) (sep : Option Token) (body : List Token) (N : List (List Char)) : List Token → Prop where
  | nothing : N = [] → Inserted name sep body N body
  | declaration : N ≠ [] → Inserted name sep body N
      (.createdVarDecl ('v' :: 'a' :: 'r' :: ' ' :: (name ++ ['='])) :: .char .openBracket ::
        (entries N ++ .char .closeBracket :: .char .semiColon :: (sep.toList ++ body)))
  | first {pre arr post} : body = pre ++ .char .openBracket :: (arr ++ .char .closeBracket :: post) → Announces name pre →
      .char .closeBracket ∉ arr → arr.filter (fun t => !blank t) = [] →
      Inserted name sep body N (pre ++ .char .openBracket :: (arr ++ entries N ++ .char .closeBracket :: post))
  | more {pre arr post} : body = pre ++ .char .openBracket :: (arr ++ .char .closeBracket :: post) → Announces name pre →
      .char .closeBracket ∉ arr → arr.filter (fun t => !blank t) ≠ [] →
      Inserted name sep body N (pre ++ .char .openBracket :: (arr ++ entriesAfter N ++ .char .closeBracket :: post))

/-- `x` comes before `y` in a dictionary: it is a proper beginning of `y`, or the first characters that differ are in the order of
their code points. -/
def Precedes (x y : List Char) : Prop :=
  (∃ r, r ≠ [] ∧ y = x ++ r) ∨ ∃ p a b r r', x = p ++ a :: r ∧ y = p ++ b :: r' ∧ a.toNat < b.toNat

example : Precedes "r_aa".toList "r_b".toList := .inr ⟨['r', '_'], 'a', 'b', ['a'], [], by decide, by decide, by decide⟩

end Verif.Spec.JsAgg
