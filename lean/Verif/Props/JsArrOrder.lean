import Verif.Proofs.JsArrOrder
import Verif.Props.JsAggOrder
import Verif.Props.JsArrText
/-!
# C89: cleaning tokens before or after strings are aggregated into an array
-/
set_option linter.unusedSimpArgs false

namespace Verif.Js
open Spec.Js Spec.JsAgg

/-- C89: it does not matter whether tokens are cleaned before or after their strings are aggregated into an array, if the filter answers the same
for the same token; `rk ts i` is the number of tokens before the position `i` that are neither comments nor blanks. The outcome is the
same in all cases, also if a literal has no quotes and the program stops. -/
theorem C89_tokens (ts : List Token) (name : List Char) (sep : Option Token) (f g : Nat → Bool)
    (hf : ∀ (i : Nat) s, ts[i]? = some (.str s) → g (((ts.take i).filter fun t => !useless t).length) = f i)
    (hn : (ts.filter fun t => !useless t).head? ≠ some (.char .semiColon)) (hsep : ∀ t, sep = some t → useless t = true) :
    aggregateIntoArray (cleanTokens ts) name none g = (aggregateIntoArray ts name sep f >>= fun out => .ok (cleanTokens out)) := by
  have hk : (fun t => !useless t) = keepTok := funext fun t => (keepTok_eq t).symm
  rw [hk] at hf hn
  have h := array_filter ts name sep hf hsep
  have hdrop : ∀ l : List Token, l.head? ≠ some (.char .semiColon) → l.dropWhile (· == .char .semiColon) = l := by
    intro l hl
    cases l with
    | nil => rfl
    | cons t l =>
      have : (t == .char .semiColon) = false := by
        simp only [beq_eq_false_iff_ne]
        intro e; exact hl (by rw [e]; rfl)
      simp [this]
  rw [cleanTokens_eq ts, hdrop _ hn]
  generalize aggregateIntoArray ts name sep f = x at h
  generalize aggregateIntoArray (ts.filter keepTok) name none g = y at h
  cases x <;> cases y <;> first | cases h; done | skip
  · obtain ⟨h1, h2⟩ := h
    subst h1
    simp only [Out.bind_ok]
    rw [cleanTokens_eq, hdrop _ (h2 hn)]
  · have : _ = _ := h
    subst this; rfl
  · have : _ = _ := h
    subst this; rfl

/-- The same for the texts, without a filter. -/
theorem C89_text (s name : List Char) (sep : Option Token)
    (hn : ∀ ts, tokenize s = .ok ts → (ts.filter fun t => !useless t).head? ≠ some (.char .semiColon))
    (hsep : ∀ t, sep = some t → useless t = true) :
    arrayText s name sep (fun _ => true) = cleanedArrayText s name fun _ => true := by
  rw [arrayText, cleanedArrayText]
  cases ht : tokenize s with
  | err e => rfl
  | panic e => rfl
  | ok ts =>
    simp only [Out.bind_ok]
    rw [C89_tokens ts name sep (fun _ => true) (fun _ => true) (fun _ _ _ => rfl) (hn ts ht) hsep]
    cases aggregateIntoArray ts name sep fun _ => true <;> rfl

/-- A semicolon that comes first is cleaned away before, and kept after a declaration. -/
theorem C89_semi :
    arrayText ";f('abcdefghijkl','abcdefghijkl')".toList ['R'] none (fun _ => true) =
      .ok "var R=[\"abcdefghijkl\"];;f(R[0],R[0])".toList ∧
    cleanedArrayText ";f('abcdefghijkl','abcdefghijkl')".toList ['R'] (fun _ => true) =
      .ok "var R=[\"abcdefghijkl\"];f(R[0],R[0])".toList := by
  refine ⟨?_, ?_⟩ <;> decide +kernel

/-- An array that is there, with blanks, comments and line breaks everywhere. -/
example : let s := "/* c */ var // d\nR\n=\n[ 'mnopqrstuvwx'\n /* e */ ]\n; f ( 'abcdefghijkl' , 'mnopqrstuvwx' ,\n'abcdefghijkl' )".toList
    (∀ ts, tokenize s = .ok ts → (ts.filter fun t => !useless t).head? ≠ some (.char .semiColon)) ∧
      (cleanedArrayText s ['R'] fun _ => true) = .ok "var R=['mnopqrstuvwx',\"abcdefghijkl\"];f(R[1],R[0],R[1])".toList := by
  refine ⟨fun ts h => ?_, by decide +kernel⟩
  have hd : (match tokenize "/* c */ var // d\nR\n=\n[ 'mnopqrstuvwx'\n /* e */ ]\n; f ( 'abcdefghijkl' , 'mnopqrstuvwx' ,\n'abcdefghijkl' )".toList with
      | .ok ts => (ts.filter fun t => !useless t).head? != some (.char .semiColon)
      | _ => false) = true := by decide +kernel
  rw [h] at hd
  simpa using hd

/-- A filter that leaves the first literal alone. -/
example : let ts : List Token := [.char .space, .other ['f'], .comment ['c'], .str "'abcdefghijkl'".toList, .op .addition, .char .backline,
      .str "'abcdefghijkl'".toList, .op .addition, .str "'abcdefghijkl'".toList]
    (∀ (i : Nat) s, ts[i]? = some (.str s) → decide (1 < ((ts.take i).filter fun t => !useless t).length) = decide (3 < i)) ∧
      aggregateIntoArray (cleanTokens ts) ['R'] none (fun i => decide (1 < i)) =
        .ok [.createdVarDecl "var R=".toList, .char .openBracket, .createdVar "\"abcdefghijkl\"".toList, .char .closeBracket, .char .semiColon,
          .other ['f'], .str "'abcdefghijkl'".toList, .op .addition, .createdVar "R[0]".toList, .op .addition, .createdVar "R[0]".toList] := by
  refine ⟨?_, by decide +kernel⟩
  intro i s h
  match i, h with
  | 0, h | 1, h | 2, h | 4, h | 5, h | 7, h => cases h
  | 3, _ | 6, _ | 8, _ => rfl
  | n + 9, h => simp at h

end Verif.Js
