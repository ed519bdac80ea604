import Verif.Spec.Again
import Verif.Proofs.JsAggTwice
import Verif.Props.JsAgg
/-!
# A second aggregation of strings (C84)
-/
set_option linter.unusedSimpArgs false
namespace Verif.Js
open Spec.JsAgg

/-- The full statement: on its own result `aggregate_strings` does nothing. -/
def C84_full : Prop := ∀ (ts out : List Token), aggregateStrings ts none = .ok out → aggregateStrings out none = .ok out

/-- `r_q="x";f("abcdefghij","abcdefghij","x")`: the first run puts `var r_aa="abcdefghij";` in front. Then the second one finds a
`var` before the first token and takes `r_q="x"`, which it did not look at before, for a declaration. -/
theorem C84_full_false : ¬C84_full := by
  intro h
  let ts : List Token := [.other "r_q".toList, .op .equal, .str "\"x\"".toList, .char .semiColon, .other ['f'], .char .openParen,
    .str "\"abcdefghij\"".toList, .char .comma, .str "\"abcdefghij\"".toList, .char .comma, .str "\"x\"".toList, .char .closeParen]
  let one : List Token := declare [("\"abcdefghij\"".toList, "r_aa".toList)] ++
    [.other "r_q".toList, .op .equal, .str "\"x\"".toList, .char .semiColon, .other ['f'], .char .openParen,
    .createdVar "r_aa".toList, .char .comma, .createdVar "r_aa".toList, .char .comma, .str "\"x\"".toList, .char .closeParen]
  have h1 : aggregateStrings ts none = .ok one := by decide +kernel
  have h2 : aggregateStrings one none ≠ .ok one := by decide +kernel
  exact h2 (h ts one h1)

/-- What is proved: without names that begin with `r_`, a second run changes nothing but that it puts its own separation in
front, if less than 3844 literals were given a name (there are 3844 names of two letters, so that the literals which were left had
been weighed against names as short as the ones a second run begins with). What is missing are scripts with such names, for which
it is false by `C84_full_false`, and more literals. -/
theorem C84_twice_partial (ts : List Token) (sep sep' : Option Token) (h : NoAggregates ts)
    (hsep : ∀ t, sep = some t → (∀ s, t ≠ .str s) ∧ ∀ s, t ≠ .other s) :
    ∃ (D : List (List Char × List Char)) (body : List Token), aggregateStrings ts sep = .ok (declare D ++ sep.toList ++ body) ∧
      2 * D.length ≤ ts.length ∧
      (D.length < 3844 → aggregateStrings (declare D ++ sep.toList ++ body) sep' = .ok (sep'.toList ++ (declare D ++ sep.toList ++ body))) := by
  obtain ⟨D, body, h1, h2, h3, h4⟩ := aggregate_twice ts sep sep' h fun t ht => by
    obtain ⟨e1, e2⟩ := hsep t ht
    constructor
    · cases t <;> first | rfl | exact absurd rfl (e1 _)
    · cases t <;> first | rfl | exact absurd rfl (e2 _)
  exact ⟨D, body, h1, hoisted_length h2 h3, h4⟩

/-- For scripts of less than 7688 tokens one run is as good as any number of runs. -/
theorem C84_again_partial (ts : List Token) (h : NoAggregates ts) (hl : ts.length < 7688) (n : Nat) :
    ∃ out, aggregateStrings ts none = .ok out ∧
      Spec.again (fun us => match aggregateStrings us none with | .ok us' => some us' | _ => none) (n + 1) ts = some out := by
  obtain ⟨D, body, h1, h2, h3⟩ := C84_twice_partial ts none none h (fun t ht => by cases ht)
  have h4 := h3 (by omega)
  refine ⟨_, h1, ?_⟩
  simp only [Option.toList, List.nil_append] at h4
  have hfix : ∀ k, Spec.again (fun us => match aggregateStrings us none with | .ok us' => some us' | _ => none) k
      (declare D ++ (none : Option Token).toList ++ body) = some (declare D ++ (none : Option Token).toList ++ body) := by
    intro k
    induction k with
    | zero => rfl
    | succ k ih => simp only [Spec.again]; simp only [Option.toList] at ih ⊢; rw [h4]; exact ih
  simp only [Spec.again]
  rw [h1]
  exact hfix n

/-- A script in which one literal is given a name and another one, seen twice too, is not. -/
example :
    let ts : List Token := [.other ['f'], .char .openParen, .str "\"abcdefghij\"".toList, .char .comma, .str "\"abcdefghij\"".toList,
      .char .comma, .str "\"x\"".toList, .char .comma, .str "\"x\"".toList, .char .closeParen]
    NoAggregates ts ∧ ts.length < 7688 ∧
      aggregateStrings ts none = .ok (declare [("\"abcdefghij\"".toList, "r_aa".toList)] ++ [.other ['f'], .char .openParen,
        .createdVar "r_aa".toList, .char .comma, .createdVar "r_aa".toList, .char .comma, .str "\"x\"".toList, .char .comma,
        .str "\"x\"".toList, .char .closeParen]) := by
  refine ⟨?_, by decide, by decide +kernel⟩
  intro name hm
  simp at hm
  subst hm
  decide

end Verif.Js
