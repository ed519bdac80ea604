import Verif.Proofs.JsArrTwice
import Verif.Proofs.JsAggTwice
/-!
# A second aggregation of strings into an array (C85)
-/
set_option linter.unusedSimpArgs false
namespace Verif.Js
open Spec.JsAgg

/-- The full statement: on its own result `aggregate_strings_into_array` does nothing. -/
def C85_full : Prop := ∀ (ts : List Token) (name : List Char) (out : List Token),
  aggregateIntoArray ts name none (fun _ => true) = .ok out → aggregateIntoArray out name none (fun _ => true) = .ok out

/-- Twenty literals that are given the indices 0 to 9, and two that are not worth a reference `R[10]`. -/
private def eleven : List Token :=
  "abcdefghijk".toList.flatMap fun c => List.replicate 2 (Token.str ('"' :: (List.replicate 6 c ++ ['"'])))

/-- The second run does not see that there is an array `R` and begins with the index 0 again: a literal that was not worth `R[10]`
is worth `R[0]`. The script then has two declarations of `R`, and the one of the first run comes last. -/
theorem C85_full_false : ¬C85_full := by
  intro h
  have hk : (match aggregateIntoArray eleven ['R'] none (fun _ => true) with
      | .ok out => decide (aggregateIntoArray out ['R'] none (fun _ => true) ≠ .ok out)
      | _ => false) = true := by decide +kernel
  have h1 : ∃ out, aggregateIntoArray eleven ['R'] none (fun _ => true) = .ok out ∧ aggregateIntoArray out ['R'] none (fun _ => true) ≠ .ok out := by
    cases hr : aggregateIntoArray eleven ['R'] none (fun _ => true) with
    | ok out => rw [hr] at hk; exact ⟨out, rfl, of_decide_eq_true hk⟩
    | err e => rw [hr] at hk; cases hk
    | panic p => rw [hr] at hk; cases hk
  obtain ⟨out, h1, h2⟩ := h1
  exact h2 (h _ _ _ h1)

/-- Two aggregations with different filters should leave one array. -/
def C85_filters : Prop := ∀ (ts : List Token) (name : List Char) (f g : Nat → Bool) (one two : List Token), sets name ts = 0 →
  aggregateIntoArray ts name none f = .ok one → aggregateIntoArray one name none g = .ok two → sets name two ≤ 1

/-- `f("abcdef","abcdef","uvwxyz","uvwxyz")`, first without the last two literals, then with all of them: the result is
`var R=["uvwxyz"];var R=["abcdef"];f(R[0],R[0],R[0],R[0])`. -/
theorem C85_filters_false : ¬C85_filters := by
  intro h
  let ts : List Token := [.other ['f'], .char .openParen, .str "\"abcdef\"".toList, .char .comma, .str "\"abcdef\"".toList, .char .comma,
    .str "\"uvwxyz\"".toList, .char .comma, .str "\"uvwxyz\"".toList, .char .closeParen]
  let r0 : Token := .createdVar "R[0]".toList
  let one : List Token := [.createdVarDecl "var R=".toList, .char .openBracket, entry "abcdef".toList, .char .closeBracket, .char .semiColon,
    .other ['f'], .char .openParen, r0, .char .comma, r0, .char .comma,
    .str "\"uvwxyz\"".toList, .char .comma, .str "\"uvwxyz\"".toList, .char .closeParen]
  let two : List Token := [.createdVarDecl "var R=".toList, .char .openBracket, entry "uvwxyz".toList, .char .closeBracket, .char .semiColon,
    .createdVarDecl "var R=".toList, .char .openBracket, entry "abcdef".toList, .char .closeBracket, .char .semiColon,
    .other ['f'], .char .openParen, r0, .char .comma, r0, .char .comma, r0, .char .comma, r0, .char .closeParen]
  have h1 : aggregateIntoArray ts ['R'] none (fun p => decide (p < 6)) = .ok one := by decide +kernel
  have h2 : aggregateIntoArray one ['R'] none (fun _ => true) = .ok two := by decide +kernel
  exact absurd (h ts ['R'] _ _ one two (by decide +kernel) h1 h2) (by decide +kernel)

/-- How many literals the array has that is there already. -/
def oldSize (ts : List Token) (name : List Char) : Nat :=
  match getArray ts name with
  | none => 0
  | some (vs, _) => vs.countP fun p => (ts[p]?.bind Token.getStr).isSome

private theorem old_length (ts : List Token) (name : List Char) :
    ((((getArray ts name).map Prod.fst).getD []).filterMap (litAt ts)).length = oldSize ts name := by
  unfold oldSize
  cases getArray ts name with
  | none => rfl
  | some r =>
    obtain ⟨vs, eb⟩ := r
    simp only [Option.map_some, Option.getD_some]
    induction vs with
    | nil => rfl
    | cons p vs ih =>
      rw [List.filterMap_cons, List.countP_cons, ← ih]
      unfold litAt
      cases ts[p]?.bind Token.getStr <;> rfl

/-- What is proved: with the new elements `N` and the number of elements that were there before, a second run changes nothing if the
indices have not become longer. The separation is not put in front again. What is missing is where they have, `C85_full_false`, and other
filters, `C85_filters_false`. -/
theorem C85_digits_partial (ts : List Token) (name : List Char) (sep sep' : Option Token) (hq : ∀ s, .str s ∈ ts → Quoted s)
    (hsep : ∀ t, sep = some t → (∀ s, t ≠ .str s) ∧ t ≠ .keyword .kVar ∧ t ≠ .keyword .kLet) :
    ∃ (N : List (List Char)) (out : List Token), aggregateIntoArray ts name sep (fun _ => true) = .ok out ∧
      N.Nodup ∧ (∀ c ∈ N, entry c ∈ out ∧ 2 ≤ ts.countP fun t => decide (t.getStr.map content = some c)) ∧
      ((natDisplay (oldSize ts name)).length = (natDisplay (oldSize ts name + N.length)).length →
        aggregateIntoArray out name sep' (fun _ => true) = .ok out) := by
  obtain ⟨O, N, out, h1, h2, h3, h4, h5⟩ := array_twice ts name sep sep' (fun p s h => hq s (List.mem_of_getElem? h)) fun t ht => by
    obtain ⟨e1, e2⟩ := hsep t ht
    refine ⟨?_, e2⟩
    cases t <;> first | rfl | exact absurd rfl (e1 _)
  refine ⟨N, out, h1, h3, fun c hc => ⟨(h4 c hc).2.1, (h4 c hc).2.2⟩, fun hd => h5 ?_⟩
  rw [h2, old_length, blen_of_digits (natDisplay_digits _).2.1, blen_of_digits (natDisplay_digits _).2.1]
  exact hd

private theorem distinct_contents : ∀ (ts : List Token) (S : List (List Char)), S.Nodup →
    (S.map fun c => ts.countP (withContent c)).sum ≤ ts.countP Token.isStr := by
  intro ts
  induction ts with
  | nil =>
    intro S hS
    clear hS
    induction S with
    | nil => simp
    | cons s S ih => simpa using ih
  | cons t ts ih =>
    intro S hS
    have h1 := ih S hS
    have h2 : ∀ S : List (List Char), S.Nodup → (S.map fun c => (t :: ts).countP (withContent c)).sum ≤
        (S.map fun c => ts.countP (withContent c)).sum + (if t.isStr then 1 else 0) ∧
        ((∀ c ∈ S, withContent c t = false) → (S.map fun c => (t :: ts).countP (withContent c)).sum = (S.map fun c => ts.countP (withContent c)).sum) := by
      intro S
      induction S with
      | nil => intro _; simp
      | cons c S ih =>
        intro hS
        obtain ⟨i1, i2⟩ := ih (List.nodup_cons.1 hS).2
        have hcc : (t :: ts).countP (withContent c) = ts.countP (withContent c) + if withContent c t then 1 else 0 := List.countP_cons
        rw [List.map_cons, List.map_cons, List.sum_cons, List.sum_cons, hcc]
        cases hw : withContent c t with
        | false =>
          simp only [Bool.false_eq_true, if_false, Nat.add_zero]
          exact ⟨by omega, fun hall => by rw [i2 fun y hy => hall y (by simp [hy])]⟩
        | true =>
          have hs : t.isStr = true := by
            unfold withContent at hw
            cases t <;> simp [Token.getStr] at hw
            rfl
          refine ⟨?_, fun hall => by rw [hall c (by simp)] at hw; cases hw⟩
          rw [i2 fun y hy => ?_, hs]
          · simp only [if_true]; omega
          · unfold withContent at hw ⊢
            simp only [decide_eq_true_eq, decide_eq_false_iff_not] at hw ⊢
            rw [hw]
            rintro ⟨⟩
            exact (List.nodup_cons.1 hS).1 hy
    have := (h2 S hS).1
    rw [List.countP_cons]
    omega

/-- In scripts with fewer than twenty literals and no array of that name one run is as good as any number of runs. -/
theorem C85_few_partial (ts : List Token) (name : List Char) (sep sep' : Option Token) (hq : ∀ s, .str s ∈ ts → Quoted s)
    (hsep : ∀ t, sep = some t → (∀ s, t ≠ .str s) ∧ t ≠ .keyword .kVar ∧ t ≠ .keyword .kLet) (hnew : getArray ts name = none)
    (hfew : ts.countP Token.isStr < 20) :
    ∃ out, aggregateIntoArray ts name sep (fun _ => true) = .ok out ∧ aggregateIntoArray out name sep' (fun _ => true) = .ok out := by
  obtain ⟨N, out, h1, h2, h3, h4⟩ := C85_digits_partial ts name sep sep' hq hsep
  refine ⟨out, h1, h4 ?_⟩
  have hold : oldSize ts name = 0 := by unfold oldSize; rw [hnew]
  have hN : 2 * N.length ≤ ts.countP Token.isStr := by
    refine Nat.le_trans ?_ (distinct_contents ts N h2)
    have h5 : ∀ c ∈ N, 2 ≤ ts.countP (withContent c) := fun c hc => (h3 c hc).2
    clear h2 h3 h4
    induction N with
    | nil => simp
    | cons c N ih =>
      have e1 := h5 c (by simp)
      have e2 := ih fun c hc => h5 c (by simp [hc])
      simp only [List.map_cons, List.sum_cons, List.length_cons]
      omega
  rw [hold, Nat.zero_add]
  have hlt : N.length < 10 := by omega
  have : ∀ k, k < 10 → (natDisplay 0).length = (natDisplay k).length := by decide +kernel
  exact this _ hlt

/-- A script in which one literal is put into an array, and another one, seen twice too, is not. -/
example :
    let ts : List Token := [.other ['f'], .char .openParen, .str "\"abcdef\"".toList, .char .comma, .str "'abcdef'".toList,
      .char .comma, .str "\"x\"".toList, .char .comma, .str "\"x\"".toList, .char .closeParen]
    (∀ s, .str s ∈ ts → Quoted s) ∧ getArray ts ['R'] = none ∧ ts.countP Token.isStr < 20 ∧
      aggregateIntoArray ts ['R'] none (fun _ => true) = .ok [.createdVarDecl "var R=".toList, .char .openBracket, entry "abcdef".toList,
        .char .closeBracket, .char .semiColon, .other ['f'], .char .openParen, .createdVar "R[0]".toList, .char .comma,
        .createdVar "R[0]".toList, .char .comma, .str "\"x\"".toList, .char .comma, .str "\"x\"".toList, .char .closeParen] := by
  refine ⟨?_, by decide +kernel, by decide +kernel, by decide +kernel⟩
  intro s hs
  simp at hs
  rcases hs with rfl | rfl | rfl
  · exact ⟨'"', "abcdef".toList, '"', by decide, by decide, by decide⟩
  · exact ⟨'\'', "abcdef".toList, '\'', by decide, by decide, by decide⟩
  · exact ⟨'"', "x".toList, '"', by decide, by decide, by decide⟩

end Verif.Js
