import Verif.Proofs.JsArrRead
import Verif.Props.JsAgg
/-!
# Properties of the aggregation of strings into an array (C40, C41, C55, C56)
-/
set_option linter.unusedSimpArgs false
namespace Verif.Js
open Spec.JsAgg

/-! ## C41 -/

/-- For every token list and filter: apart from what is inserted, which is the declaration of a new array or elements at the end
of the array that is there, the tokens are the same but for literals that the filter accepts. New elements differ from each
other, and the filter accepts two literals with the content of each. -/
theorem C41_filter (ts : List Token) (name : List Char) (sep : Option Token) (filter : Nat → Bool) (out : List Token)
    (h : aggregateIntoArray ts name sep filter = .ok out) :
    ∃ N body, Inserted name sep body N out ∧ body.length = ts.length ∧ N.Nodup ∧
      (∀ i, filter i = false → body[i]? = ts[i]?) ∧
      (∀ (i : Nat) (t : Token), ts[i]? = some t → (∀ s, t ≠ .str s) → body[i]? = some t) ∧
      ∀ c ∈ N, ∃ i j s s', i < j ∧ filter i = true ∧ filter j = true ∧ ts[i]? = some (.str s) ∧ ts[j]? = some (.str s') ∧
        content s = c ∧ content s' = c := by
  obtain ⟨O, N, body, out', h1, h2, h3, -, h4, h5, h6, h7, -⟩ := array_inserted ts name sep filter (array_quoted h)
  rw [h] at h1
  cases h1
  have hlen := h4.length
  refine ⟨N, body, h2, hlen, h3, ?_, ?_, ?_⟩
  · intro i hi
    cases ht : ts[i]? with
    | some t => exact h5 i t ht hi
    | none =>
      rw [List.getElem?_eq_none_iff] at ht ⊢
      omega
  · intro i t ht hs
    rcases h6 i t ht with h | ⟨s, k, e, -⟩
    · exact h
    · exact absurd e (hs s)
  · intro c hc
    have h2 := h7.count c hc
    unfold accepted at h2
    generalize hl : ((List.range ts.length).filter fun p => filter p && decide (litAt ts p = some c)) = l at h2
    have hsub : l.Pairwise (· < ·) := by
      rw [← hl]
      exact List.Pairwise.filter _ List.pairwise_lt_range
    match l, h2, hsub with
    | i :: j :: l, _, hsub =>
      have hij : i < j := (List.pairwise_cons.1 hsub).1 j List.mem_cons_self
      have mem : ∀ p ∈ i :: j :: l, filter p = true ∧ ∃ s, ts[p]? = some (.str s) ∧ content s = c := by
        intro p hp
        rw [← hl, List.mem_filter] at hp
        simp only [Bool.and_eq_true, decide_eq_true_eq] at hp
        exact ⟨hp.2.1, litAt_some.1 hp.2.2⟩
      obtain ⟨a1, s, a2, a3⟩ := mem i List.mem_cons_self
      obtain ⟨b1, s', b2, b3⟩ := mem j (List.mem_cons_of_mem _ List.mem_cons_self)
      exact ⟨i, j, s, s', hij, a1, b1, a2, b2, a3, b3⟩

/-- `f('abcdefghijkl','abcdefghijkl','abcdefghijkl')`. -/
def arrSample : List Token := [.other ['f'], .char .openParen, .str "'abcdefghijkl'".toList, .char .comma, .str "'abcdefghijkl'".toList,
  .char .comma, .str "'abcdefghijkl'".toList, .char .closeParen]

example : aggregateIntoArray arrSample ['R'] none (fun i => i != 4) = .ok
    ([.createdVarDecl "var R=".toList, .char .openBracket, .createdVar "\"abcdefghijkl\"".toList, .char .closeBracket, .char .semiColon] ++
      ((arrSample.set 2 (.createdVar "R[0]".toList)).set 6 (.createdVar "R[0]".toList))) := by decide +kernel

/-! ## C40 -/

/-- The full statement: each token stays as it is, or is a literal in plain quotes that becomes `name[k]`, where `name` is an array
whose `k`-th element has the same value. -/
def C40_full : Prop := ∀ (ts : List Token) (name : List Char) (sep : Option Token) (filter : Nat → Bool) (out : List Token),
  aggregateIntoArray ts name sep filter = .ok out → ∃ N body, Inserted name sep body N out ∧ body.length = ts.length ∧
    ∀ (i : Nat) (t : Token), ts[i]? = some t → body[i]? = some t ∨ ∃ s v k E u, t = .str s ∧ filter i = true ∧ plainValue s = some v ∧
      body[i]? = some u ∧ Refers name k u ∧ IsArray out name E ∧ E[k]? = some (some v)

/-- `var R=[1,'abcdefghijkl'];f('abcdefghijkl')` becomes `var R=[1,'abcdefghijkl'];f(R[0])`. -/
def arrWrong : List Token := [.keyword .kVar, .other ['R'], .op .equal, .char .openBracket, .number 1, .char .comma,
  .str "'abcdefghijkl'".toList, .char .closeBracket, .char .semiColon, .other ['f'], .char .openParen, .str "'abcdefghijkl'".toList,
  .char .closeParen]

private theorem split_at {out pre arr post : List Token} {n m : Nat}
    (h : out = pre ++ .char .openBracket :: (arr ++ .char .closeBracket :: post)) (hb : .char .closeBracket ∉ arr)
    (h1 : ∀ k < out.length, out[k]? = some (.char .openBracket) → k = n) (h2 : ∀ k < out.length, out[k]? = some (.char .closeBracket) → k = m) :
    arr = (out.drop (n + 1)).take (m - (n + 1)) := by
  have e1 : pre.length = n := h1 _ (by rw [h]; simp) (by rw [h]; simp)
  have e2 : pre.length + 1 + arr.length = m := by
    refine h2 _ (by rw [h]; simp; omega) ?_
    rw [h, List.getElem?_append_right (by omega), show pre.length + 1 + arr.length - pre.length = arr.length + 1 by omega]
    simp
  rw [← e2, ← e1, h]
  have : pre ++ Token.char .openBracket :: (arr ++ .char .closeBracket :: post) =
      (pre ++ [Token.char .openBracket]) ++ (arr ++ .char .closeBracket :: post) := by simp
  rw [this, List.drop_left' (by simp), List.take_left' (by omega)]

private theorem inserted_same {name : List Char} {sep : Option Token} {body out : List Token} {N : List (List Char)}
    (h : Inserted name sep body N out) (hl : out.length = body.length) : out = body := by
  cases h with
  | nothing _ => rfl
  | declaration _ => simp at hl; omega
  | first hb _ _ _ =>
    rw [hb] at hl ⊢
    simp only [List.length_append, List.length_cons] at hl
    have : entries N = [] := List.eq_nil_of_length_eq_zero (by omega)
    rw [this]; simp
  | more hb _ _ _ =>
    rw [hb] at hl ⊢
    simp only [List.length_append, List.length_cons] at hl
    have : entriesAfter N = [] := List.eq_nil_of_length_eq_zero (by omega)
    rw [this]; simp

theorem C40_full_false : ¬C40_full := by
  intro h
  have hout : aggregateIntoArray arrWrong ['R'] none (fun _ => true) = .ok (arrWrong.set 11 (.createdVar "R[0]".toList)) := by decide +kernel
  obtain ⟨N, body, hI, hlen, h3⟩ := h _ _ _ _ _ hout
  have hol : (arrWrong.set 11 (.createdVar "R[0]".toList)).length = body.length := by rw [hlen]; simp
  have hbody := (inserted_same hI hol).symm
  rcases h3 11 (.str "'abcdefghijkl'".toList) rfl with hx | ⟨s, v, k, E, u, e1, -, e2, e3, e4, e5, e6⟩
  · rw [hbody] at hx; cases hx
  · rw [hbody] at e3
    cases e3
    obtain ⟨d, d1, d2, d3, d4⟩ := e4
    have hd : d = ['0'] := by
      have e : (Token.createdVar "R[0]".toList) = .createdVar ('R' :: '[' :: (['0'] ++ [']'])) := by decide
      rw [e] at d1
      simp only [Token.createdVar.injEq, List.cons_append, List.nil_append, List.cons.injEq, true_and] at d1
      have := congrArg List.dropLast d1
      simpa using this.symm
    subst hd
    have hk : k = 0 := by rw [← d4]; rfl
    subst hk
    obtain ⟨-, pre, arr, post, f1, -, f2, rfl⟩ := e5
    have harr := split_at (n := 3) (m := 7) f1 f2 (by decide +kernel) (by decide +kernel)
    subst harr
    have : elements (((arrWrong.set 11 (.createdVar "R[0]".toList)).drop 4).take 3) = [none, some "abcdefghijkl".toList] := by decide +kernel
    rw [this] at e6
    cases e6

/-- What is proved: the statement holds when literals are in plain quotes (not templates) and have no bare double quotes, the
variable is given a value nowhere but in its declaration as an array, and the elements of that array are literals with no comma after the
last one. What is missing is not true: `C40_full_false`. -/
theorem C40_array_partial (ts : List Token) (name : List Char) (sep : Option Token) (filter : Nat → Bool)
    (hlit : ∀ s, .str s ∈ ts → ∃ v, plainValue s = some v ∧ plainValue ('"' :: (v ++ ['"'])) = some v)
    (hone : sets name ts ≤ 1) (hfound : getArray ts name = none → sets name ts = 0)
    (hplain : ∀ pre arr post, ts = pre ++ .char .openBracket :: (arr ++ .char .closeBracket :: post) → Announces name pre →
      .char .closeBracket ∉ arr → ∃ l : List (List Char), arr.filter (fun t => !blank t) = commas (l.map .str))
    (hsep : ∀ t, sep = some t → ∃ c, t = .char c) :
    ∃ N body out, aggregateIntoArray ts name sep filter = .ok out ∧ Inserted name sep body N out ∧ body.length = ts.length ∧
      ∀ (i : Nat) (t : Token), ts[i]? = some t → body[i]? = some t ∨ ∃ s v k E u, t = .str s ∧ filter i = true ∧ plainValue s = some v ∧
        body[i]? = some u ∧ Refers name k u ∧ IsArray out name E ∧ E[k]? = some (some v) := by
  have hquoted : ∀ s, .str s ∈ ts → Quoted s := by
    intro s hs
    obtain ⟨v, hv, -⟩ := hlit s hs
    cases s with
    | nil => cases hv
    | cons q b =>
      rw [plainValue] at hv
      split at hv
      · rename_i hc
        obtain ⟨c, rfl⟩ := closeString_last q _ b b [] (Nat.lt_succ_self _) hc.2
        exact ⟨q, c, q, rfl, by rcases hc.1 with rfl | rfl <;> rfl, by rcases hc.1 with rfl | rfl <;> rfl⟩
      · cases hv
  obtain ⟨O, N, body, out, h1, h2, h3, -, h4, h5, h6, h7, h8⟩ := array_inserted ts name sep filter
    fun p s hs _ => hquoted s (List.mem_of_getElem? hs)
  have hlen := h4.length
  refine ⟨N, body, out, h1, h2, hlen, fun i t ht => ?_⟩
  rcases h6 i t ht with h | ⟨s, k, rfl, e1, e2, e3⟩
  · exact .inl h
  · refine .inr ?_
    have hsm : .str s ∈ ts := List.mem_of_getElem? ht
    obtain ⟨v, hv, -⟩ := hlit s hsm
    have hvc := plainValue_content hv
    -- the new elements are literals
    have hN : ∀ c ∈ N, tokenValue (entry c) = some c := by
      intro c hc
      have := h7.count c hc
      obtain ⟨p, hp⟩ := List.exists_mem_of_length_pos (Nat.lt_of_lt_of_le Nat.zero_lt_two this)
      rw [accepted, List.mem_filter] at hp
      simp only [Bool.and_eq_true, decide_eq_true_eq] at hp
      obtain ⟨s', hs1, hs2⟩ := litAt_some.1 hp.2.2
      obtain ⟨v', hv1, hv2⟩ := hlit s' (List.mem_of_getElem? hs1)
      have := plainValue_content hv1
      rw [← hs2, ← this]
      exact hv2
    have hNmap : (N.map fun c => tokenValue (entry c)) = N.map some := List.map_congr_left hN
    have conclude : ∀ E, IsArray out name E → E = (O ++ N).map some →
        ∃ s' v k E u, Token.str s = .str s' ∧ filter i = true ∧ plainValue s' = some v ∧
        body[i]? = some u ∧ Refers name k u ∧ IsArray out name E ∧ E[k]? = some (some v) := by
      intro E hE hEq
      refine ⟨s, v, k, E, _, rfl, e1, hv, e3, refers_arrayRef name k, hE, ?_⟩
      rw [hEq, List.getElem?_map, e2, hvc]; rfl
    have hsets := h4.sets name
    rcases h8 with ⟨hg, rfl, hout⟩ | ⟨pre, arr, post, pre', post', X, hts, hb, hpre, hbody, hann, hO, hX, hout⟩
    · rcases hout with ⟨-, rfl⟩ | ⟨hNe, hout⟩
      · simp at e2
      · refine conclude _ ⟨?_, [.createdVarDecl ('v' :: 'a' :: 'r' :: ' ' :: (name ++ ['=']))], entries N,
          .char .semiColon :: (sep.toList ++ body), hout, .inr ⟨[], rfl⟩, ?_, rfl⟩ ?_
        · have h0 : sets name body = 0 := by rw [hsets, hfound hg]
          rw [hout, sets, if_pos (.inr rfl)]
          have hsepz : sets name (.char .closeBracket :: .char .semiColon :: (sep.toList ++ body)) = 0 := by
            rw [sets, sets]
            have : sets name (sep.toList ++ body) = 0 := by
              cases sep with
              | none => exact h0
              | some t =>
                obtain ⟨c, rfl⟩ := hsep t rfl
                simp [sets, h0]
            rw [this]
            simp
          rw [show Token.char .openBracket :: (entries N ++ .char .closeBracket :: .char .semiColon :: (sep.toList ++ body)) =
            (Token.char .openBracket :: entries N) ++ .char .closeBracket :: .char .semiColon :: (sep.toList ++ body) from rfl,
            sets_append _ _ _ rfl (by simp), hsepz]
          have : sets name (Token.char .openBracket :: entries N) = 0 := by
            refine sets_zero fun t ht => ?_
            have : (∃ c, t = .char c) ∨ ∃ c, t = .createdVar c := by
              rcases List.mem_cons.1 ht with rfl | ht
              · exact .inl ⟨_, rfl⟩
              · rw [entries_commas] at ht
                exact mem_commas_entry ht
            rcases this with ⟨c, rfl⟩ | ⟨c, rfl⟩ <;> simp
          rw [this]
        · intro hm
          rw [entries_commas] at hm
          rcases mem_commas_entry' hm with h | ⟨c, h⟩ <;> cases h
        · have := elements_first (arr := []) rfl N
          rw [List.nil_append] at this
          rw [this, hNmap]; rfl
    · obtain ⟨l, hl⟩ := hplain pre arr post hts (.inl hpre) hb
      have hl0 : ∀ t ∈ l.map Token.str, blank t = false ∧ t ≠ .char .comma := by
        intro t ht
        obtain ⟨s, -, rfl⟩ := List.mem_map.1 ht
        exact ⟨rfl, by simp⟩
      have hlts : ∀ s ∈ l, .str s ∈ ts := by
        intro s hs
        have : Token.str s ∈ arr.filter (fun t => !blank t) := by rw [hl]; exact mem_commas (List.mem_map_of_mem hs)
        have := (List.mem_filter.1 this).1
        rw [hts]; simp [this]
      have hlv : (l.map Token.str).map tokenValue = (l.map content).map some := by
        rw [List.map_map, List.map_map]
        refine List.map_congr_left fun s hs => ?_
        obtain ⟨v, hv, -⟩ := hlit s (hlts s hs)
        show plainValue s = some (content s)
        rw [hv, plainValue_content hv]
      have hOl : O = l.map content := by
        rw [hO]
        have : (arr.filterMap fun t => t.getStr.map content) = (arr.filter (fun t => !blank t)).filterMap fun t => t.getStr.map content := by
          rw [List.filterMap_filter]
          congr 1
          funext t
          cases hbt : blank t with
          | false => simp
          | true => cases t <;> first | rfl | cases hbt
        rw [this, hl, strs_commas]
      have hels : elements (arr ++ X) = (O ++ N).map some := by
        rw [hX]
        by_cases hem : arr.filter (fun t => !blank t) = []
        · rw [if_pos hem, elements_first hem, hNmap]
          have : l = [] := by
            cases l with
            | nil => rfl
            | cons a l => rw [hl] at hem; cases l <;> cases hem
          rw [hOl, this]; rfl
        · rw [if_neg hem]
          have hne : l.map Token.str ≠ [] := by
            intro h
            rw [hl, h] at hem
            exact hem rfl
          rw [elements_more hl hne (fun hm => (hl0 _ hm).2 rfl), hNmap, hlv, hOl, List.map_append]
      refine conclude _ ⟨?_, pre', arr ++ X, post', by rw [hout], hann, ?_, rfl⟩ hels
      · have h1s : 1 ≤ sets name ts := by rw [hts]; exact sets_announces _ hpre
        have e1 : sets name body = sets name (pre' ++ .char .openBracket :: arr) + sets name (.char .closeBracket :: post') := by
          rw [hbody, ← sets_append _ _ _ rfl (by simp)]; simp
        have e2 : sets name out = sets name (pre' ++ .char .openBracket :: (arr ++ X)) + sets name (.char .closeBracket :: post') := by
          rw [hout, ← sets_append _ _ _ rfl (by simp)]; simp
        have e3 : sets name (pre' ++ .char .openBracket :: (arr ++ X)) = sets name (pre' ++ .char .openBracket :: arr) := by
          have hXt : ∀ t ∈ X, (∃ c, t = .char c ∧ blank t = false) ∨ ∃ c, t = .createdVar c := by
            intro t ht
            rw [hX] at ht
            split at ht
            · rw [entries_commas] at ht
              rcases mem_commas_entry' ht with rfl | h
              · exact .inl ⟨_, rfl, rfl⟩
              · exact .inr h
            · obtain ⟨c, -, hm⟩ := List.mem_flatMap.1 ht
              simp only [List.mem_cons, List.not_mem_nil, or_false] at hm
              rcases hm with rfl | rfl
              · exact .inl ⟨_, rfl, rfl⟩
              · exact .inr ⟨_, rfl⟩
          have hz : sets name X = 0 := sets_zero fun t ht => by
            rcases hXt t ht with ⟨c, rfl, -⟩ | ⟨c, rfl⟩ <;> simp
          cases X with
          | nil => simp
          | cons x X' =>
            have hxb : blank x = false ∧ x ≠ .op .equal := by
              rcases hXt x List.mem_cons_self with ⟨c, rfl, h⟩ | ⟨c, rfl⟩
              · exact ⟨h, by simp⟩
              · exact ⟨rfl, by simp⟩
            have : pre' ++ Token.char .openBracket :: (arr ++ x :: X') = (pre' ++ Token.char .openBracket :: arr) ++ x :: X' := by simp
            rw [this, sets_append _ _ _ hxb.1 hxb.2, hz]; rfl
        omega
      · intro hm
        rcases List.mem_append.1 hm with hm | hm
        · exact hb hm
        · rw [hX] at hm
          split at hm
          · rw [entries_commas] at hm
            rcases mem_commas_entry' hm with h | ⟨c, h⟩ <;> cases h
          · obtain ⟨c, -, hm⟩ := List.mem_flatMap.1 hm
            simp [entry] at hm

/-- `var R=['xy'];f('abcdefghijkl','abcdefghijkl','abcdefghijkl')`. -/
def arrSample2 : List Token := [.keyword .kVar, .char .space, .other ['R'], .op .equal, .char .openBracket, .str "'xy'".toList,
  .char .closeBracket, .char .semiColon] ++ arrSample

example : getArray arrSample2 ['R'] = some ([5], 6) ∧ sets ['R'] arrSample2 = 1 ∧
    (∀ t ∈ arrSample2, match t with
      | .str s => (plainValue s).isSome = true ∧ plainValue ('"' :: (content s ++ ['"'])) = some (content s)
      | _ => True) ∧
    (aggregateIntoArray arrSample2 ['R'] none fun _ => true) = .ok
      (([.keyword .kVar, .char .space, .other ['R'], .op .equal, .char .openBracket, .str "'xy'".toList, .char .comma,
        .createdVar "\"abcdefghijkl\"".toList, .char .closeBracket, .char .semiColon] : List Token) ++
        (((arrSample.set 2 (.createdVar "R[1]".toList)).set 4 (.createdVar "R[1]".toList)).set 6 (.createdVar "R[1]".toList))) := by
  refine ⟨by decide +kernel, by decide +kernel, ?_, by decide +kernel⟩
  have : ∀ t ∈ arrSample2, (match t with
      | .str s => (plainValue s).isSome && plainValue ('"' :: (content s ++ ['"'])) == some (content s)
      | _ => true) = true := by decide +kernel
  intro t ht
  have := this t ht
  cases t <;> simp_all

example (pre arr post : List Token) (h : arrSample2 = pre ++ .char .openBracket :: (arr ++ .char .closeBracket :: post))
    (hb : .char .closeBracket ∉ arr) : ∃ l : List (List Char), arr.filter (fun t => !blank t) = commas (l.map .str) := by
  have := split_at (n := 4) (m := 6) h hb (by decide +kernel) (by decide +kernel)
  exact ⟨["'xy'".toList], by rw [this]; decide +kernel⟩

/-! ## C55 -/

open Spec.Js in
/-- On the tokens of a script (with no regex that is left open) the function does not panic, whatever the name, separator and filter. -/
theorem C55_total (source : List Char) (ts : List Token) (hr : ∀ r, Lexeme.openRegex r ∉ lexRev source) (h : tokenize source = .ok ts)
    (name : List Char) (sep : Option Token) (filter : Nat → Bool) : ∃ out, aggregateIntoArray ts name sep filter = .ok out := by
  obtain ⟨-, -, -, out, h1, -⟩ := array_inserted ts name sep filter fun p s hs _ => tokenize_quoted hr h s (List.mem_of_getElem? hs)
  exact ⟨out, h1⟩

/-- A literal that was made by hand can panic. -/
example : ∃ m, aggregateIntoArray [.str []] ['R'] none (fun _ => true) = .panic m := ⟨_, rfl⟩

example : ∃ ts, tokenize "f('a',`b`)".toList = .ok ts ∧ .str "`b`".toList ∈ ts := ⟨_, rfl, by decide +kernel⟩

/-! ## C56 -/

/-- The full statement: the text does not grow. -/
def C56_full : Prop := ∀ (ts : List Token) (name : List Char) (filter : Nat → Bool) (out : List Token),
  aggregateIntoArray ts name none filter = .ok out → size out ≤ size ts

/-- `var R=['a'];f('a')` becomes `var R=['a'];f(R[0])`: nothing is compared for elements that are there. -/
def arrGrows : List Token := [.keyword .kVar, .other ['R'], .op .equal, .char .openBracket, .str "'a'".toList, .char .closeBracket,
  .char .semiColon, .other ['f'], .char .openParen, .str "'a'".toList, .char .closeParen]

theorem C56_full_false : ¬C56_full := by
  intro h
  have := h arrGrows ['R'] (fun _ => true) (arrGrows.set 9 (.createdVar "R[0]".toList)) (by decide +kernel)
  exact absurd this (by decide +kernel)

/-- A new array can be larger than what it replaces, too: `f('abcdef','abcdef')` becomes `var R=["abcdef"];f(R[0],R[0])`. -/
example : aggregateIntoArray [.str "'abcdef'".toList, .char .comma, .str "'abcdef'".toList] ['R'] none (fun _ => true) = .ok
    [.createdVarDecl "var R=".toList, .char .openBracket, .createdVar "\"abcdef\"".toList, .char .closeBracket, .char .semiColon,
      .createdVar "R[0]".toList, .char .comma, .createdVar "R[0]".toList] := by decide +kernel

private theorem blen_ref (name : List Char) (k : Nat) : blen (arrayRef name k) = blen name + blen (natDisplay k) + 2 := by
  have h : '['.utf8Size = 1 ∧ ']'.utf8Size = 1 := by decide
  unfold arrayRef
  simp only [blen_append, blen_cons, blen_nil, h.1, h.2]
  omega

private theorem blen_content {s : List Char} (h : Quoted s) : blen s = blen (content s) + 2 := by
  obtain ⟨q, c, q', rfl, h1, h2⟩ := h
  simp only [content, List.tail_cons, List.dropLast_concat, blen_cons, blen_append, blen_nil, h1, h2]
  omega

/-- What is proved. A new element with the content `c` is one for which, at `n` accepted literals and with `r` the size of the
reference to it, `n * c` is more than `n * r` and the size of `[k]` more (this is all that the source compares: the cost of the
declaration is missing). A literal with two accepted occurrences that is left alone is not worth one of the indices in that sense.
References to new elements are shorter than the literals, so without elements that are there already, the tokens that were there
do not grow, but for the blanks before `in` and `instanceof`. -/
theorem C56_account_partial (ts : List Token) (name : List Char) (sep : Option Token) (filter : Nat → Bool) (out : List Token)
    (h : aggregateIntoArray ts name sep filter = .ok out) :
    ∃ O N body, Inserted name sep body N out ∧ body.length = ts.length ∧
      (∀ (i : Nat) (t : Token), ts[i]? = some t → body[i]? = some t ∨ ∃ s k u, t = .str s ∧ filter i = true ∧
        (O ++ N)[k]? = some (content s) ∧ body[i]? = some u ∧ Refers name k u ∧ (O.length ≤ k → blen u.display + 2 < blen t.display)) ∧
      (∀ (j : Nat) (c : List Char), N[j]? = some c → ∃ n u, 2 ≤ n ∧ n ≤ (accepted ts filter c).length ∧ Refers name (O.length + j) u ∧
        blen u.display * n + blen u.display < blen c * n + blen name) ∧
      (∀ c, c ∉ O ++ N → 2 ≤ (accepted ts filter c).length → ∃ k u, k ≤ (O ++ N).length ∧ Refers name k u ∧
        blen c * (accepted ts filter c).length + blen name ≤ blen u.display * (accepted ts filter c).length + blen u.display) ∧
      (O = [] → size body ≤ size ts + ts.countP Token.requiresBefore) := by
  obtain ⟨O, N, body, out', h1, h2, h3, -, h4, h5, h6, h7, -⟩ := array_inserted ts name sep filter (array_quoted h)
  rw [h] at h1
  cases h1
  have hshort : ∀ (i : Nat) (s : List Char) (k : Nat), ts[i]? = some (.str s) → filter i = true → (O ++ N)[k]? = some (content s) →
      O.length ≤ k → blen (arrayRef name k) + 2 < blen s := by
    intro i s k hi hf hk hle
    rw [List.getElem?_append_right hle] at hk
    obtain ⟨m, m1, m2, m3⟩ := h7.new _ _ hk
    rw [show O.length + (k - O.length) = k by omega] at m3
    have hq := blen_content (array_quoted h i s hi (.inr hf))
    have hr := blen_ref name k
    unfold arrayWorthIt at m3
    rw [decide_eq_true_eq, ← hr] at m3
    have : blen (arrayRef name k) < blen (content s) := by
      refine Nat.lt_of_not_le fun hle => ?_
      have := Nat.mul_le_mul_right m hle
      omega
    omega
  refine ⟨O, N, body, h2, h4.length, ?_, ?_, ?_, ?_⟩
  · intro i t hi
    rcases h6 i t hi with h | ⟨s, k, e1, e2, e3, e4⟩
    · exact .inl h
    · subst e1
      exact .inr ⟨s, k, _, rfl, e2, e3, e4, refers_arrayRef name k, fun hle => hshort i s k hi e2 e3 hle⟩
  · intro j c hj
    obtain ⟨m, m1, m2, m3⟩ := h7.new j c hj
    refine ⟨m, _, m1, m2, refers_arrayRef name _, ?_⟩
    unfold arrayWorthIt at m3
    have hr := blen_ref name (O.length + j)
    rw [decide_eq_true_eq, ← hr] at m3
    show blen (arrayRef name (O.length + j)) * m + blen (arrayRef name (O.length + j)) < _
    omega
  · intro c hc hc2
    obtain ⟨q, q1, q2⟩ := h7.left c hc hc2
    refine ⟨q, _, q1, refers_arrayRef name q, ?_⟩
    unfold arrayWorthIt at q2
    have hr := blen_ref name q
    rw [decide_eq_false_iff_not, ← hr] at q2
    show _ ≤ blen (arrayRef name q) * _ + blen (arrayRef name q)
    omega
  · intro hO
    subst hO
    have key : ∀ (ts body : List Token), body.length = ts.length → (∀ (i : Nat) (t : Token), ts[i]? = some t → body[i]? = some t ∨
        ∃ s n, t = .str s ∧ body[i]? = some (.createdVar n) ∧ blen n < blen s) → Repls ts body ∧ weight body ≤ weight ts := by
      intro ts
      induction ts with
      | nil =>
        intro body hl _
        cases body with
        | nil => exact ⟨.nil, Nat.le_refl _⟩
        | cons _ _ => cases hl
      | cons t ts ih =>
        intro body hl hp
        cases body with
        | nil => cases hl
        | cons u body =>
          obtain ⟨i1, i2⟩ := ih body (by simpa using hl) fun i t hi => by simpa using hp (i + 1) t (by simpa using hi)
          simp only [weight, List.map_cons, List.sum_cons] at i2 ⊢
          rcases hp 0 t rfl with e | ⟨s, n, rfl, e, hlt⟩
          · simp only [List.getElem?_cons_zero, Option.some.injEq] at e
            subst e
            exact ⟨.cons (.inl rfl) i1, by omega⟩
          · simp only [List.getElem?_cons_zero, Option.some.injEq] at e
            subst e
            refine ⟨.cons (.inr ⟨⟨s, rfl⟩, n, rfl⟩) i1, ?_⟩
            show blen n + _ ≤ blen s + _
            omega
    obtain ⟨k1, k2⟩ := key ts body h4.length fun i t hi => by
      rcases h6 i t hi with h | ⟨s, k, e1, e2, e3, e4⟩
      · exact .inl h
      · subst e1
        have := hshort i s k hi e2 e3 (Nat.zero_le _)
        exact .inr ⟨s, _, rfl, e4, by omega⟩
    have := display_repls k1 none none
    unfold size display
    omega

example : size arrSample = 47 ∧ size (arrSample.set 2 (.createdVar "R[0]".toList)) = 37 := by decide +kernel

end Verif.Js
