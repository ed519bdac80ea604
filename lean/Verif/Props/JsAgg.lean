import Verif.Proofs.JsAggSize
/-!
# Properties of the aggregation of strings (C35 - C39)
-/
set_option linter.unusedSimpArgs false
namespace Verif.Js
open Spec.JsAgg

/-! ## C35 -/

/-- The generator after `k` steps. -/
def Gen.steps (k : Nat) : Gen := (List.range k).foldl (fun g _ => g.next) (Gen.new ['r', '_'] 2)

private theorem steps_spec (k : Nat) : (Gen.steps k).Ok ∧ rank (Gen.steps k).letters = 63 + k := by
  induction k with
  | zero => exact ⟨gen0_ok, by decide⟩
  | succ k ih =>
    have : Gen.steps (k + 1) = (Gen.steps k).next := by simp [Gen.steps, List.range_succ]
    rw [this]
    obtain ⟨h1, h2⟩ := ih.1.next
    exact ⟨h1, by omega⟩

/-- The names have the form of a name, and each occurs once in the sequence: the `k`-th one stands at place `63 + k` among all
words over the alphabet. -/
theorem C35_names (i j : Nat) :
    GenName (Gen.steps i).toStr ∧ nameRank (Gen.steps i).toStr = 63 + i ∧
      ((Gen.steps i).toStr = (Gen.steps j).toStr → i = j) := by
  obtain ⟨h1, h2⟩ := steps_spec i
  obtain ⟨h3, h4⟩ := steps_spec j
  refine ⟨h1.name, by rw [h1.nameRank, h2], fun h => ?_⟩
  have h5 := h1.nameRank
  have h6 := h3.nameRank
  rw [h] at h5
  omega

example : (Gen.steps 0).toStr = "r_aa".toList ∧ (Gen.steps 61).toStr = "r_9a".toList ∧ (Gen.steps 62).toStr = "r_ab".toList ∧
    (Gen.mk ['r', '_'] ['9', '9']).next.toStr = "r_aaa".toList := by decide +kernel

/-- A generator for any beginning and any number of letters, after `k` steps. -/
def Gen.stepsFrom (p : List Char) (n k : Nat) : Gen := (List.range k).foldl (fun g _ => g.next) (Gen.new p n)

/-- The same for every beginning of the names and every number of letters asked for: the names have at least one letter after their
beginning, and the first one has as many letters `a` as asked for. -/
theorem C35_any (p : List Char) (n i j : Nat) :
    (∃ w, (Gen.stepsFrom p n i).toStr = p ++ w ∧ w ≠ [] ∧ (∀ c ∈ w, c ∈ alphabet) ∧
      rank w = rank (List.replicate (if n = 0 then 1 else n) 'a') + i) ∧
    ((Gen.stepsFrom p n i).toStr = (Gen.stepsFrom p n j).toStr → i = j) := by
  have key : ∀ k, (Gen.stepsFrom p n k).prepend = p ∧ Word (Gen.stepsFrom p n k).letters ∧
      rank (Gen.stepsFrom p n k).letters = rank (List.replicate (if n = 0 then 1 else n) 'a') + k := by
    intro k
    induction k with
    | zero =>
      have e : max n 1 = if n = 0 then 1 else n := by split <;> omega
      refine ⟨rfl, ⟨?_, ?_⟩, by rw [← e]; rfl⟩
      · intro h
        have := congrArg List.length h
        simp [Gen.stepsFrom, Gen.new] at this
      · intro c hc
        have : c = 'a' := by
          simp [Gen.stepsFrom, Gen.new] at hc
          exact hc
        subst this
        decide
    | succ k ih =>
      have : Gen.stepsFrom p n (k + 1) = (Gen.stepsFrom p n k).next := by simp [Gen.stepsFrom, List.range_succ]
      rw [this]
      obtain ⟨h1, h2⟩ := incr_spec _ ih.2.1
      exact ⟨ih.1, h1, by show rank (incrLetters _) = _; omega⟩
  obtain ⟨h1, h2, h3⟩ := key i
  obtain ⟨h4, -, h6⟩ := key j
  refine ⟨⟨_, by rw [Gen.toStr, h1], h2.1, h2.2, h3⟩, fun h => ?_⟩
  rw [Gen.toStr, Gen.toStr, h1, h4] at h
  rw [List.append_cancel_left h] at h3
  omega

example : (Gen.stepsFrom ['x'] 0 0).toStr = "xa".toList ∧ (Gen.stepsFrom [] 3 1).toStr = "baa".toList := by decide +kernel

/-! ## C36 -/

/-- A variable of the token list: at `v` stands `name`, and what it is assigned begins with the literal `s` at `w`. -/
def AssignedFrom (ts : List Token) (name s : List Char) (w : Nat) : Prop :=
  ∃ v, ts[v]? = some (.other name) ∧ ['r', '_'] <+: name ∧ Declares ts v (some w) ∧ ts[w]? = some (.str s)

/-- The value ends with the token at `w`: then comes a comma, a semicolon or the end. -/
def Whole (ts : List Token) (w : Nat) : Prop :=
  ∃ e, w < e ∧ All useless ts (w + 1) e ∧ (ts[e]? = none ∨ ts[e]? = some (.char .comma) ∨ ts[e]? = some (.char .semiColon))

/-- `body` is `ts` with some literals replaced, by a name that `D` gives to the same literal or by a variable of `ts` that is
assigned it. `Value` says what assigning means. -/
def Faithful (Value : List Token → Nat → Prop) (ts : List Token) (D : List (List Char × List Char)) (body : List Token) : Prop :=
  body.length = ts.length ∧ ∀ (i : Nat) (t u : Token), ts[i]? = some t → body[i]? = some u → u = t ∨ ∃ s, t = .str s ∧
    ((∃ n, (s, n) ∈ D ∧ u = .createdVar n) ∨
      ∃ name w, AssignedFrom ts name s w ∧ Value ts w ∧ w ≠ i ∧ u = .other name)

/-- The full statement. -/
def C36_full : Prop := ∀ (ts : List Token) (sep : Option Token) (out : List Token), aggregateStrings ts sep = .ok out →
  ∃ D body, out = declare D ++ sep.toList ++ body ∧ (D.map Prod.fst).Nodup ∧ (D.map Prod.snd).Nodup ∧ Faithful Whole ts D body

private theorem declare_length (D : List (List Char × List Char)) : D ≠ [] → 0 < (declare D).length := by
  cases D with
  | nil => intro h; exact absurd rfl h
  | cons p D => intro _; simp [declare]

/-- `var r_x='ab'+y;f('ab')` becomes `var r_x='ab'+y;f(r_x)`. -/
theorem C36_full_false : ¬C36_full := by
  intro h
  let ts : List Token := [.keyword .kVar, .other "r_x".toList, .op .equal, .str "'ab'".toList, .op .addition, .other ['y'],
    .char .semiColon, .other ['f'], .char .openParen, .str "'ab'".toList, .char .closeParen]
  have hout : aggregateStrings ts none = .ok (ts.set 9 (.other "r_x".toList)) := by decide +kernel
  obtain ⟨D, body, h1, -, -, h2, h3⟩ := h ts none _ hout
  have hlen : D = [] := by
    refine Classical.byContradiction fun hD => ?_
    have := declare_length D hD
    have := congrArg List.length h1
    simp only [List.length_append, List.length_set] at this
    omega
  subst hlen
  have hb : body = ts.set 9 (.other "r_x".toList) := by simpa [declare] using h1.symm
  have h9 := h3 9 (.str "'ab'".toList) (.other "r_x".toList) rfl (by rw [hb]; rfl)
  rcases h9 with h9 | ⟨s, hs, ⟨n, hn, -⟩ | ⟨name, w, ⟨v, hv1, hv2, hv3, hv4⟩, ⟨e, he1, he2, he3⟩, hw, -⟩⟩
  · cases h9
  · cases hn
  · cases hs
    have hw3 : w = 3 := by
      have : w < 11 := by
        refine Nat.lt_of_not_le fun hle => ?_
        rw [List.getElem?_eq_none (by exact hle)] at hv4; cases hv4
      have : ∀ k : Fin 11, ts[k.1]? = some (.str "'ab'".toList) → k.1 = 3 ∨ k.1 = 9 := by decide
      rcases this ⟨w, by omega⟩ hv4 with h | h
      · exact h
      · exact absurd h hw
    subst hw3
    by_cases he : e = 4
    · subst he
      rcases he3 with h | h | h <;> cases h
    · obtain ⟨t, ht, hg⟩ := he2 4 (by omega) (by omega)
      cases ht
      cases hg

/-- What is proved: a literal is only replaced by a new name that is declared, once, with that literal, or by a variable whose
value begins with it. What is missing is that the value is not a longer expression, which is `C36_full_false`; with the
hypothesis that values are single literals the full statement holds. -/
theorem C36_faithful_partial (ts : List Token) (sep : Option Token) : ∃ (D : List (List Char × List Char)) (body : List Token),
    aggregateStrings ts sep = .ok (declare D ++ sep.toList ++ body) ∧ (D.map Prod.fst).Nodup ∧ (D.map Prod.snd).Nodup ∧
      D.Pairwise (fun a b => Precedes a.2 b.2) ∧ (∀ s n, (s, n) ∈ D → GenName n ∧ 2 ≤ ts.count (.str s)) ∧
      Faithful (fun _ _ => True) ts D body ∧
      ((∀ name s w, AssignedFrom ts name s w → Whole ts w) → Faithful Whole ts D body) ∧
      -- a new variable replaces all occurrences
      (∀ (i : Nat) (s n : List Char), ts[i]? = some (.str s) → (s, n) ∈ D → body[i]? = some (.createdVar n)) := by
  obtain ⟨vars, D, body, hv, -, h1, h2, h3, h4, h5, -, h6, h7⟩ := aggregate_spec ts sep
  have main : ∀ (V : List Token → Nat → Prop), (∀ name s w, AssignedFrom ts name s w → V ts w) → Faithful V ts D body := by
    intro V hV
    refine ⟨h6, fun i t u ht hu => ?_⟩
    rw [h7 i t ht] at hu
    cases hu
    unfold aggToken
    cases hs : t.getStr with
    | none => exact .inl rfl
    | some s =>
      have ht' : t = .str s := by cases t <;> simp [Token.getStr] at hs; rw [hs]
      simp only
      cases hvs : vars.values s with
      | some vw =>
        obtain ⟨v, w⟩ := vw
        simp only
        obtain ⟨name, e1, e2, -, e3, e4⟩ := hv.value s v w hvs
        by_cases hw : i = w
        · rw [if_pos hw]; exact .inl rfl
        · rw [if_neg hw, e1]
          have ha : AssignedFrom ts name s w := ⟨v, e1, e2, e3, e4⟩
          exact .inr ⟨s, ht', .inr ⟨name, w, ha, hV name s w ha, fun h => hw h.symm, rfl⟩⟩
      | none =>
        simp only [renamed, hs]
        cases hl : D.lookup s with
        | none => exact .inl rfl
        | some n =>
          obtain ⟨l1, l2, hD, -⟩ := List.lookup_eq_some_iff.1 hl
          exact .inr ⟨s, ht', .inl ⟨n, by rw [hD]; simp, rfl⟩⟩
  refine ⟨D, body, h1, h3, h4, ?_, ?_, main _ fun _ _ _ _ => trivial, fun h => main Whole h, ?_⟩
  · have hne : D.Pairwise fun a b => a.2 ≠ b.2 := List.pairwise_map.1 h4
    exact List.Pairwise.imp (fun {a b} h => strLe_precedes a.2 b.2 h.1 h.2) (h5.and hne)
  · intro s n h
    have hc := h2 s n h
    obtain ⟨m, hm1, hm2, -⟩ := hc.worth
    rw [occ_count] at hm2
    exact ⟨hc.name, by omega⟩
  · intro i s n hi hD
    rw [h7 i _ hi]
    have hl : D.lookup s = some n := by
      obtain ⟨l1, l2, rfl⟩ := List.append_of_mem hD
      refine List.lookup_eq_some_iff.2 ⟨l1, l2, rfl, fun p hp => ?_⟩
      rw [bne_iff_ne]
      rintro rfl
      rw [List.map_append, List.map_cons] at h3
      exact (List.nodup_append.1 h3).2.2 p.1 (List.mem_map.2 ⟨p, hp, rfl⟩) p.1 List.mem_cons_self rfl
    unfold aggToken
    simp only [Token.getStr, (h2 s n hD).noValue, renamed, hl]

/-- A script with a literal that is hoisted and one that a variable already holds. -/
def aggSample : List Token := [.keyword .kVar, .other "r_x".toList, .op .equal, .str "'ab'".toList, .char .semiColon,
  .other ['f'], .char .openParen, .str "'abcdefghijkl'".toList, .char .comma, .str "'ab'".toList, .char .comma,
  .str "'abcdefghijkl'".toList, .char .closeParen]

example : aggregateStrings aggSample none = .ok (declare [("'abcdefghijkl'".toList, "r_aa".toList)] ++
    [.keyword .kVar, .other "r_x".toList, .op .equal, .str "'ab'".toList, .char .semiColon, .other ['f'], .char .openParen,
      .createdVar "r_aa".toList, .char .comma, .other "r_x".toList, .char .comma, .createdVar "r_aa".toList,
      .char .closeParen]) := by decide +kernel

/-- Not claimed and not so: that the variable has been assigned where it is used. `var r_x='ab',r_y='ab'` becomes
`var r_x=r_y,r_y='ab'`. -/
example : aggregateStrings [.keyword .kVar, .other "r_x".toList, .op .equal, .str "'ab'".toList, .char .comma,
    .other "r_y".toList, .op .equal, .str "'ab'".toList] none =
    .ok [.keyword .kVar, .other "r_x".toList, .op .equal, .other "r_y".toList, .char .comma,
      .other "r_y".toList, .op .equal, .str "'ab'".toList] := by decide +kernel

/-! ## C37 -/

/-- A name that the token list declares: it follows `var`, `let` or a comma, and `=`, a comma or a semicolon follows. -/
def Declared (ts : List Token) (name : List Char) : Prop :=
  ∃ n r, ts[n]? = some (.other name) ∧ Declares ts n r ∧ ∃ j, j < n ∧ All useless ts (j + 1) n ∧
    (ts[j]? = some (.char .comma) ∨ ts[j]? = some (.keyword .kLet) ∨ ts[j]? = some (.keyword .kVar))

/-- The full statement. -/
def C37_full : Prop := ∀ (ts : List Token) (D : List (List Char × List Char)) (body : List Token),
  aggregateStrings ts none = .ok (declare D ++ body) → body.length = ts.length → ∀ s n, (s, n) ∈ D → ¬Declared ts n

/-- `var r_aa;f('abcdefghijkl'+'abcdefghijkl')` becomes `var r_aa='abcdefghijkl';var r_aa;f(r_aa+r_aa)`. -/
theorem C37_full_false : ¬C37_full := by
  intro h
  let body (u : Token) : List Token := [.keyword .kVar, .other "r_aa".toList, .char .semiColon, .other ['f'], .char .openParen,
    u, .op .addition, u, .char .closeParen]
  have hout : aggregateStrings (body (.str "'abcdefghijkl'".toList)) none =
      .ok (declare [("'abcdefghijkl'".toList, "r_aa".toList)] ++ body (.createdVar "r_aa".toList)) := by decide +kernel
  refine h _ _ _ hout rfl _ _ List.mem_cons_self ⟨1, none, rfl, ⟨⟨_, rfl⟩, 2, by omega, ?_, .inr rfl⟩, 0, by omega, ?_, .inr (.inr rfl)⟩
  · intro k; omega
  · intro k; omega

/-- What is proved: no new name is that of a variable that is declared with a value. What is missing are declarations without a
value, `C37_full_false`, and names that come into being in other ways (parameters, functions, `const`). -/
theorem C37_fresh_partial (ts : List Token) (sep : Option Token) : ∃ (D : List (List Char × List Char)) (body : List Token),
    aggregateStrings ts sep = .ok (declare D ++ sep.toList ++ body) ∧ body.length = ts.length ∧
      ∀ s n, (s, n) ∈ D → ∀ p v, Listed ts p v → ts[p]? ≠ some (.other n) := by
  obtain ⟨vars, D, body, -, hv, h1, h2, -, -, -, -, h6, -⟩ := aggregate_spec ts sep
  refine ⟨D, body, h1, h6, fun s n hD p v hl hp => ?_⟩
  have hc := h2 s n hD
  refine hc.free (hv.name p v n ?_ hl hp ?_)
  · refine Nat.lt_of_not_le fun hle => ?_
    rw [List.getElem?_eq_none hle] at hp; cases hp
  · obtain ⟨l, rfl, -⟩ := hc.name
    exact ⟨l, rfl⟩

example : Listed [.keyword .kVar, .other "r_aa".toList, .op .equal, .number 1, .char .semiColon] 1 3 ∧
    aggregateStrings [.keyword .kVar, .other "r_aa".toList, .op .equal, .number 1, .char .semiColon,
      .str "'abcdefghijkl'".toList, .op .addition, .str "'abcdefghijkl'".toList] none =
    .ok (declare [("'abcdefghijkl'".toList, "r_ba".toList)] ++ [.keyword .kVar, .other "r_aa".toList, .op .equal, .number 1,
      .char .semiColon, .createdVar "r_ba".toList, .op .addition, .createdVar "r_ba".toList]) := by
  refine ⟨⟨⟨⟨_, rfl⟩, 2, by omega, ?_, rfl, by omega, ?_, _, rfl, rfl⟩, 0, by omega, ?_, .inr (.inr rfl)⟩, by decide +kernel⟩
  · intro k; omega
  · intro k; omega
  · intro k; omega

/-! ## C38 -/

/-- Aggregation returns for every token list. The model reports a search for a name that does not end, a look-up that fails and
an index out of bounds as a panic. -/
theorem C38_total (ts : List Token) (sep : Option Token) : ∃ out, aggregateStrings ts sep = .ok out := by
  obtain ⟨_, _, _, -, -, h, -⟩ := aggregate_spec ts sep
  exact ⟨_, h⟩

/-! ## C39 -/

/-- The size of the text. -/
def size (ts : List Token) : Nat := blen (display ts)

/-- The full statement. -/
def C39_full : Prop := ∀ (ts out : List Token), aggregateStrings ts none = .ok out → size out ≤ size ts

/-- `'abcde'+'abcde'` becomes `var r_aa='abcde';r_aa+r_aa`. -/
theorem C39_full_false : ¬C39_full := by
  intro h
  let ts : List Token := [.str "'abcde'".toList, .op .addition, .str "'abcde'".toList]
  have := h ts _ (show aggregateStrings ts none = .ok (declare [("'abcde'".toList, "r_aa".toList)] ++
    [.createdVar "r_aa".toList, .op .addition, .createdVar "r_aa".toList]) by decide +kernel)
  exact absurd this (by decide +kernel)

/-- No variable of the source has a name beginning with `r_`. -/
def NoAggregates (ts : List Token) : Prop := ∀ name, .other name ∈ ts → ¬(['r', '_'] <+: name)

/-- The account of the sizes: hoisting a literal of `l` bytes with `c` occurrences under a name of `k` bytes saves `c * l` bytes
and costs `l + k + 2 + c * k` bytes, and `4` more for the keyword; blanks may appear before `in` and `instanceof`. So the text
does not grow when each hoisted literal saves what it costs. -/
theorem C39_account_partial (ts : List Token) (h : NoAggregates ts) : ∃ (D : List (List Char × List Char)) (out : List Token),
    aggregateStrings ts none = .ok out ∧ (∀ s n, (s, n) ∈ D → GenName n ∧ 2 ≤ ts.count (.str s) ∧ blen n < blen s) ∧
      size out + sumOver (fun s _ => ts.count (.str s) * blen s) D ≤
        size ts + sumOver (fun s n => blen s + blen n + 2 + ts.count (.str s) * blen n) D + (if D = [] then 0 else 4) +
          ts.countP Token.requiresBefore ∧
      ((∀ s n, (s, n) ∈ D → blen s + blen n + 6 + ts.count (.str s) * blen n ≤ ts.count (.str s) * blen s) →
        size out ≤ size ts + ts.countP Token.requiresBefore) ∧
      size out ≤ 2 * size ts + ts.countP Token.requiresBefore := by
  obtain ⟨vars, D, body, hv, -, h1, h2, h3, -, -, -, h6, h7⟩ := aggregate_spec ts none
  have hval : ∀ s, vars.values s = none := by
    intro s
    cases hs : vars.values s with
    | none => rfl
    | some vw =>
      obtain ⟨name, e1, e2, -⟩ := hv.value s vw.1 vw.2 hs
      exact absurd e2 (h name (List.mem_of_getElem? e1))
  have hbody : body = ts.map (renamed D) := by
    apply List.ext_getElem?
    intro i
    rw [List.getElem?_map]
    cases hi : ts[i]? with
    | none => rw [List.getElem?_eq_none (by rw [h6]; exact List.getElem?_eq_none_iff.1 hi)]; rfl
    | some t =>
      rw [h7 i t hi, Option.map_some]
      unfold aggToken
      cases hs : t.getStr with
      | none => simp [renamed, hs]
      | some s => simp [hval]
  have hfinal : ∀ s n, (s, n) ∈ D → blen n < blen s ∧
      blen s + blen n + 7 + ts.count (.str s) * blen n ≤ ts.count (.str s) * blen s + 2 * blen s ∧ 2 ≤ ts.count (.str s) := by
    intro s n hD
    obtain ⟨m, hm1, hm2, hm3⟩ := (h2 s n hD).worth
    rw [occ_count] at hm2
    obtain ⟨e1, e2⟩ := worth_final hm3 hm2
    exact ⟨e1, e2, by omega⟩
  have hacc : size (declare D ++ body) + sumOver (fun s _ => ts.count (.str s) * blen s) D ≤
        size ts + sumOver (fun s n => blen s + blen n + 2 + ts.count (.str s) * blen n) D + (if D = [] then 0 else 4) +
          ts.countP Token.requiresBefore := by
    have e1 := weight_renamed D ts h3
    rw [sumOver_add (fun s n => blen s + blen n + 2) (fun s n => ts.count (.str s) * blen n)]
    cases D with
    | nil =>
      have e2 := display_renamed [] ts none none
      rw [hbody]
      simp only [declare, List.nil_append, size, display, if_true] at *
      omega
    | cons p D =>
      obtain ⟨s, n⟩ := p
      have e2 := display_renamed ((s, n) :: D) ts none (some (.char .semiColon))
      rw [hbody]
      unfold size display
      rw [display_declare, if_neg (by simp)]
      omega
  have hout : aggregateStrings ts none = .ok (declare D ++ body) := by simpa using h1
  refine ⟨D, _, hout, fun s n hD => ⟨(h2 s n hD).name, (hfinal s n hD).2.2, (hfinal s n hD).1⟩, hacc, fun hs => ?_, ?_⟩
  · cases D with
    | nil => simpa [sumOver] using hacc
    | cons p D =>
      obtain ⟨s, n⟩ := p
      rw [if_neg (by simp), sumOver_cons, sumOver_cons] at hacc
      have e1 := hs s n List.mem_cons_self
      have e2 := sumOver_le (f := fun s n => blen s + blen n + 2 + ts.count (.str s) * blen n)
        (g := fun s _ => ts.count (.str s) * blen s) (D := D) fun s n hD => by
          have := hs s n (List.mem_cons_of_mem _ hD); omega
      omega
  · have hw := weight_hoisted D ts h3
    have hw2 := weight_le_display ts none
    have hdouble : sumOver (fun s n => blen s + blen n + 2 + ts.count (.str s) * blen n) D + (if D = [] then 0 else 4) ≤
        sumOver (fun s _ => ts.count (.str s) * blen s) D + sumOver (fun s _ => ts.count (.str s) * blen s) D := by
      have one : ∀ s n, (s, n) ∈ D → blen s + blen n + 6 + ts.count (.str s) * blen n ≤
          ts.count (.str s) * blen s + ts.count (.str s) * blen s := by
        intro s n hD
        obtain ⟨-, e2, e3⟩ := hfinal s n hD
        have := Nat.mul_le_mul_right (blen s) e3
        omega
      rw [← sumOver_add]
      cases D with
      | nil => exact Nat.zero_le _
      | cons p D =>
        obtain ⟨s, n⟩ := p
        rw [if_neg (by simp), sumOver_cons, sumOver_cons]
        have e1 := one s n List.mem_cons_self
        have e2 := sumOver_le (f := fun s n => blen s + blen n + 2 + ts.count (.str s) * blen n)
          (g := fun s _ => ts.count (.str s) * blen s + ts.count (.str s) * blen s) (D := D) fun s n hD => by
            have := one s n (List.mem_cons_of_mem _ hD); omega
        omega
    unfold size display at *
    omega

/-- A literal that stays, though it occurs at least twice and no variable holds it, would not have been worth one of the names up
to the next free one: with `c` occurrences, `l` bytes and a name of `k` bytes, `(c + 1) * l ≤ (c + 1) * k + 6`. Names are taken in
the order of the generator, none is left out but those of variables of the source. -/
theorem C39_left_partial (ts : List Token) (sep : Option Token) :
    ∃ (D : List (List Char × List Char)) (body : List Token) (next : Nat),
      aggregateStrings ts sep = .ok (declare D ++ sep.toList ++ body) ∧ body.length = ts.length ∧
      (∀ p ∈ D, nameRank p.2 < next) ∧
      (∀ r, 63 ≤ r → r < next → (∃ n ∈ D.map Prod.snd, nameRank n = r) ∨
        ∃ n, nameRank n = r ∧ ∃ i v, ts[i]? = some (.other n) ∧ Declares ts i (some v)) ∧
      ∀ (i : Nat) (s : List Char), body[i]? = some (.str s) → 2 ≤ ts.count (.str s) → (∀ name w, ¬AssignedFrom ts name s w) →
        ∃ n, GenName n ∧ nameRank n ≤ next ∧ (ts.count (.str s) + 1) * blen s ≤ (ts.count (.str s) + 1) * blen n + 6 := by
  obtain ⟨vars, D, body, hv, -, h1, h2, h3, -, -, ⟨next, h0, h4, h5⟩, h6, h7⟩ := aggregate_spec ts sep
  refine ⟨D, body, next, h1, h6, h0, ?_, ?_⟩
  · intro r hr1 hr2
    rcases h4 r hr1 hr2 with ⟨n, hn, hr, -⟩ | h
    · exact .inr ⟨n, hr, (hv.known n hn).2⟩
    · exact .inl h
  · intro i s hb hc hna
    have hnone : vars.values s = none := by
      cases hs : vars.values s with
      | none => rfl
      | some vw =>
        obtain ⟨name, e1, e2, -, e3, e4⟩ := hv.value s vw.1 vw.2 hs
        exact absurd ⟨vw.1, e1, e2, e3, e4⟩ (hna name vw.2)
    have hts : ∃ t, ts[i]? = some t := by
      cases ht : ts[i]? with
      | some t => exact ⟨t, rfl⟩
      | none =>
        have := List.getElem?_eq_none_iff.1 ht
        rw [List.getElem?_eq_none (by omega)] at hb; cases hb
    obtain ⟨t, ht⟩ := hts
    rw [h7 i t ht] at hb
    simp only [Option.some.injEq] at hb
    have hD : s ∉ D.map Prod.fst := by
      intro hmem
      obtain ⟨⟨s', n⟩, hp, he⟩ := List.mem_map.1 hmem
      simp only at he
      subst he
      unfold aggToken at hb
      cases hg : t.getStr with
      | none =>
        rw [hg] at hb; simp only at hb; subst hb; cases hg
      | some y =>
        have ht' : t = .str y := by cases t <;> simp [Token.getStr] at hg; rw [hg]
        rw [hg] at hb
        simp only at hb
        cases hvs : vars.values y with
        | some vw =>
          rw [hvs] at hb
          simp only at hb
          obtain ⟨name, e1, -⟩ := hv.value y vw.1 vw.2 hvs
          by_cases hw : i = vw.2
          · rw [if_pos hw, ht'] at hb; cases hb
            rw [hnone] at hvs; cases hvs
          · rw [if_neg hw, e1] at hb; cases hb
        | none =>
          rw [hvs] at hb
          simp only [renamed, hg] at hb
          cases hl : D.lookup y with
          | some n' => rw [hl] at hb; cases hb
          | none =>
            rw [hl] at hb
            simp only at hb
            rw [ht'] at hb
            cases hb
            have := List.lookup_eq_none_iff.1 hl _ hp
            simp at this
    obtain ⟨n, e1, -, e3, e4⟩ := h5 s hnone hD (by rw [occ_count]; exact hc)
    refine ⟨n, e1, e3, ?_⟩
    rw [occ_count] at e4
    unfold worthIt at e4
    simp only [decide_eq_false_iff_not, Nat.not_lt] at e4
    have a1 : (ts.count (.str s) + 2) * blen s = ts.count (.str s) * blen s + 2 * blen s := Nat.add_mul ..
    have a2 : (ts.count (.str s) + 1) * blen s = ts.count (.str s) * blen s + 1 * blen s := Nat.add_mul ..
    have a3 : (ts.count (.str s) + 1) * blen n = ts.count (.str s) * blen n + 1 * blen n := Nat.add_mul ..
    omega

/-- Three occurrences of a literal of five bytes are left alone: `4 * 5 ≤ 4 * 4 + 6`. With seven bytes it is hoisted. -/
example : aggregateStrings [.str "'abc'".toList, .op .addition, .str "'abc'".toList, .op .addition, .str "'abc'".toList] none =
    .ok [.str "'abc'".toList, .op .addition, .str "'abc'".toList, .op .addition, .str "'abc'".toList] := by decide +kernel

example : NoAggregates [.str "'abcdefghijkl'".toList, .keyword .kIn, .other ['a'], .op .addition, .str "'abcdefghijkl'".toList] ∧
    aggregateStrings [.str "'abcdefghijkl'".toList, .keyword .kIn, .other ['a'], .op .addition, .str "'abcdefghijkl'".toList] none =
    .ok (declare [("'abcdefghijkl'".toList, "r_aa".toList)] ++ [.createdVar "r_aa".toList, .keyword .kIn, .other ['a'], .op .addition,
      .createdVar "r_aa".toList]) := by
  refine ⟨?_, by decide +kernel⟩
  intro name h
  simp at h
  subst h
  decide

end Verif.Js
