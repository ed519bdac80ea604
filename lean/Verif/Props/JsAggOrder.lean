import Verif.Proofs.JsAggOrder
/-!
# C88: cleaning tokens before or after the strings are aggregated
-/
set_option linter.unusedSimpArgs false

namespace Verif.Js
open Spec.Js Spec.JsAgg

/-- C88: it does not matter whether tokens are cleaned before or after their strings are aggregated. -/
def C88_full : Prop := ∀ s : List Char, aggregatedText s none = cleanedText s

/-- With a line break before an equals sign the declaration is only seen by the one that is cleaned. -/
theorem C88_full_false : ¬C88_full := by
  intro h
  have h1 := h "var r_x\n='lit';f('lit')".toList
  have h2 : aggregatedText "var r_x\n='lit';f('lit')".toList none = .ok "var r_x='lit';f('lit')".toList := by decide +kernel
  have h3 : cleanedText "var r_x\n='lit';f('lit')".toList = .ok "var r_x='lit';f(r_x)".toList := by decide +kernel
  rw [h2, h3] at h1
  exact absurd h1 (by decide +kernel)

/-- A comment at the beginning makes a name out of the first word, and a semicolon at the beginning is only cleaned away if it is still
the first token. -/
theorem C88_start_false :
    aggregatedText "/**/r_x='lit';f('lit')".toList none = .ok "r_x='lit';f(r_x)".toList ∧
    cleanedText "/**/r_x='lit';f('lit')".toList = .ok "r_x='lit';f('lit')".toList ∧
    aggregatedText ";f('abcdefghijkl','abcdefghijkl')".toList none = .ok "var r_aa='abcdefghijkl';;f(r_aa,r_aa)".toList ∧
    cleanedText ";f('abcdefghijkl','abcdefghijkl')".toList = .ok "var r_aa='abcdefghijkl';f(r_aa,r_aa)".toList := by
  refine ⟨?_, ?_, ?_, ?_⟩ <;> decide +kernel

/-- No semicolon comes first. -/
def NoSemi (ts : List Token) : Prop := (ts.filter keepTok).head? ≠ some (.char .semiColon)

private theorem dropWhile_head {ts : List Token} (h : ts.head? ≠ some (.char .semiColon)) : ts.dropWhile (· == .char .semiColon) = ts := by
  cases ts with
  | nil => rfl
  | cons t ts =>
    have : (t == .char .semiColon) = false := by
      simp only [beq_eq_false_iff_ne]
      intro e; exact h (by rw [e]; rfl)
    simp [this]

private theorem head_aggregate {ts out : List Token} (hn : ts.head? ≠ some (.char .semiColon)) (h : aggregateStrings ts none = .ok out) :
    out.head? ≠ some (.char .semiColon) := by
  obtain ⟨vars, D, body, hv, -, h1, -, -, -, -, -, h6, h7⟩ := aggregate_spec ts none
  rw [h] at h1
  cases h1
  cases D with
  | cons p D => obtain ⟨s, n⟩ := p; simp [declare]
  | nil =>
    simp only [declare, Option.toList, List.nil_append]
    cases ts with
    | nil =>
      cases body with
      | nil => simp
      | cons b body => simp at h6
    | cons t ts =>
      rw [List.head?_eq_getElem?, h7 0 t rfl, aggToken]
      have ht : t ≠ .char .semiColon := fun e => hn (by rw [e]; rfl)
      intro hx
      rw [Option.some.injEq] at hx
      cases t with
      | str s =>
        simp only [Token.getStr] at hx
        cases hval : vars.values s with
        | none => rw [hval] at hx; simp [renamed, Token.getStr] at hx
        | some p =>
          obtain ⟨v, w⟩ := p
          obtain ⟨name, hvar, -⟩ := hv.value s v w hval
          rw [hval] at hx
          simp only at hx
          split at hx
          · cases hx
          · rw [hvar] at hx; cases hx
      | _ => exact ht hx

/-- The tokens are the same, if there is no line break between a name and an equals sign, a comma or a semicolon, and the first tokens
are not names that become declared ones by what precedes them (`StartOk`). Missing: the cases of `C88_full_false` and `C88_start_false`, and
others in which a line break or what comes first has no effect. -/
theorem C88_tokens_partial (ts : List Token) (sep : Option Token) (hc : AllClear ts) (hs : StartOk ts) (hn : NoSemi ts)
    (hsep : ∀ t, sep = some t → useless t = true) :
    ∃ out, aggregateStrings ts sep = .ok out ∧ aggregateStrings (cleanTokens ts) none = .ok (cleanTokens out) := by
  obtain ⟨out, h1, h2⟩ := aggregate_filter ts sep hc hs hsep
  refine ⟨out, h1, ?_⟩
  rw [cleanTokens_eq ts, cleanTokens_eq out, dropWhile_head hn, dropWhile_head (head_aggregate hn h2)]
  exact h2

/-- The same for the texts, for any source: if it is not read, neither gives a text. -/
theorem C88_text_partial (s : List Char) (sep : Option Token) (h : ∀ ts, tokenize s = .ok ts → AllClear ts ∧ StartOk ts ∧ NoSemi ts)
    (hsep : ∀ t, sep = some t → useless t = true) : aggregatedText s sep = cleanedText s := by
  rw [aggregatedText, cleanedText]
  cases ht : tokenize s with
  | err e => rfl
  | panic e => rfl
  | ok ts =>
    obtain ⟨h1, h2, h3⟩ := h ts ht
    obtain ⟨out, a1, a2⟩ := C88_tokens_partial ts sep h1 h2 h3 hsep
    simp only [Out.bind_ok]
    rw [a1, a2]
    rfl

/-! ## An example -/

/-- 1 after a name, 2 after a line break behind it. -/
private def clearFrom : Nat → List Token → Bool
  | _, [] => true
  | n, t :: ts =>
    if keepTok t then !(n == 2 && ender t) && clearFrom (if t.isOther then 1 else 0) ts
    else clearFrom (if n ≠ 0 && t == .char .backline then 2 else n) ts

private theorem clearFrom_two : ∀ (gap : List Token) (x : Token) (post : List Token), (∀ t ∈ gap, useless t = true) → ender x = true →
    clearFrom 2 (gap ++ x :: post) = false
  | [], x, post, _, hx => by
    have hk : keepTok x = true := by
      simp only [ender, Bool.or_eq_true, beq_iff_eq] at hx
      rcases hx with (rfl | rfl) | rfl <;> rfl
    simp [clearFrom, hx, hk]
  | t :: gap, x, post, h, hx => by
    have hk : keepTok t = false := by rw [keepTok_eq, h t List.mem_cons_self]; rfl
    rw [List.cons_append, clearFrom, hk]
    have := clearFrom_two gap x post (fun t ht => h t (List.mem_cons_of_mem _ ht)) hx
    simpa using this

private theorem clearFrom_one : ∀ (gap : List Token) (x : Token) (post : List Token), (∀ t ∈ gap, useless t = true) → ender x = true →
    .char .backline ∈ gap → clearFrom 1 (gap ++ x :: post) = false
  | [], _, _, _, _, h => by cases h
  | t :: gap, x, post, h, hx, hm => by
    have hk : keepTok t = false := by rw [keepTok_eq, h t List.mem_cons_self]; rfl
    have h' : ∀ t ∈ gap, useless t = true := fun t ht => h t (List.mem_cons_of_mem _ ht)
    rw [List.cons_append, clearFrom, hk]
    by_cases ht : t = .char .backline
    · subst ht
      simpa using clearFrom_two gap x post h' hx
    · have hm' : .char .backline ∈ gap := by
        rcases List.mem_cons.1 hm with e | e
        · exact absurd e.symm ht
        · exact e
      simpa [ht] using clearFrom_one gap x post h' hx hm'

private theorem allClear_of : ∀ {n : Nat} {ts : List Token}, clearFrom n ts = true → AllClear ts
  | n, [], _, pre, name, post, e => by simp at e
  | n, t :: ts, h, [], name, post, e => by
    cases e
    intro gap x post' e hg hx hm
    subst e
    rw [clearFrom] at h
    simp only [show keepTok (.other name) = true from rfl, if_true, Bool.and_eq_true, Token.isOther] at h
    rw [clearFrom_one gap x post' hg hx hm] at h
    exact absurd h.2 (by simp)
  | n, t :: ts, h, a :: pre, name, post, e => by
    cases e
    rw [clearFrom] at h
    split at h
    · simp only [Bool.and_eq_true] at h
      exact allClear_of h.2 pre name post rfl
    · exact allClear_of h pre name post rfl

private def startCheck (ts : List Token) : Bool :=
  (ts.head?.all keepTok) || match ts.filter keepTok with
    | [] => true
    | k :: R => !k.isOther && (lead k || R.head?.all fun k' => !k'.isOther)

private theorem startOk_of {ts : List Token} (h : startCheck ts = true) : StartOk ts := by
  rw [startCheck, Bool.or_eq_true] at h
  rcases h with h | h
  · refine .inl fun t ht => ?_
    rw [ht] at h; exact h
  · refine .inr fun k R e => ?_
    rw [e] at h
    simp only [Bool.and_eq_true, Bool.or_eq_true, Bool.not_eq_true'] at h
    refine ⟨h.1, ?_⟩
    rcases h.2 with h | h
    · exact .inl h
    · refine .inr fun k' e' => ?_
      rw [e'] at h
      simpa using h

/-- A script that begins with a comment, with line breaks and a name that was declared. -/
example : let s := "/* c */\nlet r_aa\t= \n'mnopqrstuvwx'; f\n( 'abcdefghijkl', 007 ) ; // c\n if('abcdefghijkl' in x)g('ab',a\n+'ab','mnopqrstuvwx')".toList
    (∀ ts, tokenize s = .ok ts → AllClear ts ∧ StartOk ts ∧ NoSemi ts) ∧
      cleanedText s = .ok "var r_ba='abcdefghijkl';let r_aa='mnopqrstuvwx';f(r_ba,7);if(r_ba in x)g('ab',a+'ab',r_aa)".toList := by
  refine ⟨fun ts h => ?_, by decide +kernel⟩
  have hd : (match tokenize "/* c */\nlet r_aa\t= \n'mnopqrstuvwx'; f\n( 'abcdefghijkl', 007 ) ; // c\n if('abcdefghijkl' in x)g('ab',a\n+'ab','mnopqrstuvwx')".toList with
      | .ok ts => clearFrom 0 ts && startCheck ts && ((ts.filter keepTok).head? != some (.char .semiColon))
      | _ => false) = true := by decide +kernel
  rw [h] at hd
  simp only [Bool.and_eq_true, bne_iff_ne] at hd
  exact ⟨allClear_of hd.1.1, startOk_of hd.1.2, hd.2⟩

end Verif.Js
