import Verif.Props.JsAggText
import Verif.Props.JsArr
import Verif.Proofs.JsArrText
import Verif.Proofs.JsArrAgain
/-!
# C73: the written text of a script with strings aggregated into an array
-/
set_option linter.unusedSimpArgs false
namespace Verif.Js
open Spec.Js Spec.JsAgg

/-- A script is tokenized, its strings are aggregated into an array, the tokens are cleaned and written: the use that the documentation
of `aggregate_strings_into_array` and its variants shows, src/js/tools.rs:520-540 and 572-583. -/
def arrayText (s name : List Char) (sep : Option Token) (filter : Nat → Bool) : Out (List Char) := do
  let ts ← tokenize s
  let ts ← aggregateIntoArray ts name sep filter
  .ok (display (cleanTokens ts))

/-- The same for tokens that are cleaned first, as in `js::minify(source).apply(|f| aggregate_strings_into_array(f, "R"))`. -/
def cleanedArrayText (s name : List Char) (filter : Nat → Bool) : Out (List Char) := do
  let ts ← tokenize s
  let ts ← aggregateIntoArray (cleanTokens ts) name none filter
  .ok (display ts)

/-! ## Tokens and lexemes -/

private theorem tokOf_bracket {l : Lexeme} {v : List Lexeme} (ho : isOpen l = false) (h : LexOk v l) :
    (tokOf l = .char .openBracket → l = .punct ['[']) ∧ (tokOf l = .char .closeBracket → l = .punct [']']) := by
  cases l with
  | word w =>
    have := (word_shape h).2.2.2.1
    have e : tokOf (.word w) = wordToken w := rfl
    rw [e]
    constructor <;> (intro e; rw [e] at this; cases this)
  | punct t =>
    have hs : ∀ t ∈ puncts, (tokOf (.punct t) = .char .openBracket → t = ['[']) ∧ (tokOf (.punct t) = .char .closeBracket → t = [']']) := by
      decide +kernel
    exact ⟨fun e => by rw [(hs t h).1 e], fun e => by rw [(hs t h).2 e]⟩
  | blank c =>
    have hs : ∀ t : Token, tokOf (.blank c) = t → t.isWhite = true := by
      intro t e
      have := keepTok_tokOf (l := .blank c) h rfl
      cases e
      simp only [keepTok, solid, Bool.not_eq_false'] at this
      simp only [Bool.or_eq_true] at this
      rcases this with this | this
      · simp only [tokOf] at this
        first | cases this | (split at this <;> cases this)
      · exact this
    constructor <;> (intro e; have := hs _ e; cases this)
  | _ => first | (cases ho; done) | (constructor <;> (intro e; cases e))

private theorem tokOf_announce {l : Lexeme} {v : List Lexeme} {k : Token} (hk : k = .keyword .kVar ∨ k = .keyword .kLet)
    (ho : isOpen l = false) (h : LexOk v l) (e : tokOf l = k) : ∃ w, l = .word w ∧ (w = "var".toList ∨ w = "let".toList) := by
  cases l with
  | word w =>
    have e' : wordToken w = k := e
    have hw : WordOk w := h
    refine ⟨w, rfl, ?_⟩
    rcases word_cases hw.noSign with ⟨h1, x, h2, h3⟩ | ⟨h1, h2, h3⟩ | ⟨h1, h2, h3, h4⟩ | ⟨h1, h2, h3, h4⟩
    · rw [h2] at e'
      rcases hk with rfl | rfl <;> cases e' <;> rw [← h3]
      · exact .inl rfl
      · exact .inr rfl
    · rw [h3] at e'; rcases hk with rfl | rfl <;> cases e'
    · rw [h4] at e'; rcases hk with rfl | rfl <;> cases e'
    · rw [h4] at e'; rcases hk with rfl | rfl <;> cases e'
  | punct t =>
    have := (punct_shape t h).2.2.2.2.1
    rw [e] at this
    rcases hk with rfl | rfl <;> cases this
  | blank c =>
    have := keepTok_tokOf (l := .blank c) h rfl
    rw [e] at this
    rcases hk with rfl | rfl <;> cases this
  | _ => first | (cases ho; done) | (exfalso; rcases hk with rfl | rfl <;> cases e)

/-- A token that the aggregation makes. -/
private def made : Token → Bool
  | .createdVar _ => true
  | .createdVarDecl _ => true
  | _ => false

private theorem tokOf_made {l : Lexeme} {v : List Lexeme} (ho : isOpen l = false) (h : LexOk v l) : made (tokOf l) = false := by
  cases l with
  | word w =>
    have hw : WordOk w := h
    show made (wordToken w) = false
    rcases word_cases hw.noSign with ⟨h1, k, h2, h3⟩ | ⟨h1, h2, h3⟩ | ⟨h1, h2, h3, h4⟩ | ⟨h1, h2, h3, h4⟩
    · rw [h2]; rfl
    · rw [h3]; rfl
    · rw [h4]; rfl
    · rw [h4]; rfl
  | punct t =>
    have hs : ∀ t ∈ puncts, made (tokOf (.punct t)) = false := by decide +kernel
    exact hs t h
  | blank c =>
    have := keepTok_tokOf (l := .blank c) h rfl
    cases hx : tokOf (.blank c) <;> first | rfl | (rw [hx] at this; cases this)
  | _ => first | (cases ho; done) | rfl

private theorem keep_blank (t : Token) : keepTok t = !blank t := by
  rw [blank_eq]; rfl

private theorem digits_index (k : Nat) : Digits (natDisplay k) ∧ shortest (natDisplay k) = natDisplay k := by
  obtain ⟨h1, h2, h3⟩ := natDisplay_digits k
  exact ⟨⟨h1, h2⟩, by rw [← natDisplay_value h2, h3]⟩

/-! ## Literals with the same content -/

private theorem countP_two {α : Type} (p : α → Bool) : ∀ (l : List α) (a b : α) (i j : Nat), i ≠ j → l[i]? = some a → l[j]? = some b →
    p a = true → p b = true → 2 ≤ l.countP p
  | [], _, _, _, _, _, h, _, _, _ => by simp at h
  | _ :: _, _, _, 0, 0, h, _, _, _, _ => absurd rfl h
  | x :: l, a, b, 0, j + 1, _, h1, h2, ha, hb => by
    simp only [List.getElem?_cons_zero, Option.some.injEq, List.getElem?_cons_succ] at h1 h2
    subst h1
    have := List.countP_pos_iff.2 ⟨b, List.mem_of_getElem? h2, hb⟩
    rw [List.countP_cons_of_pos ha]; omega
  | x :: l, a, b, i + 1, 0, _, h1, h2, ha, hb => by
    simp only [List.getElem?_cons_zero, Option.some.injEq, List.getElem?_cons_succ] at h1 h2
    subst h2
    have := List.countP_pos_iff.2 ⟨a, List.mem_of_getElem? h1, ha⟩
    rw [List.countP_cons_of_pos hb]; omega
  | x :: l, a, b, i + 1, j + 1, h, h1, h2, ha, hb => by
    simp only [List.getElem?_cons_succ] at h1 h2
    have := countP_two p l a b i j (by omega) h1 h2 ha hb
    rw [List.countP_cons]; omega

private theorem literal_solid (l : Lexeme) (c : List Char) (h : (literalContent l == some c) = true) : solid l = true ∧ l ≠ .punct [';'] := by
  cases l with
  | str t => exact ⟨rfl, by simp⟩
  | _ => cases h

private theorem countP_filter_solid (ls : List Lexeme) (c : List Char) :
    (ls.filter solid).countP (fun l => literalContent l == some c) = ls.countP fun l => literalContent l == some c := by
  rw [List.countP_filter]
  refine List.countP_congr fun l _ => ?_
  constructor
  · intro h
    simp only [Bool.and_eq_true] at h
    exact h.1
  · intro h
    simp only [Bool.and_eq_true]
    exact ⟨h, (literal_solid l c h).1⟩

private theorem countP_strip (ls : List Lexeme) (c : List Char) :
    (strip ls).countP (fun l => literalContent l == some c) = ls.countP fun l => literalContent l == some c := by
  rw [← countP_filter_solid ls]
  unfold strip
  generalize ls.filter solid = ls
  induction ls with
  | nil => rfl
  | cons l ls ih =>
    by_cases hl : l = .punct [';']
    · subst hl
      rw [List.dropWhile_cons_of_pos (by simp), ih, List.countP_cons_of_neg (p := fun l => literalContent l == some c) (by simp [literalContent])]
    · rw [List.dropWhile_cons_of_neg (by simpa using hl)]

private theorem countP_shorten (ls : List Lexeme) (c : List Char) :
    (ls.map shorten).countP (fun l => literalContent l == some c) = ls.countP fun l => literalContent l == some c := by
  rw [List.countP_map]
  refine List.countP_congr fun l _ => ?_
  have : literalContent (shorten l) = literalContent l := by
    cases l with
    | word w => simp only [Spec.Js.shorten]; split <;> rfl
    | _ => rfl
  simp only [Function.comp, this]

private theorem sameContent_strip (ls : List Lexeme) (s : List Char) : sameContent (strip ls) s = sameContent ls s := by
  unfold sameContent
  rw [countP_strip]

/-! ## The tokens of the aggregated script -/

/-- A token in the place of a lexeme. -/
private def PutIndex (us : List Lexeme) (name : List Char) (C : List (List Char)) (l : Lexeme) (t : Token) : Prop :=
  t = tokOf l ∨ ∃ s k, l = .str s ∧ C[k]? = some (content s) ∧ sameContent us s = true ∧ t = .createdVar (arrayRef name k)

private theorem get_tok {us : List Lexeme} {i : Nat} {t : Token} (h : (us.map tokOf)[i]? = some t) : ∃ l, us[i]? = some l ∧ tokOf l = t := by
  rw [List.getElem?_map] at h
  cases hl : us[i]? with
  | none => rw [hl] at h; cases h
  | some l => rw [hl] at h; cases h; exact ⟨l, rfl, rfl⟩

private theorem two_of_accepted {us : List Lexeme} {filter : Nat → Bool} {c : List Char}
    (h : 2 ≤ (accepted (us.map tokOf) filter c).length) : 2 ≤ us.countP fun l => literalContent l == some c := by
  have hnd : (accepted (us.map tokOf) filter c).Nodup := List.nodup_range.sublist List.filter_sublist
  have hm : ∀ p ∈ accepted (us.map tokOf) filter c, ∃ l, us[p]? = some l ∧ (literalContent l == some c) = true := by
    intro p hp
    obtain ⟨-, hp⟩ := List.mem_filter.1 hp
    simp only [Bool.and_eq_true, decide_eq_true_eq] at hp
    obtain ⟨s, h1, h2⟩ := litAt_some.1 hp.2
    obtain ⟨l, h3, h4⟩ := get_tok h1
    obtain rfl := Verif.Js.tokOf_str h4
    exact ⟨_, h3, by simp [literalContent, h2]⟩
  generalize accepted (us.map tokOf) filter c = L at h hnd hm
  match L, h, hnd, hm with
  | x :: y :: L, _, hnd, hm =>
    obtain ⟨a, ha, ha'⟩ := hm x (by simp)
    obtain ⟨b, hb, hb'⟩ := hm y (by simp)
    refine countP_two _ us a b x y ?_ ha hb ha' hb'
    rintro rfl
    simp at hnd

private theorem aggregated_array {us : List Lexeme} (hu : ∀ l ∈ us, isOpen l = false ∧ ∃ v, LexOk v l) (name : List Char)
    (sep : Option Token) (filter : Nat → Bool) :
    ∃ (O N : List (List Char)) (body out : List Token), aggregateIntoArray (us.map tokOf) name sep filter = .ok out ∧ N.Nodup ∧
      (∀ c ∈ N, c ∉ O) ∧ (∀ c ∈ N, 2 ≤ us.countP fun l => literalContent l == some c) ∧ Pointwise (PutIndex us name (O ++ N)) us body ∧
      ((O = [] ∧ (out = body ∧ N = [] ∨ N ≠ [] ∧ out = .createdVarDecl ('v' :: 'a' :: 'r' :: ' ' :: (name ++ ['='])) ::
          .char .openBracket :: (entries N ++ .char .closeBracket :: .char .semiColon :: (sep.toList ++ body)))) ∨
        ∃ p k g1 g2 g3 arr post, (k = .keyword .kVar ∨ k = .keyword .kLet) ∧ (∀ t ∈ g1 ++ g2 ++ g3, keepTok t = false) ∧
          (∀ t ∈ arr, made t = false) ∧ .char .closeBracket ∉ arr ∧
          body = p ++ k :: (g1 ++ .other name :: (g2 ++ .op .equal :: (g3 ++ .char .openBracket :: (arr ++ .char .closeBracket :: post)))) ∧
          O = arr.filterMap (fun t => t.getStr.map content) ∧
          out = p ++ k :: (g1 ++ .other name :: (g2 ++ .op .equal :: (g3 ++ .char .openBracket :: (arr ++
            (if arr.filter keepTok = [] then entries N else entriesAfter N) ++ .char .closeBracket :: post))))) := by
  have hmade : ∀ t ∈ us.map tokOf, made t = false := by
    intro t ht
    obtain ⟨l, hl, rfl⟩ := List.mem_map.1 ht
    obtain ⟨ho, v, hv⟩ := hu l hl
    exact tokOf_made ho hv
  obtain ⟨O, N, body, out, h1, -, h2, h3, hal, -, h4, h5, h6⟩ := array_inserted (us.map tokOf) name sep filter (by
    intro p s hs _
    obtain ⟨l, hl, he⟩ := get_tok hs
    obtain rfl := Verif.Js.tokOf_str he
    obtain ⟨-, v, hv⟩ := hu _ (List.mem_of_getElem? hl)
    exact lexeme_quoted hv)
  have hlen : body.length = us.length := by rw [hal.length, List.length_map]
  have hbod : ∀ (i : Nat) (t : Token), body[i]? = some t → made t = false → (us.map tokOf)[i]? = some t := by
    intro i t ht hm
    have hi : i < (us.map tokOf).length := by
      rw [List.length_map, ← hlen]
      exact (List.getElem?_eq_some_iff.1 ht).1
    rcases h4 i _ (List.getElem?_eq_getElem hi) with h | ⟨s, k, -, -, -, h⟩
    · rw [List.getElem?_eq_getElem hi, ← h, ht]
    · rw [h] at ht
      cases ht
      cases hm
  have hN : ∀ c ∈ N, 2 ≤ us.countP fun l => literalContent l == some c := fun c hc => two_of_accepted (h5.count c hc)
  refine ⟨O, N, body, out, h1, h2, h3, hN, ?_, ?_⟩
  · refine pointwise_of _ _ hlen fun i l t hl ht => ?_
    have hti : (us.map tokOf)[i]? = some (tokOf l) := by rw [List.getElem?_map, hl]; rfl
    rcases h4 i _ hti with h | ⟨s, k, hs, -, hk, h⟩
    · rw [h] at ht; cases ht; exact .inl rfl
    · obtain rfl := Verif.Js.tokOf_str hs
      have hbi := h
      rw [h] at ht
      cases ht
      refine .inr ⟨s, k, rfl, hk, ?_, rfl⟩
      simp only [sameContent, decide_eq_true_eq]
      rcases List.mem_append.1 (List.mem_of_getElem? hk) with hm | hm
      · rcases h6 with ⟨-, rfl, -⟩ | ⟨pre, arr, post, pre', post', X, -, -, -, hb, -, hO, -⟩
        · cases hm
        · rw [hO] at hm
          obtain ⟨t, ht, hc⟩ := List.mem_filterMap.1 hm
          cases t with
          | str s' =>
            simp only [Token.getStr, Option.map_some, Option.some.injEq] at hc
            obtain ⟨j, hj⟩ := List.getElem?_of_mem ht
            obtain ⟨hj', -⟩ := List.getElem?_eq_some_iff.1 hj
            have hbj : body[pre'.length + 1 + j]? = some (.str s') := by
              rw [hb, List.getElem?_append_right (by omega), show pre'.length + 1 + j - pre'.length = j + 1 by omega,
                List.getElem?_cons_succ, List.getElem?_append_left hj', hj]
            obtain ⟨l', hl', he'⟩ := get_tok (hbod _ _ hbj rfl)
            obtain rfl := Verif.Js.tokOf_str he'
            refine countP_two _ us _ _ i (pre'.length + 1 + j) ?_ hl hl' (by simp [literalContent]) (by simp [literalContent, hc])
            rintro rfl
            rw [hbi] at hbj
            cases hbj
          | _ => cases hc
      · exact hN _ hm
  · rcases h6 with ⟨-, hO, h6⟩ | ⟨pre, arr, post, pre', post', X, hts, hcb, -, hb, hann, hO, hX, hout⟩
    · exact .inl ⟨hO, h6⟩
    · right
      have hnd : ∀ s, .createdVarDecl s ∉ body := by
        intro s hm
        obtain ⟨i, hi⟩ := List.getElem?_of_mem hm
        have hi' : i < (us.map tokOf).length := by
          rw [List.length_map, ← hlen]
          exact (List.getElem?_eq_some_iff.1 hi).1
        rcases h4 i _ (List.getElem?_eq_getElem hi') with h | ⟨s, k, -, -, -, h⟩
        · rw [hi] at h
          have := hmade _ (List.getElem_mem hi')
          cases h' : (us.map tokOf)[i] <;> rw [h'] at h this <;> first | cases h | cases this
          cases this
        · rw [hi] at h; cases h
      rcases hann with ⟨p, k, g1, g2, g3, hk, hg, rfl⟩ | ⟨p, rfl⟩
      · refine ⟨p, k, g1, g2, g3, arr, post', hk, fun t ht => by rw [keep_blank, hg t ht]; rfl, fun t ht => hmade t (by rw [hts]; simp [ht]), hcb,
          ?_, hO, ?_⟩
        · rw [hb]; simp
        · have hkb : arr.filter keepTok = arr.filter fun t => !blank t := List.filter_congr fun t _ => keep_blank t
          rw [hout, hX, hkb]
          simp
      · refine absurd ?_ (hnd ('v' :: 'a' :: 'r' :: ' ' :: (name ++ ['='])))
        rw [hb]; simp

private theorem put_keep {us : List Lexeme} {name : List Char} {C : List (List Char)} {l : Lexeme} {t : Token}
    (hl : isOpen l = false ∧ ∃ v, LexOk v l) (h : PutIndex us name C l t) : keepTok t = solid l := by
  obtain ⟨ho, v, hv⟩ := hl
  rcases h with rfl | ⟨s, k, rfl, -, -, rfl⟩
  · exact keepTok_tokOf hv ho
  · rfl

private theorem put_semi {us : List Lexeme} {name : List Char} {C : List (List Char)} {l : Lexeme} {t : Token} (hl : Solid l)
    (h : PutIndex us name C l t) : (t == .char .semiColon) = (l == .punct [';']) := by
  rcases h with rfl | ⟨s, k, rfl, -, -, rfl⟩
  · exact tokOf_semi hl
  · rfl

private theorem strip_strip {s : List Char} (h : Closed s) : strip (strip (lex s)) = strip (lex s) := by
  have hsol := strip_solid (closed_lex h)
  have hf : (strip (lex s)).filter solid = strip (lex s) := List.filter_eq_self.2 fun l hl => (hsol l hl).2.1
  rw [strip, hf]
  exact dropWhile_twice _

private theorem strip_sub {ls : List Lexeme} {l : Lexeme} (h : l ∈ strip ls) : l ∈ ls :=
  (List.mem_filter.1 ((List.dropWhile_sublist _).subset h)).1

/-- If the script is clean, then so is the result. -/
private theorem array_kept {us : List Lexeme} (hu : ∀ l ∈ us, isOpen l = false ∧ ∃ v, LexOk v l) {name : List Char} {sep : Option Token}
    {O N : List (List Char)} {body out : List Token} (hsep : sep = none) (hst : strip us = us)
    (h5 : Pointwise (PutIndex us name (O ++ N)) us body)
    (h6 : (O = [] ∧ (out = body ∧ N = [] ∨ N ≠ [] ∧ out = .createdVarDecl ('v' :: 'a' :: 'r' :: ' ' :: (name ++ ['='])) ::
          .char .openBracket :: (entries N ++ .char .closeBracket :: .char .semiColon :: (sep.toList ++ body)))) ∨
        ∃ p k g1 g2 g3 arr post, (k = .keyword .kVar ∨ k = .keyword .kLet) ∧ (∀ t ∈ g1 ++ g2 ++ g3, keepTok t = false) ∧
          (∀ t ∈ arr, made t = false) ∧ .char .closeBracket ∉ arr ∧
          body = p ++ k :: (g1 ++ .other name :: (g2 ++ .op .equal :: (g3 ++ .char .openBracket :: (arr ++ .char .closeBracket :: post)))) ∧
          O = arr.filterMap (fun t => t.getStr.map content) ∧
          out = p ++ k :: (g1 ++ .other name :: (g2 ++ .op .equal :: (g3 ++ .char .openBracket :: (arr ++
            (if arr.filter keepTok = [] then entries N else entriesAfter N) ++ .char .closeBracket :: post))))) :
    cleanTokens out = out := by
  have hent : ∀ t ∈ entries N, keepTok t = true := by
    intro t ht
    rw [entries_commas] at ht
    rcases mem_commas_entry' ht with rfl | ⟨c, rfl⟩ <;> rfl
  have hent' : ∀ t ∈ entriesAfter N, keepTok t = true := by
    intro t ht
    obtain ⟨c, -, ht⟩ := List.mem_flatMap.1 ht
    simp only [List.mem_cons, List.not_mem_nil, or_false] at ht
    rcases ht with rfl | rfl <;> rfl
  have hsolid : us.filter solid = us := by
    refine List.filter_eq_self.2 fun l hl => ?_
    rw [← hst] at hl
    exact (List.mem_filter.1 ((List.dropWhile_sublist _).subset hl)).2
  have hb : body.filter keepTok = body := by
    have := pointwise_filter h5 fun l hl t ht => put_keep (hu l hl) ht
    rw [hsolid] at this
    refine List.filter_eq_self.2 fun t ht => ?_
    have hlen := (pointwise_length this).trans (pointwise_length h5).symm
    rw [List.length_filter_eq_length_iff] at hlen
    exact hlen t ht
  have hh : body.head? ≠ some (.char .semiColon) := by
    cases h5 with
    | nil => simp
    | @cons l t ls ts hp _ =>
      intro he
      simp only [List.head?_cons, Option.some.injEq] at he
      subst he
      have hsl : solid l = true := List.filter_eq_self.1 hsolid l List.mem_cons_self
      have := put_semi ⟨(hu l List.mem_cons_self).1, hsl, (hu l List.mem_cons_self).2⟩ hp
      have hl : l = .punct [';'] := by simpa using this
      subst hl
      rw [strip, hsolid] at hst
      have h1 : (ls.dropWhile (· == .punct [';'])).length ≤ ls.length := (List.dropWhile_sublist _).length_le
      rw [List.dropWhile_cons_of_pos (by simp)] at hst
      rw [hst] at h1
      simp only [List.length_cons] at h1
      omega
  have hclean : ∀ out : List Token, (∀ t ∈ out, keepTok t = true) → out.head? ≠ some (.char .semiColon) → cleanTokens out = out := by
    intro out h1 h2
    rw [cleanTokens_eq, List.filter_eq_self.2 h1]
    cases out with
    | nil => rfl
    | cons t out => exact List.dropWhile_cons_of_neg (by simpa using h2)
  have hbm : ∀ t ∈ body, keepTok t = true := List.filter_eq_self.1 hb
  subst hsep
  rcases h6 with ⟨rfl, ⟨rfl, rfl⟩ | ⟨hne, rfl⟩⟩ | ⟨p, k, g1, g2', g3, arr, post, hk, hg, harr, hcb, hbody, hO, rfl⟩
  · exact hclean _ hbm hh
  · refine hclean _ (fun t ht => ?_) (by simp)
    simp only [List.mem_cons, List.mem_append, Option.toList_none, List.nil_append] at ht
    rcases ht with rfl | rfl | ht | rfl | rfl | ht
    · rfl
    · rfl
    · exact hent t ht
    · rfl
    · rfl
    · exact hbm t ht
  · subst hbody
    refine hclean _ (fun t ht => ?_) ?_
    · by_cases hx : t ∈ (if arr.filter keepTok = [] then entries N else entriesAfter N)
      · split at hx
        · exact hent t hx
        · exact hent' t hx
      · refine hbm t ?_
        simp only [List.mem_append, List.mem_cons] at ht ⊢
        simp only [hx, or_false] at ht
        exact ht
    · cases p with
      | nil => rcases hk with rfl | rfl <;> simp
      | cons t p => simpa using hh

/-- A group of one lexeme, or an element of the array. -/
private def Single (g : Group) : Prop := (∃ l, g = (tokOf l, [l]) ∧ Solid l) ∨ made g.1 = true

private theorem Single.of {g : Group} (h : Single g) (hm : made g.1 = false) : ∃ l, g = (tokOf l, [l]) ∧ Solid l := by
  rcases h with h | h
  · exact h
  · rw [hm] at h; cases h

/-- The tokens that are read for a group. -/
def Again (name : List Char) (g : Group) : Prop := (g.2.map shorten).map tokOf = reread name g.1

/-- Groups that are written such that they can be read again as `L`. -/
structure Regroup (name : List Char) (G : List Group) (L : List Lexeme) : Prop where
  written : ∀ g ∈ G, Written g
  linked : Linked true G
  lexemes : (G.flatMap Prod.snd).map shorten = L
  placed : Placed [] L
  solid : ∀ l ∈ L, Solid l
  safe : safeFrom [] L = true
  again : ∀ g ∈ G, Again name g

theorem Name.noQuote {n : List Char} (h : Name n) : n.head? ≠ some '"' := by
  obtain ⟨c, h1, -, h2⟩ := h.head
  rw [h1]
  intro e
  cases e
  exact absurd h2 (by decide +kernel)

/-- The shortest spelling is read as the same token. -/
theorem tokOf_shorten {l : Lexeme} (h : Solid l) : tokOf (shorten l) = tokOf l := by
  cases l with
  | word w =>
    by_cases hi : isInteger w = true
    · obtain ⟨h1, h2, -, -⟩ := shortest_ok hi
      have hw : WordOk w := h.2.2.choose_spec
      have hw' : WordOk (shortest w) := by
        have := h.2.2.choose_spec.shorten
        simp only [Spec.Js.shorten, hi, if_true] at this
        exact this
      have key : ∀ u, WordOk u → isInteger u = true → wordToken u = .number (value u) := by
        intro u hu hiu
        rcases word_cases hu.noSign with ⟨e, -⟩ | ⟨-, -, e⟩ | ⟨-, e, -⟩ | ⟨-, e, -⟩
        · rw [(keywords_name u e).1] at hiu; cases hiu
        · exact e
        · rw [e] at hiu; cases hiu
        · rw [e] at hiu; cases hiu
      simp only [Spec.Js.shorten, hi, if_true]
      show wordToken (shortest w) = wordToken w
      rw [key w hw hi, key _ hw' h1, h2]
    · simp only [Spec.Js.shorten, hi, if_false, Bool.false_eq_true]
  | regex b fl =>
    show Token.regex b ((shortFlags fl).contains 'g') ((shortFlags fl).contains 'i') = Token.regex b (fl.contains 'g') (fl.contains 'i')
    have h1 : ∀ a b : Bool, ((if a then ['g'] else []) ++ (if b then ['i'] else [])).contains 'g' = a ∧
      ((if a then ['g'] else []) ++ (if b then ['i'] else [])).contains 'i' = b := by decide
    unfold shortFlags
    rw [(h1 _ _).1, (h1 _ _).2]
  | _ => rfl

theorem reread_tokOf (name : List Char) {l : Lexeme} (h : Solid l) : reread name (tokOf l) = [tokOf l] := by
  cases l with
  | word w =>
    rcases word_cases (show WordOk w from h.2.2.choose_spec).noSign with ⟨-, k, e, -⟩ | ⟨-, -, e⟩ | ⟨-, -, -, e⟩ | ⟨-, -, -, e⟩ <;>
      (show reread name (wordToken w) = [wordToken w]; rw [e]; rfl)
  | punct t =>
    have hs : ∀ t ∈ puncts, made (tokOf (.punct t)) = false := by decide +kernel
    have := hs t h.2.2.choose_spec
    cases hx : tokOf (.punct t) <;> first | rfl | (rw [hx] at this; cases this)
  | _ => rfl

theorem again_single {name : List Char} {l : Lexeme} (h : Solid l) : Again name (tokOf l, [l]) := by
  show [tokOf (shorten l)] = reread name (tokOf l)
  rw [tokOf_shorten h, reread_tokOf name h]

theorem again_entry (name c : List Char) : Again name (entryGroup c) := by
  show [Token.str ('"' :: (c ++ ['"']))] = reread name (entry c)
  rw [reread_entry]

theorem again_arr {name : List Char} (h : Name name) : Again name (arrGroup name) := by
  have hv : shorten (.word "var".toList) = .word "var".toList := by decide +kernel
  have ht : tokOf (.word "var".toList) = .keyword .kVar := by decide +kernel
  show [tokOf (shorten (.word "var".toList)), tokOf (shorten (.word name)), .op .equal] = [Token.keyword .kVar, .other name, .op .equal]
  rw [hv, h.shorten, ht, h.token]

theorem again_entries (name : List Char) : ∀ (N : List (List Char)), ∀ g ∈ entryGroups N, Again name g
  | [], g, h => by cases h
  | [c], g, h => by
    simp only [entryGroups, List.mem_cons, List.not_mem_nil, or_false] at h
    subst h; exact again_entry name c
  | c :: d :: l, g, h => by
    simp only [entryGroups, List.mem_cons] at h
    rcases h with rfl | rfl | h
    · exact again_entry name c
    · exact comma_tok ▸ again_single solid_comma
    · exact again_entries name (d :: l) g h

theorem again_more (name : List Char) (N : List (List Char)) : ∀ g ∈ moreGroups N, Again name g := by
  intro g h
  obtain ⟨c, -, h⟩ := List.mem_flatMap.1 h
  simp only [List.mem_cons, List.not_mem_nil, or_false] at h
  rcases h with rfl | rfl
  · exact comma_tok ▸ again_single solid_comma
  · exact again_entry name c

theorem again_array {name : List Char} (hn : Name name) (N : List (List Char)) : ∀ g ∈ arrayGroups name N, Again name g := by
  intro g hg
  simp only [arrayGroups, List.mem_cons, List.mem_append, List.not_mem_nil, or_false] at hg
  rcases hg with rfl | rfl | hg | rfl | rfl
  · exact again_arr hn
  · exact open_tok ▸ again_single (solid_punct (in_puncts _ (by simp)))
  · exact again_entries name N g hg
  · exact close_tok ▸ again_single (solid_punct (in_puncts _ (by simp)))
  · exact semi_tok ▸ again_single solid_semi

/-- The lexemes for the tokens. -/
private theorem body_index {us : List Lexeme} {name : List Char} {C : List (List Char)} (hn : Name name)
    {src : List Lexeme} {X : List Token} (h : Pointwise (PutIndex us name C) src X) : (∀ l ∈ src, Solid l) →
    ∃ B : List Group, X = B.map Prod.fst ∧ Body true (fun _ => true) (sameContent us) src B ∧
      Pointwise (Indexed name C) (src.map shorten) (B.map fun g => g.2.map shorten) ∧ (∀ g ∈ B, Single g) ∧
      ∀ g ∈ B, Again name g := by
  induction h with
  | nil => exact fun _ => ⟨[], rfl, .nil, .nil, by simp, by simp⟩
  | @cons l t src X hp _ ih =>
    intro hs
    obtain ⟨B, rfl, hb, hr, hg, ha⟩ := ih fun l hl => hs l (List.mem_cons_of_mem _ hl)
    rcases hp with rfl | ⟨s, k, rfl, hk, hc, rfl⟩
    · refine ⟨(tokOf l, [l]) :: B, rfl, .keep hb, .cons (.inl rfl) hr, fun g hm => ?_, fun g hm => ?_⟩
      · rcases List.mem_cons.1 hm with rfl | hm
        · exact .inl ⟨l, rfl, hs l List.mem_cons_self⟩
        · exact hg g hm
      · rcases List.mem_cons.1 hm with rfl | hm
        · exact again_single (hs l List.mem_cons_self)
        · exact ha g hm
    · obtain ⟨hd, hd'⟩ := digits_index k
      have e : arrayRef name k = name ++ '[' :: (natDisplay k ++ [']']) := by simp [arrayRef]
      refine ⟨(.createdVar (arrayRef name k), [.word name, .punct ['['], .word (natDisplay k), .punct [']']]) :: B, rfl, ?_, .cons ?_ hr,
        fun g hm => ?_, fun g hm => ?_⟩
      · rw [e]
        exact .new hc (.elem hn hd hd' rfl) hb
      · refine .inr ⟨s, natDisplay k, k, rfl, ?_, hd.1, hd.2, (natDisplay_digits k).2.2, hk⟩
        have e1 : Spec.Js.shorten (.word (natDisplay k)) = .word (natDisplay k) := by simp [Spec.Js.shorten, hd']
        simp only [List.map_cons, List.map_nil, hn.shorten, e1]
        rfl
      · rcases List.mem_cons.1 hm with rfl | hm
        · exact .inr rfl
        · exact hg g hm
      · rcases List.mem_cons.1 hm with rfl | hm
        · have e1 : Spec.Js.shorten (.word (natDisplay k)) = .word (natDisplay k) := by simp [Spec.Js.shorten, hd']
          unfold Again
          rw [reread_ref hn.noQuote]
          simp only [List.map_cons, List.map_nil, hn.shorten, e1]
          rw [hn.token]
          rfl
        · exact ha g hm

/-! ## The lexemes that are written -/

private theorem body_ok {rep : List Char → Bool} {src : List Lexeme} {B : List Group} (hsol : ∀ l ∈ src, Solid l) (hp : Placed [] src)
    (hs : safeFrom [] (src.map shorten) = true) (hl : looseFrom (fun _ => true) rep none src = true) (hb : Body true (fun _ => true) rep src B) :
    (∀ g ∈ B, Written g) ∧ Linked true (semiGroup :: B) ∧ Placed [] ((B.flatMap Prod.snd).map shorten) ∧
      (∀ l ∈ (B.flatMap Prod.snd).map shorten, Solid l) ∧ safeFrom [] ((B.flatMap Prod.snd).map shorten) = true := by
  have hsw := hb.swap
  have hsol' : ∀ l ∈ src.map shorten, Solid l := by
    intro l hl
    obtain ⟨l', hl', rfl⟩ := List.mem_map.1 hl
    obtain ⟨h1, h2, v, h3⟩ := hsol l' hl'
    exact ⟨by rw [(shorten_class l').2.1, h1], by rw [(shorten_class l').1, h2], v, h3.shorten⟩
  exact ⟨hb.written hsol, hb.linked hsol (.punct [';']) _ (.inl ⟨rfl, solid_semi⟩) (looseFrom_some rfl hl),
    hsw.placed (v := []) (v' := []) rfl (Placed.shorten _ [] [] rfl hp), hsw.solid hsol',
    hsw.safe (after := fun _ => true) (v := []) (v' := []) ⟨rfl, .inl rfl⟩ (looseFrom_shorten (fun _ => rfl) _ none hl) hs⟩

private theorem read_groups {G : List Group} (hw : ∀ g ∈ G, Written g) (hl : Linked true G) {L : List Lexeme} (e : (G.flatMap Prod.snd).map shorten = L)
    (hp : Placed [] L) (hs : ∀ l ∈ L, Solid l) (h : safeFrom [] L = true) : (lex (display (G.map Prod.fst))).filter solid = L := by
  subst e
  exact lex_groups hw hl hp hs h

private theorem dropWhile_append_cons {α : Type} {q : α → Bool} {x : α} (hx : q x = false) (r : List α) : ∀ l : List α,
    (l ++ x :: r).dropWhile q = l.dropWhile q ++ x :: r
  | [] => by rw [List.nil_append, List.dropWhile_cons_of_neg (by simp [hx])]; rfl
  | a :: l => by
    cases h : q a with
    | true => rw [List.cons_append, List.dropWhile_cons_of_pos h, List.dropWhile_cons_of_pos h, dropWhile_append_cons hx r l]
    | false => rw [List.cons_append, List.dropWhile_cons_of_neg (by simp [h]), List.dropWhile_cons_of_neg (by simp [h])]; rfl

private theorem singles {B : List Group} (h : ∀ g ∈ B, ∃ l, g = (tokOf l, [l]) ∧ Solid l) :
    ∃ ls : List Lexeme, B = ls.map (fun l => (tokOf l, [l])) ∧ ∀ l ∈ ls, Solid l := by
  induction B with
  | nil => exact ⟨[], rfl, by simp⟩
  | cons g B ih =>
    obtain ⟨ls, rfl, hs⟩ := ih fun g hg => h g (List.mem_cons_of_mem _ hg)
    obtain ⟨l, rfl, hl⟩ := h g List.mem_cons_self
    refine ⟨l :: ls, rfl, fun x hx => ?_⟩
    rcases List.mem_cons.1 hx with rfl | hx
    · exact hl
    · exact hs x hx

private theorem literal_tok (l : Lexeme) : literalContent (shorten l) = (tokOf l).getStr.map content := by
  have h1 : literalContent (shorten l) = literalContent l := by
    cases l with
    | word w => simp only [Spec.Js.shorten]; split <;> rfl
    | _ => rfl
  rw [h1]
  cases hs : tokOf l with
  | str s =>
    obtain rfl := Verif.Js.tokOf_str hs
    rfl
  | _ =>
    cases l with
    | str t => cases hs
    | _ => rfl

/-- What a reader of the text should see: the script `ls` with some literals replaced by elements of the array `name`, and the contents
`N` as new elements of that array. Leading semicolons of the script are only dropped where nothing is put before them. -/
def ReadsArray (name : List Char) (ls : List Lexeme) (out : List Char) : Prop :=
  ∃ (O N : List (List Char)) (new : Bool) (src : List Lexeme) (pieces : List (List Lexeme)),
    src = (if new then ls.filter solid else strip ls).map shorten ∧ Pointwise (Indexed name (O ++ N)) src pieces ∧
    Extended name O N pieces.flatten new ((lex out).filter solid) ∧ N.Nodup ∧
    ∀ c ∈ N, c ∉ O ∧ 2 ≤ src.countP fun l => literalContent l == some c

/-- C73 as stated. -/
def C73_full : Prop := ∀ (s name : List Char) (sep : Option Token) (filter : Nat → Bool), Closed s → Safe (lex s) →
  identifier name = true → (∀ t, sep = some t → useless t = true) →
  ∃ out, arrayText s name sep filter = .ok out ∧ ReadsArray name (lex s) out

/-- An element of the array is written directly after `return`: `returnR[0]+R[0]`. -/
theorem C73_full_false : ¬C73_full := by
  intro h
  obtain ⟨out, h1, O, N, new, src, pieces, h2, h3, h4, -⟩ := h "return 'abcdefghijkl'+'abcdefghijkl'".toList ['R'] none (fun _ => true)
    (by unfold Closed; decide +kernel) (by unfold Safe; decide +kernel) (by decide +kernel) (by intro t h; cases h)
  have ho : arrayText "return 'abcdefghijkl'+'abcdefghijkl'".toList ['R'] none (fun _ => true) =
      .ok "var R=[\"abcdefghijkl\"];returnR[0]+R[0]".toList := by decide +kernel
  rw [ho] at h1
  cases h1
  have hsrc : src = [.word "return".toList, .str "'abcdefghijkl'".toList, .punct ['+'], .str "'abcdefghijkl'".toList] := by
    rw [h2]; split <;> decide +kernel
  have hm : .word "return".toList ∈ pieces.flatten := by
    rw [hsrc] at h3
    cases h3 with
    | cons ha _ =>
      rcases ha with rfl | ⟨s, d, k, hs, -⟩
      · simp
      · cases hs
  have hno : .word "return".toList ∉ (lex "var R=[\"abcdefghijkl\"];returnR[0]+R[0]".toList).filter solid := by decide +kernel
  generalize (lex "var R=[\"abcdefghijkl\"];returnR[0]+R[0]".toList).filter solid = L at h4 hno
  cases h4 with
  | nothing => exact hno hm
  | declared => exact hno (List.mem_append_right _ hm)
  | added _ hb _ _ =>
    rw [hb] at hm
    refine hno ?_
    rcases List.mem_append.1 hm with hm | hm
    · exact List.mem_append_left _ (List.mem_append_left _ hm)
    · exact List.mem_append_right _ hm

/-- The same after `case`, between two literals and after a regex, and contents that do not fit in double quotes. -/
theorem C73_full_false_more :
    ∀ p ∈ [("switch(x){case 'abcdefghijkl':f('abcdefghijkl')}", "var R=[\"abcdefghijkl\"];switch(x){caseR[0]:f(R[0])}"),
        ("f(/a/\n'abcdefghijkl');'abcdefghijkl'", "var R=[\"abcdefghijkl\"];f(/a/R[0]);R[0]"),
        ("'abcdefghijkl'\n'abcdefghijkl'", "var R=[\"abcdefghijkl\"];R[0]R[0]"),
        ("f('ab\"cdefghijkl','ab\"cdefghijkl')", "var R=[\"ab\"cdefghijkl\"];f(R[0],R[0])"),
        ("f(`ab\ncdefghijkl`,`ab\ncdefghijkl`)", "var R=[\"ab\ncdefghijkl\"];f(R[0],R[0])")],
      Closed p.1.toList ∧ Safe (lex p.1.toList) ∧ arrayText p.1.toList ['R'] none (fun _ => true) = .ok p.2.toList := by
  unfold Closed Safe
  decide +kernel

theorem array_reads {us : List Lexeme} (hu : ∀ l ∈ us, isOpen l = false ∧ ∃ v, LexOk v l) (hpl : Placed [] us) (name : List Char)
    (sep : Option Token) (filter : Nat → Bool) (hs : Safe us) (hname : identifier name = true) (hl : LooseArray (strip us))
    (hq : Quotable us) (hsep : ∀ t, sep = some t → useless t = true) :
    ∃ out, aggregateIntoArray (us.map tokOf) name sep filter = .ok out ∧ ReadsArray name us (display (cleanTokens out)) ∧
      (sep = none → strip us = us → cleanTokens out = out) ∧ ∃ G L, cleanTokens out = G.map Prod.fst ∧ Regroup name G L := by
  have hn := name_identifier hname
  have hrep : sameContent (strip us) = sameContent us := funext fun t => sameContent_strip _ t
  rw [LooseArray, hrep] at hl
  obtain ⟨O, N, body, out, h1, h2, h3, h4, h5, h6⟩ := aggregated_array hu name sep filter
  have hN : ∀ c ∈ N, quotable c = true := by
    intro c hc
    have := h4 c hc
    obtain ⟨l, hl1, hl2⟩ := List.countP_pos_iff.1 (Nat.lt_of_lt_of_le (by decide : 0 < 2) this)
    cases l with
    | str t =>
      have e : content t = c := by simpa [literalContent] using hl2
      subst e
      exact hq t hl1 (by simpa [sameContent] using this)
    | _ => cases hl2
  have hsem : ∀ l ∈ us.filter solid, Solid l := by
    intro l hm
    obtain ⟨m1, m2⟩ := List.mem_filter.1 hm
    exact ⟨(hu l m1).1, m2, (hu l m1).2⟩
  have hb1 := pointwise_filter h5 fun l hl t ht => put_keep (hu l hl) ht
  have hb2 := pointwise_dropWhile hb1 fun l hl t ht => put_semi (hsem l hl) ht
  have hp1 := Placed.filter us [] [] rfl hpl
  have hp2 := Placed.dropSemi _ [] rfl hp1
  obtain ⟨B2, e2, b2, r2, g2, a2⟩ := body_index hn hb2 (strip_solid hu)
  obtain ⟨w2, l2, p2, s2, f2⟩ := body_ok (strip_solid hu) hp2 hs hl b2
  have hflat : ∀ B : List Group, (B.map fun g => g.2.map shorten).flatten = (B.flatMap Prod.snd).map shorten := by
    intro B
    rw [List.map_flatMap, List.flatMap_def]
  suffices hmain : ReadsArray name us (display (cleanTokens out)) ∧ ∃ G L, cleanTokens out = G.map Prod.fst ∧ Regroup name G L from
    ⟨_, h1, hmain.1, fun hsn hst => array_kept hu hsn hst h5 h6, hmain.2⟩
  rw [cleanTokens_eq]
  rcases h6 with ⟨rfl, ⟨rfl, rfl⟩ | ⟨hne, rfl⟩⟩ | ⟨p, k, g1, g2', g3, arr, post, hk, hg, harr, hcb, hbody, hO, rfl⟩
  · refine ⟨⟨[], [], false, (strip us).map shorten, _, rfl, r2, ?_, List.nodup_nil, by simp⟩,
      B2, _, e2, w2, l2.tail, rfl, p2, s2, f2, a2⟩
    rw [e2, hflat, read_groups w2 l2.tail rfl p2 s2 f2]
    exact .nothing rfl rfl
  · obtain ⟨B, e, b, r, -, ab⟩ := body_index hn hb1 hsem
    obtain ⟨w, lk, pl, so, sa⟩ := body_ok hsem hp1 (safe_semis _ hs) (loose_semis _ hl) b
    obtain ⟨d1, d2, d3⟩ := arrayDecl_ok hn hN pl sa
    have hsepf : sep.toList.filter keepTok = [] := by
      cases sep with
      | none => rfl
      | some t =>
        have h1 : useless t = true := hsep t rfl
        have : keepTok t = false := by
          cases t with
          | char c => cases c <;> first | rfl | cases h1
          | _ => first | rfl | cases h1
        simp [this]
    have hent : (entries N).filter keepTok = entries N := by
      rw [List.filter_eq_self]
      intro t ht
      rw [entries_commas] at ht
      rcases mem_commas_entry' ht with rfl | ⟨c, rfl⟩ <;> rfl
    have hout : ((Token.createdVarDecl ('v' :: 'a' :: 'r' :: ' ' :: (name ++ ['='])) ::
        .char .openBracket :: (entries N ++ .char .closeBracket :: .char .semiColon :: (sep.toList ++ body))).filter keepTok).dropWhile
          (· == .char .semiColon) = (arrayGroups name N ++ B).map Prod.fst := by
      have k1 : ∀ x, keepTok (.createdVarDecl x) = true := fun _ => rfl
      have k2 : keepTok (.char .openBracket) = true := rfl
      have k3 : keepTok (.char .closeBracket) = true := rfl
      have k4 : keepTok (.char .semiColon) = true := rfl
      rw [List.filter_cons_of_pos (k1 _), List.dropWhile_cons_of_neg (by simp), List.filter_cons_of_pos k2, List.filter_append, hent,
        List.filter_cons_of_pos k3, List.filter_cons_of_pos k4, List.filter_append, hsepf, e]
      simp only [arrayGroups, List.map_cons, List.map_append, entryGroups_fst, List.cons_append, List.append_assoc, List.map_nil,
        List.nil_append]
      rfl
    have hG : Regroup name (arrayGroups name N ++ B) (arrayDecl name N ++ (B.flatMap Prod.snd).map shorten) := by
      refine ⟨fun g hg => ?_, arrayGroups_linked lk, ?_, d1, fun l hm => ?_, d2, fun g hg => ?_⟩
      · rcases List.mem_append.1 hg with hg | hg
        · exact arrayGroups_written hn N g hg
        · exact w g hg
      · rw [List.flatMap_append, List.map_append, arrayGroups_snd, arrayDecl_shorten hn]
      · rcases List.mem_append.1 hm with hm | hm
        · exact d3 l hm
        · exact so l hm
      · rcases List.mem_append.1 hg with hg | hg
        · exact again_array hn N g hg
        · exact ab g hg
    refine ⟨⟨[], N, true, (us.filter solid).map shorten, _, rfl, r, ?_, h2, fun c hc => ⟨h3 c hc, ?_⟩⟩, _, _, hout, hG⟩
    · rw [hout, hflat, read_groups hG.written hG.linked hG.lexemes hG.placed hG.solid hG.safe]
      exact .declared rfl hne
    · rw [countP_shorten, countP_filter_solid]
      exact h4 c hc
  · have hgap : ∀ g : List Token, (∀ t ∈ g, keepTok t = false) → g.filter keepTok = [] := by
      intro g hg
      rw [List.filter_eq_nil_iff]
      intro t ht
      rw [hg t ht]; simp
    have hf1 := hgap g1 fun t ht => hg t (by simp [ht])
    have hf2 := hgap g2' fun t ht => hg t (by simp [ht])
    have hf3 := hgap g3 fun t ht => hg t (by simp [ht])
    have hkk : keepTok k = true ∧ (k == .char .semiColon) = false := by rcases hk with rfl | rfl <;> exact ⟨rfl, rfl⟩
    have k1 : keepTok (.other name) = true := rfl
    have k2 : keepTok (.op .equal) = true := rfl
    have k3 : keepTok (.char .openBracket) = true := rfl
    have k4 : keepTok (.char .closeBracket) = true := rfl
    have hcut : ∀ R : List Token, ((p ++ k :: (g1 ++ .other name :: (g2' ++ .op .equal :: (g3 ++ .char .openBracket :: R)))).filter
        keepTok).dropWhile (· == .char .semiColon) = (p.filter keepTok).dropWhile (· == .char .semiColon) ++ k :: .other name :: .op .equal ::
          .char .openBracket :: R.filter keepTok := by
      intro R
      simp only [List.filter_append, List.filter_cons_of_pos hkk.1, List.filter_cons_of_pos k1, List.filter_cons_of_pos k2,
        List.filter_cons_of_pos k3, hf1, hf2, hf3, List.nil_append]
      exact dropWhile_append_cons (q := fun x => x == Token.char .semiColon) hkk.2 _ _
    rw [hbody, hcut, List.filter_append, List.filter_cons_of_pos k4] at e2
    obtain ⟨Bp, R1, rfl, eBp, e2⟩ := List.map_eq_append_iff.1 e2.symm
    obtain ⟨gk, R2, rfl, egk, e2⟩ := List.map_eq_cons_iff.1 e2
    obtain ⟨gn, R3, rfl, egn, e2⟩ := List.map_eq_cons_iff.1 e2
    obtain ⟨ge, R4, rfl, ege, e2⟩ := List.map_eq_cons_iff.1 e2
    obtain ⟨go, R5, rfl, ego, e2⟩ := List.map_eq_cons_iff.1 e2
    obtain ⟨Ba, R6, rfl, eBa, e2⟩ := List.map_eq_append_iff.1 e2
    obtain ⟨gc, Bq, rfl, egc, eBq⟩ := List.map_eq_cons_iff.1 e2
    obtain ⟨lk, rfl, sk⟩ := (g2 gk (by simp)).of (by rw [egk]; rcases hk with rfl | rfl <;> rfl)
    obtain ⟨ln, rfl, sn⟩ := (g2 gn (by simp)).of (by rw [egn]; rfl)
    obtain ⟨le, rfl, se⟩ := (g2 ge (by simp)).of (by rw [ege]; rfl)
    obtain ⟨lo, rfl, so⟩ := (g2 go (by simp)).of (by rw [ego]; rfl)
    obtain ⟨lc, rfl, sc⟩ := (g2 gc (by simp)).of (by rw [egc]; rfl)
    obtain ⟨w, rfl, hw⟩ := tokOf_announce hk sk.1 sk.2.2.choose_spec egk
    obtain ⟨rfl, -⟩ := tokOf_other sn.1 sn.2.2.choose_spec egn
    obtain rfl := tokOf_equal se.1 se.2.2.choose_spec ege
    obtain rfl := (tokOf_bracket so.1 so.2.2.choose_spec).1 ego
    obtain rfl := (tokOf_bracket sc.1 sc.2.2.choose_spec).2 egc
    obtain ⟨arrL, rfl, harrL⟩ := singles (B := Ba) fun g hg => (g2 g (by simp [hg])).of (harr g.1 (by
      have : g.1 ∈ arr.filter keepTok := by rw [← eBa]; exact List.mem_map_of_mem hg
      exact (List.mem_filter.1 this).1))
    have hwsh : shorten (.word w) = .word w := by rcases hw with rfl | rfl <;> decide +kernel
    have esh : ∀ t, shorten (.punct t) = .punct t := fun _ => rfl
    have hheads : ∀ l : List Lexeme, (l.map fun l => (tokOf l, [l])).flatMap Prod.snd = l := by
      intro l
      induction l with
      | nil => rfl
      | cons a l ih => simp only [List.map_cons, List.flatMap_cons, ih]; rfl
    have htoks : arrL.map tokOf = arr.filter keepTok := by
      rw [← eBa, List.map_map]; rfl
    have hnil : arrL = [] ↔ arr.filter keepTok = [] := by
      rw [← htoks, List.map_eq_nil_iff]
    have hOl : (arrL.map shorten).filterMap literalContent = O := by
      rw [hO, List.filterMap_map]
      have e1 : arr.filterMap (fun t => t.getStr.map content) = (arr.filter keepTok).filterMap fun t => t.getStr.map content := by
        rw [List.filterMap_filter]
        congr 1
        funext t
        cases hx : keepTok t with
        | true => rfl
        | false =>
          cases t <;> first | rfl | cases hx
      rw [e1, ← htoks, List.filterMap_map]
      congr 1
      funext l
      exact literal_tok l
    have hcb' : .punct [']'] ∉ arrL.map shorten := by
      intro hm
      obtain ⟨l, hl, e⟩ := List.mem_map.1 hm
      have : l = .punct [']'] := by
        cases l with
        | word w => simp only [Spec.Js.shorten] at e; split at e <;> cases e
        | punct t => exact e
        | _ => cases e
      subst this
      have : tokOf (.punct [']']) ∈ arr.filter keepTok := by rw [← htoks]; exact List.mem_map_of_mem hl
      exact hcb (List.mem_filter.1 this).1
    obtain ⟨A, hA⟩ : ∃ A : List Group, A = Bp ++ (tokOf (.word w), [.word w]) :: (tokOf (.word name), [.word name]) ::
      (tokOf (.punct ['=']), [.punct ['=']]) :: (tokOf (.punct ['[']), [.punct ['[']]) :: arrL.map fun l => (tokOf l, [l]) := ⟨_, rfl⟩
    obtain ⟨X, hX⟩ : ∃ X : List Group, X = if arrL = [] then entryGroups N else moreGroups N := ⟨_, rfl⟩
    obtain ⟨XL, hXL⟩ : ∃ XL : List Lexeme, XL = if arrL = [] then items N else moreItems N := ⟨_, rfl⟩
    have hAs : (A.flatMap Prod.snd).map shorten = (Bp.flatMap Prod.snd).map shorten ++ arrayHead w name ++ arrL.map shorten := by
      rw [hA, List.flatMap_append, List.flatMap_cons, List.flatMap_cons, List.flatMap_cons, List.flatMap_cons, hheads]
      simp only [List.map_append, List.map_cons, List.map_nil, hwsh, hn.shorten, esh, arrayHead, List.append_assoc, List.cons_append,
        List.nil_append]
    have hXs : (X.flatMap Prod.snd).map shorten = XL := by
      rw [hX, hXL]
      split
      · rw [entryGroups_snd, items_shorten]
      · rw [moreGroups_snd, moreItems_shorten]
    have hXok : ∀ g ∈ X, Close g ∧ Written g := by
      rw [hX]
      split
      · exact entryGroups_ok N
      · exact moreGroups_ok N
    have hXsol : ∀ l ∈ XL, Solid l := by
      rw [hXL]
      split
      · exact items_solid hN
      · exact more_solid hN
    have hB : Bp ++ (tokOf (.word w), [.word w]) :: (tokOf (.word name), [.word name]) :: (tokOf (.punct ['=']), [.punct ['=']]) ::
        (tokOf (.punct ['[']), [.punct ['[']]) :: (arrL.map (fun l => (tokOf l, [l])) ++ (tokOf (.punct [']']), [.punct [']']]) :: Bq) =
        A ++ (tokOf (.punct [']']), [.punct [']']]) :: Bq := by rw [hA]; simp
    rw [hB] at w2 l2 p2 s2 f2 r2 a2
    have hsplit : ((A ++ (tokOf (.punct [']']), [.punct [']']]) :: Bq).flatMap Prod.snd).map shorten =
        (A.flatMap Prod.snd).map shorten ++ .punct [']'] :: (Bq.flatMap Prod.snd).map shorten := by
      rw [List.flatMap_append, List.flatMap_cons, List.map_append]
      rfl
    rw [hsplit] at p2 s2 f2
    have hX' : XL = [] ∨ (∃ X', XL = .punct [','] :: X') ∨ ((A.flatMap Prod.snd).map shorten).getLast? = some (.punct ['[']) := by
      rw [hXL, hAs]
      by_cases ha : arrL = []
      · subst ha
        refine .inr (.inr ?_)
        simp [arrayHead]
      · rw [if_neg ha]
        cases N with
        | nil => exact .inl rfl
        | cons c N => exact .inr (.inl ⟨_, rfl⟩)
    obtain ⟨i1, i2⟩ := insert_ok (X := XL) (C := (Bq.flatMap Prod.snd).map shorten) (fun hf => by
      rw [hXL]
      split
      · exact hf.items hN
      · exact hf.more hN) _ [] hX' p2 f2
    have hout : ((p ++ k :: (g1 ++ .other name :: (g2' ++ .op .equal :: (g3 ++ .char .openBracket :: (arr ++
          (if arr.filter keepTok = [] then entries N else entriesAfter N) ++ .char .closeBracket :: post))))).filter keepTok).dropWhile
          (· == .char .semiColon) = (A ++ (X ++ (tokOf (.punct [']']), [.punct [']']]) :: Bq)).map Prod.fst := by
      have hent : ∀ t ∈ (if arr.filter keepTok = [] then entries N else entriesAfter N), keepTok t = true := by
        split
        · intro t ht
          rw [entries_commas] at ht
          rcases mem_commas_entry' ht with rfl | ⟨c, rfl⟩ <;> rfl
        · intro t ht
          obtain ⟨c, -, ht⟩ := List.mem_flatMap.1 ht
          simp only [List.mem_cons, List.not_mem_nil, or_false] at ht
          rcases ht with rfl | rfl <;> rfl
      have hXf : X.map Prod.fst = if arr.filter keepTok = [] then entries N else entriesAfter N := by
        rw [hX]
        by_cases ha : arrL = []
        · rw [if_pos ha, if_pos (hnil.1 ha), entryGroups_fst]
        · rw [if_neg ha, if_neg (fun h => ha (hnil.2 h)), moreGroups_fst]
      rw [hcut, List.filter_append, List.filter_append, List.filter_cons_of_pos k4, List.filter_eq_self.2 hent, ← hXf, ← eBp, ← eBa, ← eBq,
        ← egk, ← egn, hA]
      simp only [List.map_append, List.map_cons, List.append_assoc, List.cons_append]
      rfl
    have hG : Regroup name (A ++ (X ++ (tokOf (.punct [']']), [.punct [']']]) :: Bq))
        ((A.flatMap Prod.snd).map shorten ++ (XL ++ .punct [']'] :: (Bq.flatMap Prod.snd).map shorten)) := by
      refine ⟨fun g hg => ?_, linked_insert l2.tail (fun g hg => (hXok g hg).1) ?_, ?_, i1, fun l hm => ?_, i2, fun g hg => ?_⟩
      · rcases List.mem_append.1 hg with hg | hg
        · exact w2 g (List.mem_append_left _ hg)
        · rcases List.mem_append.1 hg with hg | hg
          · exact (hXok g hg).2
          · exact w2 g (List.mem_append_right _ hg)
      · intro g hg
        cases hg
        exact close_char
      · rw [List.flatMap_append, List.flatMap_append, List.map_append, List.map_append, hXs, List.flatMap_cons]
        rfl
      · rcases List.mem_append.1 hm with hm | hm
        · exact s2 l (List.mem_append_left _ hm)
        · rcases List.mem_append.1 hm with hm | hm
          · exact hXsol l hm
          · exact s2 l (List.mem_append_right _ hm)
      · rcases List.mem_append.1 hg with hg | hg
        · exact a2 g (List.mem_append_left _ hg)
        · rcases List.mem_append.1 hg with hg | hg
          · rw [hX] at hg
            split at hg
            · exact again_entries name N g hg
            · exact again_more name N g hg
          · exact a2 g (List.mem_append_right _ hg)
    refine ⟨⟨O, N, false, (strip us).map shorten, _, rfl, r2, ?_, h2, fun c hc => ⟨h3 c hc, ?_⟩⟩, _, _, hout, hG⟩
    · have e3 : XL = if arrL.map shorten = [] then items N else moreItems N := by
        rw [hXL]; simp only [List.map_eq_nil_iff]
      rw [hout, hflat, hsplit, read_groups hG.written hG.linked hG.lexemes hG.placed hG.solid hG.safe, hAs, ← List.append_assoc, e3]
      exact .added hw rfl hcb' hOl
    · rw [countP_shorten, countP_strip]
      exact h4 c hc

/-- C73, the part that holds: if no literal whose content occurs more than once has a word, a regex or a literal before it, and the contents that occur more than once fit in double quotes, then the text that is written for a script with
strings aggregated into an array is read as that script, with some literals replaced by elements of the array and the new elements put
into the array. Missing: the other scripts, of which some are written wrongly, `C73_full_false`. -/
theorem C73_text_partial (s name : List Char) (sep : Option Token) (filter : Nat → Bool) (h : Closed s) (hs : Safe (lex s))
    (hname : identifier name = true) (hl : LooseArray (strip (lex s))) (hq : Quotable (lex s))
    (hsep : ∀ t, sep = some t → useless t = true) : ∃ out, arrayText s name sep filter = .ok out ∧ ReadsArray name (lex s) out := by
  obtain ⟨out, h1, h2, -⟩ := array_reads (closed_lex h) (placed_lex s) name sep filter hs hname hl hq hsep
  refine ⟨_, ?_, h2⟩
  unfold arrayText
  rw [tokenize_closed h]
  simp only [Out.bind_ok, h1]

/-- C73, partial: the same if the tokens are cleaned before. -/
theorem C73_cleaned_partial (s name : List Char) (filter : Nat → Bool) (h : Closed s) (hs : Safe (lex s)) (hname : identifier name = true)
    (hl : LooseArray (strip (lex s))) (hq : Quotable (lex s)) :
    ∃ out, cleanedArrayText s name filter = .ok out ∧ ReadsArray name (strip (lex s)) out := by
  have hsol := strip_solid (closed_lex h)
  have hu : ∀ l ∈ strip (lex s), isOpen l = false ∧ ∃ v, LexOk v l := fun l hl => ⟨(hsol l hl).1, (hsol l hl).2.2⟩
  have hss := strip_strip h
  obtain ⟨out, h1, h2, h3, -⟩ := array_reads hu (Placed.dropSemi _ [] rfl (Placed.filter _ [] [] rfl (placed_lex s))) name none filter
    (by unfold Safe; rw [hss]; exact hs) hname (by rw [hss]; exact hl)
    (by
      intro t ht hc
      rw [sameContent_strip] at hc
      exact hq t (strip_sub ht) hc) (by intro t h; cases h)
  rw [h3 rfl hss] at h2
  refine ⟨_, ?_, h2⟩
  unfold cleanedArrayText
  rw [tokenize_closed h]
  simp only [Out.bind_ok, clean_strip (closed_lex h), h1]

/-- The tokens that are written if they are cleaned before. -/
theorem cleaned_regroup (s name : List Char) (filter : Nat → Bool) (h : Closed s) (hs : Safe (lex s)) (hname : identifier name = true)
    (hl : LooseArray (strip (lex s))) (hq : Quotable (lex s)) :
    ∃ out G L, aggregateIntoArray ((strip (lex s)).map tokOf) name none filter = .ok out ∧ cleanTokens out = out ∧ out = G.map Prod.fst ∧
      Regroup name G L := by
  have hsol := strip_solid (closed_lex h)
  have hu : ∀ l ∈ strip (lex s), isOpen l = false ∧ ∃ v, LexOk v l := fun l hl => ⟨(hsol l hl).1, (hsol l hl).2.2⟩
  have hss := strip_strip h
  obtain ⟨out, h1, -, h3, G, L, h4, h5⟩ := array_reads hu (Placed.dropSemi _ [] rfl (Placed.filter _ [] [] rfl (placed_lex s))) name none
    filter (by unfold Safe; rw [hss]; exact hs) hname (by rw [hss]; exact hl)
    (by
      intro t ht hc
      rw [sameContent_strip] at hc
      exact hq t (strip_sub ht) hc) (by intro t h; cases h)
  rw [h3 rfl hss] at h4
  exact ⟨out, G, L, h1, h3 rfl hss, h4, h5⟩

theorem tokens_quoted {s : List Char} (h : Closed s) : ∀ t, .str t ∈ (strip (lex s)).map tokOf → Quoted t := by
  intro t ht
  obtain ⟨l, hl, he⟩ := List.mem_map.1 ht
  obtain rfl := Verif.Js.tokOf_str he
  exact lexeme_quoted (strip_solid (closed_lex h) _ hl).2.2.choose_spec

/-- If an array of literals is extended, then the element with the index `k` is the content with the index `k`. -/
theorem C73_elements {arr : List Lexeme} {O : List (List Char)} (N : List (List Char)) (h : CommaList arr O) :
    CommaList (arr ++ if arr = [] then items N else moreItems N) (O ++ N) := by
  have hc : ∀ c : List Char, content ('"' :: (c ++ ['"'])) = c := fun c => by simp [content]
  have h1 : ∀ N : List (List Char), CommaList (items N) N := by
    intro N
    induction N with
    | nil => exact .nil
    | cons c N ih =>
      cases N with
      | nil =>
        have := CommaList.one (s := '"' :: (c ++ ['"']))
        rwa [hc] at this
      | cons d N =>
        have := CommaList.more (s := '"' :: (c ++ ['"'])) (by simp) ih
        rwa [hc] at this
  have h2 : ∀ (c : List Char) (N : List (List Char)), quoted c :: moreItems N = items (c :: N) := by
    intro c N
    induction N generalizing c with
    | nil => rfl
    | cons d N ih => rw [items, ← ih d]; rfl
  induction h with
  | nil => exact h1 N
  | @one s =>
    rw [if_neg (by simp)]
    cases N with
    | nil => exact .one
    | cons c N =>
      have := CommaList.more (s := s) (by simp) (h1 (c :: N))
      rw [← h2 c N] at this
      exact this
  | @more s ls C hC hl ih =>
    have hne : ls ≠ [] := by
      rintro rfl
      cases hl
      exact hC rfl
    rw [if_neg hne] at ih
    rw [if_neg (by simp)]
    exact .more (by simp [hC]) ih

private def arraySource : String := "; var R = [ 'ab' , \"x\" ] ; // c\n f('abcdefghijkl', 'ab' ) + \"abcdefghijkl\" - y; g( 007 )"

private def newSource : String := "; /* c */ f(x?'abcdefghijkl':'ab', 'ab' ) + \"abcdefghijkl\" in y ; g( 007, 'abcdefghijkm'+'abcdefghijkm' )"

/-- Not vacuous: an array that is there, and a new array. -/
example : (∀ p ∈ [(arraySource, "var R=['ab',\"x\",\"abcdefghijkl\"];f(R[2],R[0])+R[2]-y;g(7)"),
      (newSource, "var R=[\"abcdefghijkl\",\"abcdefghijkm\"];;f(x?R[0]:'ab','ab')+R[0] in y;g(7,R[1]+R[1])")],
    Closed p.1.toList ∧ Safe (lex p.1.toList) ∧ LooseArray (strip (lex p.1.toList)) ∧
      Quotable (lex p.1.toList) ∧
      arrayText p.1.toList ['R'] (some (.char .backline)) (fun _ => true) = .ok p.2.toList) ∧
    cleanedArrayText arraySource.toList ['R'] (fun _ => true) =
      .ok "var R=['ab',\"x\",\"abcdefghijkl\"];f(R[2],R[0])+R[2]-y;g(7)".toList ∧
    identifier ['R'] = true ∧ useless (.char .backline) = true := by
  refine ⟨?_, by decide +kernel⟩
  intro p hp
  simp only [List.mem_cons, List.not_mem_nil, or_false] at hp
  have : ∀ p ∈ [(arraySource, "var R=['ab',\"x\",\"abcdefghijkl\"];f(R[2],R[0])+R[2]-y;g(7)"),
      (newSource, "var R=[\"abcdefghijkl\",\"abcdefghijkm\"];;f(x?R[0]:'ab','ab')+R[0] in y;g(7,R[1]+R[1])")],
      Closed p.1.toList ∧ Safe (lex p.1.toList) ∧ LooseArray (strip (lex p.1.toList)) ∧
      ((lex p.1.toList).all fun l => match l with
        | .str s => !sameContent (lex p.1.toList) s || quotable (content s)
        | _ => true) = true ∧
      arrayText p.1.toList ['R'] (some (.char .backline)) (fun _ => true) = .ok p.2.toList := by
    unfold Closed Safe LooseArray
    decide +kernel
  obtain ⟨h1, h2, h3, h4, h5⟩ := this p (by simpa using hp)
  refine ⟨h1, h2, h3, fun s hs hc => ?_, h5⟩
  have := List.all_eq_true.1 h4 (.str s) hs
  simpa [hc] using this

end Verif.Js
