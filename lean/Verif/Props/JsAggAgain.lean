import Verif.Props.JsAggText
import Verif.Props.JsArrText
import Verif.Proofs.JsAggReread
import Verif.Proofs.JsSize
/-!
# A second aggregation of the strings of a written script (C87)
-/
set_option linter.unusedSimpArgs false
namespace Verif.Js
open Spec.Js Spec.JsAgg

/-- The full statement: if the strings of a script are aggregated and it is written, then doing it again gives the same text. -/
def C87_full : Prop := ∀ s one : List Char, Closed s → Safe (lex s) → cleanedText s = .ok one → cleanedText one = .ok one

/-- A literal that is assigned to, behind a comma, becomes a declaration, the value of which is used by the second run. -/
theorem C87_full_false : ¬C87_full := by
  intro h
  let s := "var x,'abcdefghij'='y';f('abcdefghij','y')".toList
  let one := "var r_aa='abcdefghij';var x,r_aa='y';f(r_aa,'y')".toList
  have h1 : cleanedText s = .ok one := by decide +kernel
  have h2 : cleanedText one ≠ .ok one := by decide +kernel
  exact h2 (h s one (by unfold Closed; decide +kernel) (by unfold Safe; decide +kernel) h1)

/-- No literal is followed by an equals sign. -/
def NoLiteralAssigned (ls : List Lexeme) : Prop := ∀ pre t post, ls ≠ pre ++ .str t :: .punct ['='] :: post

/-- Words that begin with `r_` are assigned to behind `var`, `let` or a comma only. -/
def ReservedListed (ls : List Lexeme) : Prop := ∀ pre w post, ls = pre ++ .word w :: .punct ['='] :: post → ['r', '_'] <+: w →
  ∃ pre' l, pre = pre' ++ [l] ∧ (l = .punct [','] ∨ l = .word "let".toList ∨ l = .word "var".toList)

/-- What may be written in the place of a lexeme. -/
private def Puts (rep : List Char → Bool) (l : Lexeme) (t : Token) : Prop :=
  t = tokOf l ∨ ∃ s n, l = .str s ∧ rep s = true ∧ Name n ∧ (t = .createdVar n ∨ t = .other n)

private theorem readTok_tokOf {l : Lexeme} (hl : isOpen l = false ∧ ∃ v, LexOk v l) : readTok (tokOf l) = tokOf l := by
  obtain ⟨ho, v, hv⟩ := hl
  cases l with
  | word w =>
    have hw : WordOk w := hv
    show readTok (wordToken w) = wordToken w
    rcases word_cases hw.noSign with ⟨-, k, h, -⟩ | ⟨-, -, h⟩ | ⟨-, -, -, h⟩ | ⟨-, -, -, h⟩ <;> rw [h] <;> rfl
  | punct t =>
    have hs : ∀ t ∈ puncts, readTok (tokOf (.punct t)) = tokOf (.punct t) := by decide +kernel
    exact hs t hv
  | _ => first | rfl | cases ho

private theorem body_read {rep : List Char → Bool} {src : List Lexeme} {X : List Token} (h : Pointwise (Puts rep) src X)
    (hsol : ∀ l ∈ src, Solid l) :
    ∃ B : List Group, X = B.map Prod.fst ∧ Body false freeAfter rep src B ∧
      ((B.flatMap Prod.snd).map shorten).map tokOf = X.map readTok ∧
      (((B.flatMap Prod.snd).map shorten).head? = some (.punct [';']) → src.head? = some (.punct [';'])) := by
  induction h with
  | nil => exact ⟨[], rfl, .nil, rfl, id⟩
  | @cons l t src X hp _ ih =>
    obtain ⟨B, rfl, hb, hr, -⟩ := ih fun l hl => hsol l (List.mem_cons_of_mem _ hl)
    rcases hp with rfl | ⟨s, n, rfl, h1, h2, h3⟩
    · refine ⟨(tokOf l, [l]) :: B, rfl, .keep hb, ?_, ?_⟩
      all_goals have hl := hsol l List.mem_cons_self
      · simp only [List.flatMap_cons, List.map_append, List.map_cons, List.map_nil, hr, tokOf_shorten hl, readTok_tokOf ⟨hl.1, hl.2.2⟩, List.cons_append,
          List.nil_append]
      · simp only [List.flatMap_cons, List.map_append, List.map_cons, List.map_nil, List.cons_append, List.head?_cons, Option.some.injEq]
        intro h
        cases l with
        | word w => simp only [Spec.Js.shorten] at h; split at h <;> cases h
        | punct t => exact h
        | _ => cases h
    · refine ⟨(t, [.word n]) :: B, rfl, .new h1 ?_ hb, ?_, ?_⟩
      · rcases h3 with rfl | rfl
        · exact .var h2 fun _ h => h
        · exact .old h2
      · simp only [List.flatMap_cons, List.map_append, List.map_cons, List.map_nil, hr, h2.shorten, h2.token, List.cons_append,
          List.nil_append]
        rcases h3 with rfl | rfl <;> rfl
      · simp only [List.flatMap_cons, List.map_append, List.map_cons, List.map_nil, List.cons_append, List.head?_cons, h2.shorten]
        intro h
        cases h

private theorem tokens_assign : ∀ (p : List Char × List Char) (D : List (List Char × List Char)), (∀ q ∈ p :: D, Name q.2) →
    (assignments (p :: D)).map tokOf = .other p.2 :: .op .equal :: .str p.1 :: moreRead D
  | (s, n), [], h => by
    have := (h _ List.mem_cons_self).token
    simp only [assignments, List.map_cons, List.map_nil, this, moreRead, List.flatMap_nil]
    rfl
  | (s, n), q :: D, h => by
    have h1 := (h _ List.mem_cons_self).token
    have ih := tokens_assign q D fun x hx => h x (List.mem_cons_of_mem _ hx)
    simp only [assignments, List.map_cons, h1, ih]
    rfl

private theorem tokens_prelude {D : List (List Char × List Char)} (h : ∀ q ∈ D, Name q.2) : (prelude D).map tokOf = declareRead D := by
  cases D with
  | nil => rfl
  | cons p D =>
    obtain ⟨s, n⟩ := p
    have hv : tokOf (.word "var".toList) = .keyword .kVar := by decide +kernel
    have hs : tokOf (.punct [';']) = .char .semiColon := by decide +kernel
    simp only [prelude, List.map_cons, List.map_append, tokens_assign _ D h, List.map_nil, hv, hs, declareRead, List.cons_append]

private theorem tok_get {us : List Lexeme} (i : Nat) (t : Token) (h : (us.map tokOf)[i]? = some t) : ∃ l, us[i]? = some l ∧ tokOf l = t := by
  rw [List.getElem?_map] at h
  cases hl : us[i]? with
  | none => rw [hl] at h; cases h
  | some l => rw [hl] at h; cases h; exact ⟨l, rfl, rfl⟩

private theorem split_at2 {us : List Lexeme} {i : Nat} {l1 l2 : Lexeme} (e1 : us[i]? = some l1) (e2 : us[i + 1]? = some l2) :
    us = us.take i ++ l1 :: l2 :: us.drop (i + 2) := by
  obtain ⟨i1, i2⟩ := List.getElem?_eq_some_iff.1 e1
  obtain ⟨j1, j2⟩ := List.getElem?_eq_some_iff.1 e2
  have d1 := List.drop_eq_getElem_cons i1
  have d2 := List.drop_eq_getElem_cons j1
  rw [i2] at d1; rw [j2] at d2
  rw [← d2, ← d1, List.take_append_drop]

private theorem onlyListed_tokens {us : List Lexeme} (hu : ∀ l ∈ us, isOpen l = false ∧ ∃ v, LexOk v l) (hr : ReservedListed us) :
    OnlyListed (us.map tokOf) := by
  intro i name g1 hp g2
  obtain ⟨l1, e1, f1⟩ := tok_get i _ g1
  obtain ⟨l2, e2, f2⟩ := tok_get (i + 1) _ g2
  obtain ⟨ho1, v1, hv1⟩ := hu l1 (List.mem_of_getElem? e1)
  obtain ⟨rfl, -⟩ := tokOf_other ho1 hv1 f1
  obtain ⟨ho, v, hv⟩ := hu l2 (List.mem_of_getElem? e2)
  obtain rfl := tokOf_equal ho hv f2
  obtain ⟨pre', l, hpre, hl⟩ := hr _ _ _ (split_at2 e1 e2) hp
  have hi : i = pre'.length + 1 := by
    have := congrArg List.length hpre
    have hlt := (List.getElem?_eq_some_iff.1 e1).1
    simp only [List.length_take, List.length_append, List.length_cons, List.length_nil] at this
    omega
  refine ⟨pre'.length, hi, ?_⟩
  have hg : us[pre'.length]? = some l := by
    have hs := split_at2 e1 e2
    rw [hs, hpre]; simp
  rw [List.getElem?_map, hg, Option.map_some]
  rcases hl with rfl | rfl | rfl
  · exact .inl (by decide +kernel)
  · exact .inr (.inl (by decide +kernel))
  · exact .inr (.inr (by decide +kernel))

private theorem notAssigned_tokens {us : List Lexeme} (hu : ∀ l ∈ us, isOpen l = false ∧ ∃ v, LexOk v l) (ha : NoLiteralAssigned us) :
    NotAssigned (us.map tokOf) := by
  intro i t g1 g2
  obtain ⟨l1, e1, f1⟩ := tok_get i _ g1
  obtain ⟨l2, e2, f2⟩ := tok_get (i + 1) _ g2
  obtain rfl := Verif.Js.tokOf_str f1
  obtain ⟨ho, v, hv⟩ := hu l2 (List.mem_of_getElem? e2)
  obtain rfl := tokOf_equal ho hv f2
  exact ha _ t _ (split_at2 e1 e2)

private theorem filter_tokens {us : List Lexeme} (hu : ∀ l ∈ us, isOpen l = false ∧ ∃ v, LexOk v l) :
    (us.map tokOf).filter keepTok = (us.filter solid).map tokOf := by
  rw [List.filter_map]
  congr 1
  refine List.filter_congr fun l hl => ?_
  obtain ⟨ho, v, hv⟩ := hu l hl
  exact keepTok_tokOf hv ho

/-- Blanks that are no line breaks do not matter. -/
private theorem gapOk_of {ts : List Token} (h : ∀ t ∈ ts, useless t = true → gapToken t = true) : GapOk ts := by
  intro i e name _ _ _ ha _ k k1 k2
  obtain ⟨t, h1, h2⟩ := ha k k1 k2
  exact ⟨t, h1, h t (List.mem_of_getElem? h1) h2⟩

private theorem useful_tokens {us : List Lexeme} (hsol : ∀ l ∈ us, Solid l) {t : Token} (ht : t ∈ us.map tokOf) : useless t = false := by
  obtain ⟨l, hl, rfl⟩ := List.mem_map.1 ht
  obtain ⟨ho, hsl, v, hv⟩ := hsol l hl
  have h1 := keepTok_tokOf hv ho
  rw [hsl, keepTok_eq] at h1
  simpa using h1

private theorem puts_all {us : List Lexeme} (hu : ∀ l ∈ us, isOpen l = false ∧ ∃ v, LexOk v l) {vars : Vars} {D : List (List Char × List Char)}
    {body : List Token} {rep : List Char → Bool} (hrep : ∀ s, 2 ≤ us.count (.str s) → rep s = true) (hvars : VarsOk (us.map tokOf) vars)
    (hD1 : ∀ s n, (s, n) ∈ D → Name n ∧ rep s = true) (hlen : body.length = (us.map tokOf).length)
    (hbody : ∀ (i : Nat) t, (us.map tokOf)[i]? = some t → body[i]? = some (aggToken (us.map tokOf) vars D i t)) :
    Pointwise (Puts rep) us body := by
  refine pointwise_of us body (by simpa using hlen) fun i l t hl ht => ?_
  have hti : (us.map tokOf)[i]? = some (tokOf l) := by rw [List.getElem?_map, hl]; rfl
  rw [hbody i _ hti] at ht
  cases ht
  rcases read_cases (D := D) (i := i) hvars (readTok_tokOf (hu l (List.mem_of_getElem? hl))) with ⟨e, -⟩ | ⟨s, n, e, -, h⟩
  · left
    revert e
    unfold aggToken
    cases hs : (tokOf l).getStr with
    | none => intro _; rfl
    | some s =>
      simp only
      intro e
      revert e
      cases hval : vars.values s with
      | some vw =>
        simp only
        obtain ⟨n, e1, -⟩ := hvars.value s vw.1 vw.2 hval
        rw [e1]
        by_cases hw : i = vw.2
        · rw [if_pos hw]; intro _; rfl
        · rw [if_neg hw]; exact id
      | none =>
        simp only [renamed, hs]
        cases D.lookup s with
        | some n => intro e; simp only [readTok] at e; rw [← e] at hs; cases hs
        | none => intro _; rfl
  · right
    have el := Verif.Js.tokOf_str e
    subst el
    rcases h with ⟨-, hm, h⟩ | ⟨v, w, hval, hw, hv, h⟩
    · exact ⟨s, n, rfl, (hD1 s n hm).2, (hD1 s n hm).1, .inl h⟩
    · obtain ⟨n', e1, e2, -, -, e3⟩ := hvars.value s v w hval
      rw [hv] at e1
      cases e1
      have hc : 2 ≤ (us.map tokOf).count (.str s) := count_twice _ _ i w hw hti e3
      rw [count_tokOf hu] at hc
      obtain ⟨lv, c1, c2⟩ := tok_get v _ hv
      obtain ⟨hv1, vv, hv2⟩ := hu lv (List.mem_of_getElem? c1)
      obtain ⟨rfl, c3, c4, c5⟩ := tokOf_other hv1 hv2 c2
      exact ⟨s, n, rfl, hrep s hc, name_head e2 c3 c4 c5, .inr h⟩

/-- What is written and how it is read. -/
private theorem text_facts {us : List Lexeme} {rep : List Char → Bool} {D : List (List Char × List Char)} {X : List Token}
    (hsol : ∀ l ∈ us, Solid l) (hplace : Placed [] us) (hsafe : safeFrom [] (us.map shorten) = true)
    (hl : looseFrom freeAfter rep none us = true) (hD : DeclOk D) (hputs : Pointwise (Puts rep) us X)
    (hhead : D = [] → us.head? ≠ some (.punct [';'])) :
    ∃ L one, display (declare D ++ X) = one ∧ one = textOf (spaced L) ∧ lex one = spaced L ∧ (∀ l ∈ L, Solid l) ∧ L.map shorten = L ∧
      L.map tokOf = declareRead D ++ X.map readTok ∧ Closed one ∧ strip (lex one) = L := by
  obtain ⟨B, hB1, hb, hB2, hB3⟩ := body_read hputs hsol
  have hshow := agg_show hsol hl hb hD
  have hlex := agg_text freeAfter_shorten hsol hplace hsafe hl hb hD
  rw [← hB1] at hshow hlex
  generalize hL : prelude D ++ (B.flatMap Prod.snd).map shorten = L at hshow hlex
  generalize hone : display (declare D ++ X) = one at hshow hlex
  have hsolL : ∀ l ∈ L, Solid l := by
    intro l hm
    rw [← hL] at hm
    rcases List.mem_append.1 hm with hm | hm
    · exact (prelude_ok D [] hD).2.2 l hm
    · have hsol' : ∀ l ∈ us.map shorten, Solid l := by
        intro l hl
        obtain ⟨l', hl', rfl⟩ := List.mem_map.1 hl
        obtain ⟨h1, h2, v, h3⟩ := hsol l' hl'
        exact ⟨by rw [(shorten_class l').2.1, h1], by rw [(shorten_class l').1, h2], v, h3.shorten⟩
      exact hb.swap.solid hsol' l hm
  have hLs : L.map shorten = L := by
    rw [← hL, List.map_append, prelude_map D hD, List.map_map]
    congr 1
    refine List.map_congr_left fun l _ => ?_
    exact shorten_idem l
  have htok : L.map tokOf = declareRead D ++ X.map readTok := by
    rw [← hL, List.map_append, tokens_prelude fun q hq => (hD q hq).1, hB2]
  have hclosed : Closed one := by
    intro l hm
    rw [hlex] at hm
    rcases spaced_mem _ l hm with hm | rfl
    · exact (hsolL l hm).1
    · rfl
  have hstrip : strip (lex one) = L := by
    rw [strip, hlex, filter_spaced _ fun l hl => (hsolL l hl).2.1]
    cases D with
    | cons p D =>
      rw [← hL]
      exact List.dropWhile_cons_of_neg (by decide)
    | nil =>
      have e : L = (B.flatMap Prod.snd).map shorten := by rw [← hL]; rfl
      cases hL' : L with
      | nil => rfl
      | cons l L' =>
        refine List.dropWhile_cons_of_neg ?_
        intro hx
        have hx : l = .punct [';'] := by simpa using hx
        rw [e] at hL'
        have hh := hB3 (by rw [hL', hx]; rfl)
        exact hhead rfl hh
  exact ⟨L, one, rfl, hshow, hlex, hsolL, hLs, htok, hclosed, hstrip⟩

private theorem head_semis : ∀ ls : List Lexeme, (ls.dropWhile (· == .punct [';'])).head? ≠ some (.punct [';'])
  | [] => by simp
  | l :: ls => by
    rw [List.dropWhile_cons]
    split
    · exact head_semis ls
    · next h => intro e; cases e; exact h (by decide)

/-- What is proved: if no literal that occurs more than once is next to a word, see C72, words that begin with `r_` are only assigned to where
they are declared, and no literal is assigned to, then the text with the aggregated strings is not changed by another run, and not by
`minify`. There is no bound on the number of literals as in C84, because the new names are found in the text. What is missing are the other
assignments to words that begin with `r_`, and literals next to words or assigned to, for which it can be false by `C87_full_false`. -/
theorem C87_text_partial (s : List Char) (h : Closed s) (hs : Safe (lex s)) (hl : Loose (strip (lex s)))
    (hr : ReservedListed (strip (lex s))) (ha : NoLiteralAssigned (strip (lex s))) :
    ∃ one, cleanedText s = .ok one ∧ cleanedText one = .ok one ∧ minify one = .ok one := by
  obtain ⟨us, hus⟩ : ∃ us, us = strip (lex s) := ⟨_, rfl⟩
  rw [← hus] at hl hr ha
  have hsol : ∀ l ∈ us, Solid l := by rw [hus]; exact strip_solid (closed_lex h)
  have hu : ∀ l ∈ us, isOpen l = false ∧ ∃ v, LexOk v l := fun l hl => ⟨(hsol l hl).1, (hsol l hl).2.2⟩
  have hplace : Placed [] us := by
    rw [hus]; exact Placed.dropSemi _ [] rfl (Placed.filter _ [] [] rfl (placed_lex s))
  have hsafe : safeFrom [] (us.map shorten) = true := by rw [hus]; exact hs
  have hfu : (us.map tokOf).filter keepTok = us.map tokOf := by
    rw [filter_tokens hu, List.filter_eq_self.2 fun l hl => (hsol l hl).2.1]
  have gap : ∀ {ts : List Token}, (∀ t ∈ ts, useless t = false) → GapOk ts := fun h =>
    gapOk_of fun t ht e => by rw [h t ht] at e; cases e
  obtain ⟨vars, D, body, hvars, h1, h2, hlen, hbody, h3⟩ := aggregate_reread (us.map tokOf) none
    (by rw [hfu]; exact onlyListed_tokens hu hr) (gap fun t ht => useful_tokens hsol ht)
    (fun t ht => by
      obtain ⟨l, hl, rfl⟩ := List.mem_map.1 ht
      exact readTok_tokOf (hu l hl))
    (by rw [hfu]; exact notAssigned_tokens hu ha)
  simp only [Option.toList_none, List.append_nil] at h1
  have hrep : ∀ s, 2 ≤ us.count (.str s) → repeated us s = true := fun s h => by simp [repeated, h]
  have hD1 : ∀ s n, (s, n) ∈ D → Name n ∧ repeated us s = true := by
    intro s n hm
    obtain ⟨g1, g2⟩ := h2 s n hm
    rw [count_tokOf hu] at g2
    exact ⟨name_gen g1, hrep s g2⟩
  have hD : DeclOk D := by
    rintro ⟨s, n⟩ hm
    refine ⟨(hD1 s n hm).1, hsol _ ?_⟩
    have := (h2 s n hm).2
    rw [count_tokOf hu] at this
    exact List.count_pos_iff.1 (Nat.lt_of_lt_of_le (by decide) this)
  have hputs := puts_all hu hrep hvars hD1 hlen hbody
  obtain ⟨L, one, hone, hshow, hlex, hsolL, hLs, htok, hclosed, hstrip⟩ := text_facts hsol hplace hsafe hl hD hputs
    (fun _ => by rw [hus]; exact head_semis _)
  have h4 : aggregateStrings (L.map tokOf) none = .ok (L.map tokOf) := by
    have hfL : (L.map tokOf).filter keepTok = L.map tokOf := by
      rw [filter_tokens fun l hl => ⟨(hsolL l hl).1, (hsolL l hl).2.2⟩, List.filter_eq_self.2 fun l hl => (hsolL l hl).2.1]
    refine h3 (L.map tokOf) [] (body.map readTok) none (by simp) ?_ (by rw [hfL, htok]) (gap fun t ht => useful_tokens hsolL ht)
    refine List.filter_eq_self.2 fun t ht => ?_
    have : t ∈ L.map tokOf := by rw [htok]; exact List.mem_append_right _ ht
    rw [keepTok_eq, useful_tokens hsolL this]; rfl
  refine ⟨one, ?_, ?_, ?_⟩
  · unfold cleanedText
    rw [tokenize_closed h]
    simp only [Out.bind_ok, clean_strip (closed_lex h), ← hus, h1, hone]
  · unfold cleanedText
    rw [tokenize_closed hclosed]
    simp only [Out.bind_ok, clean_strip (closed_lex hclosed), hstrip, h4]
    rw [display_eq hsolL, hLs, ← hshow]
  · rw [minify_closed hclosed, minimal, hstrip, hLs, ← hshow]

/-! ## Tokens that are cleaned after -/

/-- There is no line break between a word that begins with `r_` and an equals sign. -/
def NoBreak (ls : List Lexeme) : Prop := ∀ pre w gap post, ls = pre ++ .word w :: (gap ++ .punct ['='] :: post) → ['r', '_'] <+: w →
  (∀ l ∈ gap, solid l = false) → .blank '\n' ∉ gap

private theorem reserved_semis : ∀ ls : List Lexeme, ReservedListed (ls.dropWhile (· == .punct [';'])) → ReservedListed ls
  | [], h => h
  | l :: ls, h => by
    rw [List.dropWhile_cons] at h
    split at h
    · next hl =>
      have hl : l = .punct [';'] := by simpa using hl
      subst hl
      intro pre w post e hp
      cases pre with
      | nil => cases e
      | cons a pre =>
        cases e
        obtain ⟨pre', l, rfl, h2⟩ := reserved_semis _ h pre w post rfl hp
        exact ⟨_ :: pre', l, rfl, h2⟩
    · exact h

private theorem assigned_semis : ∀ ls : List Lexeme, NoLiteralAssigned (ls.dropWhile (· == .punct [';'])) → NoLiteralAssigned ls
  | [], h => h
  | l :: ls, h => by
    rw [List.dropWhile_cons] at h
    split at h
    · next hl =>
      have hl : l = .punct [';'] := by simpa using hl
      subst hl
      intro pre t post e
      cases pre with
      | nil => cases e
      | cons a pre =>
        cases e
        exact assigned_semis _ h pre t post rfl
    · exact h

private theorem gap_lexeme {l : Lexeme} (hl : isOpen l = false ∧ ∃ v, LexOk v l) (hn : l ≠ .blank '\n') (h : useless (tokOf l) = true) :
    gapToken (tokOf l) = true := by
  obtain ⟨ho, v, hv⟩ := hl
  have h1 := keepTok_tokOf hv ho
  rw [keepTok_eq, h] at h1
  cases l with
  | blank c =>
    have hb : isBlank c = true ∧ c ≠ '\r' := hv
    have : c = ' ' ∨ c = '\t' := by
      have hne : c ≠ '\n' := fun e => hn (by rw [e])
      simpa [isBlank, hne, hb.2] using hb.1
    rcases this with rfl | rfl <;> rfl
  | comment b => rfl
  | _ => cases h1

/-- Line breaks among lexemes and tokens. -/
private theorem gapOk_tokens {ls : List Lexeme} (hu : ∀ l ∈ ls, isOpen l = false ∧ ∃ v, LexOk v l) (hg : NoBreak ls) : GapOk (ls.map tokOf) := by
  intro i e name g1 hp hie hall g2 k k1 k2
  obtain ⟨l1, e1, f1⟩ := tok_get i _ g1
  obtain ⟨l2, e2, f2⟩ := tok_get e _ g2
  obtain ⟨ho1, v1, hv1⟩ := hu l1 (List.mem_of_getElem? e1)
  obtain ⟨rfl, -⟩ := tokOf_other ho1 hv1 f1
  obtain ⟨ho, v, hv⟩ := hu l2 (List.mem_of_getElem? e2)
  obtain rfl := tokOf_equal ho hv f2
  obtain ⟨t, a1, a2⟩ := hall k k1 k2
  obtain ⟨l, c1, rfl⟩ := tok_get k _ a1
  refine ⟨_, a1, gap_lexeme (hu l (List.mem_of_getElem? c1)) ?_ a2⟩
  have hsplit : ls = ls.take i ++ .word name :: ((ls.drop (i + 1)).take (e - (i + 1)) ++ .punct ['='] :: ls.drop (e + 1)) := by
    obtain ⟨i1, i2⟩ := List.getElem?_eq_some_iff.1 e1
    obtain ⟨j1, j2⟩ := List.getElem?_eq_some_iff.1 e2
    have d1 := List.drop_eq_getElem_cons i1
    have d2 := List.drop_eq_getElem_cons j1
    rw [i2] at d1; rw [j2] at d2
    have d3 : ls.drop e = (ls.drop (i + 1)).drop (e - (i + 1)) := by rw [List.drop_drop]; congr 1; omega
    rw [← d2, d3, List.take_append_drop, ← d1, List.take_append_drop]
  have hin : ∀ k', i + 1 ≤ k' → k' < e → ∀ l', ls[k']? = some l' → l' ∈ (ls.drop (i + 1)).take (e - (i + 1)) := by
    intro k' h1 h2 l' h3
    refine List.mem_of_getElem? (i := k' - (i + 1)) ?_
    rw [List.getElem?_take_of_lt (by omega), List.getElem?_drop, ← h3]
    congr 1; omega
  have hno := hg _ _ _ _ hsplit hp (by
    intro l' hm
    obtain ⟨m, hm⟩ := List.getElem?_of_mem hm
    rw [List.getElem?_take] at hm
    split at hm
    · next hlt =>
      rw [List.getElem?_drop] at hm
      obtain ⟨t', b1, b2⟩ := hall (i + 1 + m) (by omega) (by omega)
      rw [List.getElem?_map, hm] at b1
      cases b1
      obtain ⟨ho', v', hv'⟩ := hu l' (List.mem_of_getElem? hm)
      rw [← keepTok_tokOf hv' ho', keepTok_eq, b2]; rfl
    · cases hm)
  intro e0
  rw [e0] at c1
  exact hno (hin k k1 k2 _ c1)

private theorem puts_keep {rep : List Char → Bool} {l : Lexeme} {t : Token} (hl : isOpen l = false ∧ ∃ v, LexOk v l) (h : Puts rep l t) :
    keepTok t = solid l := by
  obtain ⟨ho, v, hv⟩ := hl
  rcases h with rfl | ⟨s, n, rfl, -, -, rfl | rfl⟩
  · exact keepTok_tokOf hv ho
  · rfl
  · rfl

private theorem puts_semi {rep : List Char → Bool} {l : Lexeme} {t : Token} (hl : Solid l) (h : Puts rep l t) :
    (t == .char .semiColon) = (l == .punct [';']) := by
  rcases h with rfl | ⟨s, n, rfl, -, -, rfl | rfl⟩
  · exact tokOf_semi hl
  · rfl
  · rfl

private theorem takeWhile_semis (F : List Token) : ∃ S, (∀ t ∈ S, t = .char .semiColon) ∧ F = S ++ F.dropWhile (· == .char .semiColon) := by
  refine ⟨F.takeWhile (· == .char .semiColon), fun t ht => ?_, List.takeWhile_append_dropWhile.symm⟩
  have := List.all_eq_true.1 List.all_takeWhile t ht
  simpa using this

private theorem keep_readTok (t : Token) : keepTok (readTok t) = keepTok t := by cases t <;> rfl

/-- The same if the tokens are cleaned after the strings have been aggregated, as in the documentation, and with any separation that is
cleaned away, if there is no line break between a word that begins with `r_` and an equals sign, see `C87_aggregated_false`. -/
theorem C87_aggregated_partial (s : List Char) (sep sep' : Option Token) (h : Closed s) (hs : Safe (lex s)) (hl : Loose (strip (lex s)))
    (hr : ReservedListed (strip (lex s))) (ha : NoLiteralAssigned (strip (lex s))) (hg : NoBreak (lex s))
    (hsep : ∀ t, sep = some t → useless t = true) (hsep' : ∀ t, sep' = some t → useless t = true) :
    ∃ one, aggregatedText s sep = .ok one ∧ aggregatedText one sep' = .ok one ∧ minify one = .ok one := by
  have hu := closed_lex h
  have hfs : ∀ l ∈ (lex s).filter solid, Solid l := by
    intro l hm
    obtain ⟨h1, h2⟩ := List.mem_filter.1 hm
    exact ⟨(hu l h1).1, h2, (hu l h1).2⟩
  have hfu : ∀ l ∈ (lex s).filter solid, isOpen l = false ∧ ∃ v, LexOk v l := fun l hl => ⟨(hfs l hl).1, (hfs l hl).2.2⟩
  obtain ⟨vars, D, body, hvars, h1, h2, hlen, hbody, h3⟩ := aggregate_reread ((lex s).map tokOf) sep
    (by rw [filter_tokens hu]; exact onlyListed_tokens hfu (reserved_semis _ hr)) (gapOk_tokens hu hg)
    (fun t ht => by
      obtain ⟨l, hl, rfl⟩ := List.mem_map.1 ht
      exact readTok_tokOf (hu l hl))
    (by rw [filter_tokens hu]; exact notAssigned_tokens hfu (assigned_semis _ ha))
  have hrep : ∀ x, 2 ≤ (lex s).count (.str x) → repeated (strip (lex s)) x = true := fun x h => loose_rep h
  have hD1 : ∀ x n, (x, n) ∈ D → Name n ∧ repeated (strip (lex s)) x = true := by
    intro x n hm
    obtain ⟨g1, g2⟩ := h2 x n hm
    rw [count_tokOf hu] at g2
    exact ⟨name_gen g1, hrep x g2⟩
  have hD : DeclOk D := by
    rintro ⟨x, n⟩ hm
    have := (h2 x n hm).2
    rw [count_tokOf hu] at this
    have hm2 : Lexeme.str x ∈ lex s := List.count_pos_iff.1 (Nat.lt_of_lt_of_le (by decide) this)
    exact ⟨(hD1 x n hm).1, (hu _ hm2).1, rfl, (hu _ hm2).2⟩
  have hputs := pointwise_filter (puts_all hu hrep hvars hD1 hlen hbody) fun l hl t ht => puts_keep (hu l hl) ht
  have hnosep : ∀ x : Option Token, (∀ t, x = some t → useless t = true) → x.toList.filter keepTok = [] := by
    intro x hx
    cases x with
    | none => rfl
    | some t => simp [keepTok_eq, hx t rfl]
  have hp1 := Placed.filter (lex s) [] [] rfl (placed_lex s)
  -- what is kept
  obtain ⟨us, X, hX1, hX2, hX3, hsol, hplace, hsafe, hloose, hhead⟩ : ∃ (us : List Lexeme) (X : List Token),
      cleanTokens (declare D ++ sep.toList ++ body) = declare D ++ X ∧ Pointwise (Puts (repeated (strip (lex s)))) us X ∧
      (∃ S, (∀ t ∈ S, t = .char .semiColon) ∧ body.filter keepTok = S ++ X) ∧ (∀ l ∈ us, Solid l) ∧ Placed [] us ∧
      safeFrom [] (us.map shorten) = true ∧ looseFrom freeAfter (repeated (strip (lex s))) none us = true ∧
      (D = [] → us.head? ≠ some (.punct [';'])) := by
    have hfilter : (declare D ++ sep.toList ++ body).filter keepTok = declare D ++ body.filter keepTok := by
      rw [List.filter_append, List.filter_append, hnosep sep hsep, declare_keep, List.append_nil]
    rw [cleanTokens_eq, hfilter]
    cases D with
    | nil =>
      refine ⟨strip (lex s), _, rfl, ?_, takeWhile_semis _, strip_solid hu, Placed.dropSemi _ [] rfl hp1, hs, hl, fun _ => head_semis _⟩
      exact pointwise_dropWhile hputs fun l hl t ht => puts_semi (hfs l hl) ht
    | cons p D =>
      obtain ⟨a, b⟩ := p
      refine ⟨(lex s).filter solid, body.filter keepTok, ?_, hputs, ⟨[], by simp, rfl⟩, hfs, hp1, safe_semis _ hs, loose_semis _ hl, fun h => by cases h⟩
      simp only [declare, List.cons_append]
      rw [List.dropWhile_cons_of_neg (by decide)]
  obtain ⟨L, one, hone, hshow, hlex, hsolL, hLs, htok, hclosed, hstrip⟩ := text_facts hsol hplace hsafe hloose hD hX2 hhead
  have hbl : ∀ l ∈ lex one, l ≠ .blank '\n' := by
    intro l hm e
    rw [hlex] at hm
    rcases spaced_mem _ l hm with hm | e'
    · have := (hsolL l hm).2.1
      rw [e] at this; cases this
    · rw [e] at e'; cases e'
  have h4 : aggregateStrings ((lex one).map tokOf) sep' = .ok (sep'.toList ++ (lex one).map tokOf) := by
    obtain ⟨S, hS, hSX⟩ := hX3
    refine h3 _ S (X.map readTok) sep' hS ?_ ?_ (gapOk_of fun t ht e => ?_)
    · rw [List.filter_map]
      have : keepTok ∘ readTok = keepTok := funext keep_readTok
      rw [this, hSX, List.map_append]
      congr 1
      conv => rhs; rw [← List.map_id S]
      refine List.map_congr_left fun t ht => ?_
      rw [hS t ht]; rfl
    · rw [filter_tokens (closed_lex hclosed), hlex, filter_spaced _ fun l hl => (hsolL l hl).2.1, htok]
    · obtain ⟨l, hl, rfl⟩ := List.mem_map.1 ht
      exact gap_lexeme (closed_lex hclosed l hl) (hbl l hl) e
  refine ⟨one, ?_, ?_, ?_⟩
  · unfold aggregatedText
    rw [tokenize_closed h]
    simp only [Out.bind_ok, h1, hX1, hone]
  · unfold aggregatedText
    rw [tokenize_closed hclosed]
    simp only [Out.bind_ok, h4]
    have hcl : cleanTokens (sep'.toList ++ (lex one).map tokOf) = cleanTokens ((lex one).map tokOf) := by
      rw [cleanTokens_eq, cleanTokens_eq, List.filter_append, hnosep sep' hsep', List.nil_append]
    rw [hcl, clean_strip (closed_lex hclosed), hstrip, display_eq hsolL, hLs, ← hshow]
  · rw [minify_closed hclosed, minimal, hstrip, hLs, ← hshow]

private theorem noLiteralAssigned_of {ls : List Lexeme}
    (h : ((ls.zip ls.tail).all fun p => match p with | (.str _, .punct ['=']) => false | _ => true) = true) : NoLiteralAssigned ls := by
  intro pre t post e
  have hm : (Lexeme.str t, Lexeme.punct ['=']) ∈ ls.zip ls.tail := by
    refine List.mem_of_getElem? (i := pre.length) (List.getElem?_zip_eq_some.2 ⟨?_, ?_⟩)
    · rw [e]; simp
    · rw [List.getElem?_tail, e]; simp
  exact absurd (List.all_eq_true.1 h _ hm) (by simp)

private def startsList (l : Lexeme) : Bool := l == .punct [','] || l == .word "let".toList || l == .word "var".toList

private def isReserved : Lexeme → Bool
  | .word w => ['r', '_'].isPrefixOf w
  | _ => false

private def listedFrom : Bool → List Lexeme → Bool
  | _, [] => true
  | b, l :: ls => (b || !(isReserved l && ls.head? == some (.punct ['=']))) && listedFrom (startsList l) ls

private theorem listedFrom_spec : ∀ {ls : List Lexeme} {b : Bool}, listedFrom b ls = true → ∀ pre w post,
    ls = pre ++ .word w :: .punct ['='] :: post → ['r', '_'] <+: w →
    (pre = [] ∧ b = true) ∨ ∃ pre' l, pre = pre' ++ [l] ∧ startsList l = true
  | ls, b, h, [], w, post, e, hp => by
    subst e
    have hw : isReserved (.word w) = true := List.isPrefixOf_iff_prefix.2 hp
    simp only [List.nil_append, listedFrom, hw, List.head?_cons, Bool.and_eq_true] at h
    refine .inl ⟨rfl, ?_⟩
    simpa using h.1
  | ls, b, h, l :: pre, w, post, e, hp => by
    subst e
    simp only [List.cons_append, listedFrom, Bool.and_eq_true] at h
    right
    rcases listedFrom_spec h.2 pre w post rfl hp with ⟨rfl, h'⟩ | ⟨pre', l', rfl, h'⟩
    · exact ⟨[], l, rfl, h'⟩
    · exact ⟨l :: pre', l', rfl, h'⟩

private theorem reservedListed_of {ls : List Lexeme} (h : listedFrom false ls = true) : ReservedListed ls := by
  intro pre w post e hp
  rcases listedFrom_spec h pre w post e hp with ⟨-, h⟩ | ⟨pre', l, h1, h2⟩
  · cases h
  · refine ⟨pre', l, h1, ?_⟩
    simpa [startsList, or_assoc] using h2

/-- The hypotheses are met by a script in which one literal has a name, another one is given a name, and a third one, seen twice too, is
not. -/
example : let s := "; let r_aa = 'mnopqrstuvwx'; f( 'abcdefghijkl', 007 ) ; // c\n if('abcdefghijkl' in x)g('ab','ab','mnopqrstuvwx')".toList
    Closed s ∧ Safe (lex s) ∧ Loose (strip (lex s)) ∧ ReservedListed (strip (lex s)) ∧ NoLiteralAssigned (strip (lex s)) ∧
      cleanedText s = .ok "var r_ba='abcdefghijkl';let r_aa='mnopqrstuvwx';f(r_ba,7);if(r_ba in x)g('ab','ab',r_aa)".toList := by
  refine ⟨by unfold Closed; decide +kernel, by unfold Safe; decide +kernel, by unfold Loose; decide +kernel,
    reservedListed_of (by decide +kernel), noLiteralAssigned_of (by decide +kernel), by decide +kernel⟩

/-- With a line break before the equals sign the first run does not see the declaration. -/
theorem C87_aggregated_false :
    ¬∀ s one : List Char, Closed s → Safe (lex s) → Loose (strip (lex s)) → ReservedListed (strip (lex s)) → NoLiteralAssigned (strip (lex s)) →
      aggregatedText s none = .ok one → aggregatedText one none = .ok one := by
  intro h
  let s := "var r_x\n='lit';f('lit')".toList
  let one := "var r_x='lit';f('lit')".toList
  have h1 : aggregatedText s none = .ok one := by decide +kernel
  have h2 : aggregatedText one none = .ok "var r_x='lit';f(r_x)".toList := by decide +kernel
  have h3 := h s one (by unfold Closed; decide +kernel) (by unfold Safe; decide +kernel) (by unfold Loose; decide +kernel)
    (reservedListed_of (by decide +kernel)) (noLiteralAssigned_of (by decide +kernel)) h1
  rw [h2] at h3
  exact absurd h3 (by decide +kernel)

/-- A line break that matters: 1 after a word that begins with `r_`, 2 after a line break behind it. -/
private def breakFrom : Nat → List Lexeme → Bool
  | _, [] => true
  | n, l :: ls =>
    if solid l then !(n == 2 && l == .punct ['=']) && breakFrom (if isReserved l then 1 else 0) ls
    else breakFrom (if n ≠ 0 && l == .blank '\n' then 2 else n) ls

private theorem breakFrom_two : ∀ (gap post : List Lexeme), (∀ l ∈ gap, solid l = false) → breakFrom 2 (gap ++ .punct ['='] :: post) = false
  | [], post, _ => by simp [breakFrom, solid]
  | l :: gap, post, h => by
    rw [List.cons_append, breakFrom, h l List.mem_cons_self]
    have := breakFrom_two gap post fun l hl => h l (List.mem_cons_of_mem _ hl)
    simpa using this

private theorem breakFrom_one : ∀ (gap post : List Lexeme), (∀ l ∈ gap, solid l = false) → .blank '\n' ∈ gap →
    breakFrom 1 (gap ++ .punct ['='] :: post) = false
  | [], _, _, h => by cases h
  | l :: gap, post, h, hm => by
    rw [List.cons_append, breakFrom, h l List.mem_cons_self]
    have h' : ∀ l ∈ gap, solid l = false := fun l hl => h l (List.mem_cons_of_mem _ hl)
    by_cases hl : l = .blank '\n'
    · subst hl
      simpa using breakFrom_two gap post h'
    · have hm' : .blank '\n' ∈ gap := by
        rcases List.mem_cons.1 hm with e | e
        · exact absurd e.symm hl
        · exact e
      simpa [hl] using breakFrom_one gap post h' hm'

private theorem noBreak_of : ∀ {n : Nat} {ls : List Lexeme}, breakFrom n ls = true → NoBreak ls
  | n, [], _, pre, w, gap, post, e, _, _ => by simp at e
  | n, l :: ls, h, [], w, gap, post, e, hp, hg => by
    cases e
    have hw : isReserved (.word w) = true := List.isPrefixOf_iff_prefix.2 hp
    intro hm
    have hsw : solid (.word w) = true := rfl
    rw [breakFrom, hsw] at h
    simp only [if_true, hw, breakFrom_one gap post hg hm, Bool.and_false] at h
    cases h
  | n, l :: ls, h, a :: pre, w, gap, post, e, hp, hg => by
    cases e
    rw [breakFrom] at h
    split at h
    · simp only [Bool.and_eq_true] at h
      exact noBreak_of h.2 pre w gap post rfl hp hg
    · exact noBreak_of h pre w gap post rfl hp hg

/-- The hypotheses are met by a script with line breaks, a name that was declared and a new one. -/
example : let s := "; let r_aa\t= \n'mnopqrstuvwx'\n; f( 'abcdefghijkl', 007 ) ; // c\n if('abcdefghijkl' in x)g('ab','ab','mnopqrstuvwx')".toList
    Closed s ∧ Safe (lex s) ∧ Loose (strip (lex s)) ∧ ReservedListed (strip (lex s)) ∧ NoLiteralAssigned (strip (lex s)) ∧ NoBreak (lex s) ∧
      aggregatedText s (some (.char .backline)) =
        .ok "var r_ba='abcdefghijkl';;let r_aa='mnopqrstuvwx';f(r_ba,7);if(r_ba in x)g('ab','ab',r_aa)".toList := by
  refine ⟨by unfold Closed; decide +kernel, by unfold Safe; decide +kernel, by unfold Loose; decide +kernel,
    reservedListed_of (by decide +kernel), noLiteralAssigned_of (by decide +kernel), noBreak_of (n := 0) (by decide +kernel), by decide +kernel⟩

end Verif.Js
