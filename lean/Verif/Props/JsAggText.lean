import Verif.Props.JsAgg
import Verif.Props.JsMinify
import Verif.Proofs.JsAggShow
/-!
# C72: the written text of a script with aggregated strings
-/
set_option linter.unusedSimpArgs false
namespace Verif.Js
open Spec.Js Spec.JsAgg

/-- A script is tokenized, its strings are aggregated, the tokens are cleaned and written: the use that the documentation of
`aggregate_strings` and `aggregate_strings_with_separation` shows, src/js/tools.rs:339-350 and 364-384. -/
def aggregatedText (s : List Char) (sep : Option Token) : Out (List Char) := do
  let ts ← tokenize s
  let ts ← aggregateStrings ts sep
  .ok (display (cleanTokens ts))

/-- The same for tokens that are cleaned first. -/
def cleanedText (s : List Char) : Out (List Char) := do
  let ts ← tokenize s
  let ts ← aggregateStrings (cleanTokens ts) none
  .ok (display ts)

/-! ## Tokens and lexemes -/

private theorem tokOf_str {l : Lexeme} {v : List Lexeme} (ho : isOpen l = false) (h : LexOk v l) {s : List Char} (e : tokOf l = .str s) :
    l = .str s := by
  cases l with
  | word w =>
    have := (word_shape h).2.2.2.2.1
    have e' : wordToken w = .str s := e
    rw [e'] at this; cases this
  | punct t =>
    have := (punct_shape t h).2.2.2.1
    rw [e] at this; cases this
  | str t => cases e; rfl
  | _ => first | (cases ho; done) | (cases e; done)

theorem tokOf_other {l : Lexeme} {v : List Lexeme} (ho : isOpen l = false) (h : LexOk v l) {n : List Char} (e : tokOf l = .other n) :
    l = .word n ∧ WordOk n ∧ n ∉ keywords ∧ isName n = true := by
  cases l with
  | word w =>
    have e' : wordToken w = .other n := e
    have hw : WordOk w := h
    rcases word_cases hw.noSign with ⟨h1, k, h2, h3⟩ | ⟨h1, h2, h3⟩ | ⟨h1, h2, h3, h4⟩ | ⟨h1, h2, h3, h4⟩
    · rw [h2] at e'; cases e'
    · rw [h3] at e'; cases e'
    · rw [h4] at e'; cases e'
    · rw [h4] at e'
      cases e'
      exact ⟨rfl, hw, h1, by simp [isName, h2, h3]⟩
  | punct t =>
    have := (punct_shape t h).2.2.2.2.2.1
    rw [e] at this; cases this
  | _ => first | (cases ho; done) | (cases e; done)

theorem tokOf_equal {l : Lexeme} {v : List Lexeme} (ho : isOpen l = false) (h : LexOk v l) (e : tokOf l = .op .equal) :
    l = .punct ['='] := by
  cases l with
  | word w =>
    have e' : wordToken w = .op .equal := e
    have hw : WordOk w := h
    have := (word_shape hw).2.2.2.2.2.1
    rw [e'] at this; cases this
  | punct t =>
    have hs : ∀ t ∈ puncts, tokOf (.punct t) = .op .equal → t = ['='] := by decide +kernel
    rw [hs t h e]
  | _ => first | (cases ho; done) | (cases e; done)

private theorem not_solid {l : Lexeme} {v : List Lexeme} (ho : isOpen l = false) (h : LexOk v l) (e : useless (tokOf l) = true) :
    solid l = false := by
  have h1 := keepTok_tokOf h ho
  have h2 : keepTok (tokOf l) = !useless (tokOf l) := by
    generalize tokOf l = t
    cases t with
    | char c => cases c <;> rfl
    | _ => rfl
  rw [← h1, h2, e]; rfl

private theorem gap_useless {t : Token} (h : gapToken t = true) : useless t = true := by
  cases t with
  | char c => cases c <;> first | rfl | cases h
  | _ => first | rfl | cases h

theorem name_head {n : List Char} (h : ['r', '_'] <+: n) (h1 : WordOk n) (h2 : n ∉ keywords) (h3 : isName n = true) : Name n := by
  refine ⟨h1, h3, h2, ?_, ?_⟩
  · intro hl
    obtain ⟨p, rfl⟩ : ∃ p, n = p ++ ['.'] := List.getLast?_eq_some_iff.1 hl
    obtain ⟨-, cs, hc, hw⟩ := h1
    obtain ⟨-, hw⟩ := hw p '.' [] rfl
    rcases hw with hw | ⟨-, hw⟩
    · exact absurd hw (by decide)
    · have hp : isInteger p = false := by
        obtain ⟨r, hr⟩ := h
        cases p with
        | nil => simp at hr
        | cons c p =>
          simp only [List.cons_append, List.cons.injEq] at hr
          obtain ⟨rfl, -⟩ := hr
          simp [isInteger, show Spec.Js.isDigit 'r' = false by decide]
      rw [List.nil_append] at hw
      have hdig : ∀ c : Char, (isBlank c = true ∨ isPunct c = true) → Spec.Js.isDigit c = false := by
        intro c hc
        cases hd : Spec.Js.isDigit c with
        | false => rfl
        | true =>
          have hs : ∀ c ∈ "0123456789".toList, isBlank c = false ∧ isPunct c = false := by decide +kernel
          have := hs c (by simpa [Spec.Js.isDigit] using hd)
          rw [this.1, this.2] at hc
          rcases hc with hc | hc <;> cases hc
      rcases hc with rfl | ⟨x, cs', rfl, hx⟩
      · simp [dotInWord, hp] at hw
      · simp [dotInWord, hp, hdig x hx] at hw
  · obtain ⟨r, rfl⟩ := h
    exact ⟨'r', rfl, by decide, by decide⟩

theorem name_gen {n : List Char} (h : GenName n) : Name n := by
  obtain ⟨l, rfl, hne, hl⟩ := h
  have hc : ∀ c ∈ 'r' :: '_' :: alphabet, isBlank c = false ∧ isPunct c = false := by decide +kernel
  refine name_head ⟨l, rfl⟩ (wordOk_plain (by simp) fun c hx => hc c ?_) ?_ ?_
  · simp only [List.mem_cons] at hx ⊢
    rcases hx with hx | hx | hx
    · exact .inl hx
    · exact .inr (.inl hx)
    · exact .inr (.inr (hl c hx))
  · have hk : ∀ w ∈ keywords, (w.take 2 == ['r', '_']) = false := by decide +kernel
    intro hm
    have := hk _ hm
    simp at this
  · have h1 : ∀ w : List Char, w.foldl NumState.step .fail = .fail := by
      intro w
      induction w with
      | nil => rfl
      | cons c w ih => exact ih
    have h2 : NumState.step .start 'r' = .fail := by decide
    have h3 : sameLetter 'r' 'i' = false ∧ sameLetter 'r' 'n' = false := by decide
    simp only [isName, isInteger, isFloat, List.foldl_cons, h2, Bool.and_eq_true, Bool.not_eq_true']
    refine ⟨?_, ?_⟩
    · simp [show Spec.Js.isDigit 'r' = false by decide]
    · have : NumState.step .fail '_' = .fail := rfl
      rw [this, h1]
      have e1 : "inf".toList = ['i', 'n', 'f'] := by decide
      have e2 : "infinity".toList = ['i', 'n', 'f', 'i', 'n', 'i', 't', 'y'] := by decide
      have e3 : "nan".toList = ['n', 'a', 'n'] := by decide
      simp only [e1, e2, e3, sameWord, h3]
      rfl

/-! ## From positions to lists -/

private theorem drop_gap (us : List Lexeme) (e : Nat) : ∀ (k i : Nat), i + k = e →
    (∀ j, i ≤ j → j < e → ∃ l, us[j]? = some l ∧ solid l = false) →
    ∃ G, us.drop i = G ++ us.drop e ∧ G.filter solid = []
  | 0, i, h, _ => ⟨[], by simp [← h], rfl⟩
  | k + 1, i, h, ha => by
    obtain ⟨l, h1, h2⟩ := ha i (Nat.le_refl _) (by omega)
    obtain ⟨G, h3, h4⟩ := drop_gap us e k (i + 1) (by omega) (fun j hj => ha j (by omega))
    obtain ⟨hi, rfl⟩ := List.getElem?_eq_some_iff.1 h1
    refine ⟨us[i] :: G, ?_, by simp [h2, h4]⟩
    rw [List.drop_eq_getElem_cons hi, h3]; rfl

private theorem assigns_of {us : List Lexeme} {n s : List Char} {v e w : Nat} (hv : us[v]? = some (.word n))
    (he : us[e]? = some (.punct ['='])) (hw : us[w]? = some (.str s)) (h1 : v < e) (h2 : e < w)
    (hg1 : ∀ j, v + 1 ≤ j → j < e → ∃ l, us[j]? = some l ∧ solid l = false)
    (hg2 : ∀ j, e + 1 ≤ j → j < w → ∃ l, us[j]? = some l ∧ solid l = false) : Assigns (us.filter solid) n s := by
  obtain ⟨G1, e1, f1⟩ := drop_gap us e (e - (v + 1)) (v + 1) (by omega) hg1
  obtain ⟨G2, e2, f2⟩ := drop_gap us w (w - (e + 1)) (e + 1) (by omega) hg2
  obtain ⟨hv', hv⟩ := List.getElem?_eq_some_iff.1 hv
  obtain ⟨he', he⟩ := List.getElem?_eq_some_iff.1 he
  obtain ⟨hw', hw⟩ := List.getElem?_eq_some_iff.1 hw
  refine ⟨(us.take v).filter solid, (us.drop (w + 1)).filter solid, ?_⟩
  have : us = us.take v ++ (.word n :: (G1 ++ .punct ['='] :: (G2 ++ .str s :: us.drop (w + 1)))) := by
    have d1 := List.drop_eq_getElem_cons hv'
    have d2 := List.drop_eq_getElem_cons he'
    have d3 := List.drop_eq_getElem_cons hw'
    rw [hv] at d1; rw [he] at d2; rw [hw] at d3
    rw [← d3, ← e2, ← d2, ← e1, ← d1, List.take_append_drop]
  conv => lhs; rw [this]
  simp only [List.filter_append, List.filter_cons, f1, f2, List.nil_append]
  rfl

theorem pointwise_of {α β : Type} {R : α → β → Prop} : ∀ (l : List α) (l' : List β), l'.length = l.length →
    (∀ (i : Nat) a b, l[i]? = some a → l'[i]? = some b → R a b) → Pointwise R l l'
  | [], [], _, _ => .nil
  | [], _ :: _, h, _ => by simp at h
  | _ :: _, [], h, _ => by simp at h
  | a :: l, b :: l', h, hr => .cons (hr 0 a b rfl rfl) (pointwise_of l l' (by simpa using h) fun i a b h1 h2 => hr (i + 1) a b (by simpa using h1) (by simpa using h2))

theorem pointwise_filter {α β : Type} {R : α → β → Prop} {p : α → Bool} {q : β → Bool} {l : List α} {l' : List β}
    (h : Pointwise R l l') (hpq : ∀ a ∈ l, ∀ b, R a b → q b = p a) : Pointwise R (l.filter p) (l'.filter q) := by
  induction h with
  | nil => exact .nil
  | @cons a b l l' hr _ ih =>
    have ih := ih fun a ha => hpq a (List.mem_cons_of_mem _ ha)
    have := hpq a List.mem_cons_self b hr
    cases hp : p a with
    | true => rw [List.filter_cons_of_pos hp, List.filter_cons_of_pos (by rw [this, hp])]; exact .cons hr ih
    | false => rw [List.filter_cons_of_neg (by simp [hp]), List.filter_cons_of_neg (by simp [this, hp])]; exact ih

theorem pointwise_dropWhile {α β : Type} {R : α → β → Prop} {p : α → Bool} {q : β → Bool} {l : List α} {l' : List β}
    (h : Pointwise R l l') (hpq : ∀ a ∈ l, ∀ b, R a b → q b = p a) : Pointwise R (l.dropWhile p) (l'.dropWhile q) := by
  induction h with
  | nil => exact .nil
  | @cons a b l l' hr ht ih =>
    have ih := ih fun a ha => hpq a (List.mem_cons_of_mem _ ha)
    have := hpq a List.mem_cons_self b hr
    cases hp : p a with
    | true => rw [List.dropWhile_cons_of_pos hp, List.dropWhile_cons_of_pos (by rw [this, hp])]; exact ih
    | false => rw [List.dropWhile_cons_of_neg (by simp [hp]), List.dropWhile_cons_of_neg (by simp [this, hp])]; exact .cons hr ht

theorem pointwise_imp {α β : Type} {R S : α → β → Prop} {l : List α} {l' : List β}
    (h : Pointwise R l l') (hi : ∀ a ∈ l, ∀ b, R a b → S a b) : Pointwise S l l' := by
  induction h with
  | nil => exact .nil
  | cons hr _ ih => exact .cons (hi _ List.mem_cons_self _ hr) (ih fun a ha => hi a (List.mem_cons_of_mem _ ha))

/-! ## The tokens of the aggregated script -/

/-- A token in the place of a lexeme. -/
private def Put (us : List Lexeme) (D : List (List Char × List Char)) (l : Lexeme) (t : Token) : Prop :=
  (t = tokOf l ∧ ∀ s n, l = .str s → (s, n) ∉ D) ∨
  ∃ s n, l = .str s ∧ Name n ∧ 2 ≤ us.count (.str s) ∧
    (((s, n) ∈ D ∧ t = .createdVar n) ∨ ((∀ n, (s, n) ∉ D) ∧ Assigns (us.filter solid) n s ∧ t = .other n))

private theorem count_two : ∀ (l : List Lexeme) (a : Lexeme) (i j : Nat), i ≠ j → l[i]? = some a → l[j]? = some a → 2 ≤ l.count a
  | [], _, _, _, _, h, _ => by simp at h
  | x :: l, a, 0, 0, h, _, _ => absurd rfl h
  | x :: l, a, 0, j + 1, _, h1, h2 => by
    simp only [List.getElem?_cons_zero, Option.some.injEq, List.getElem?_cons_succ] at h1 h2
    subst h1
    have := List.count_pos_iff.2 (List.mem_of_getElem? h2)
    rw [List.count_cons_self]; omega
  | x :: l, a, i + 1, 0, _, h1, h2 => by
    simp only [List.getElem?_cons_zero, Option.some.injEq, List.getElem?_cons_succ] at h1 h2
    subst h2
    have := List.count_pos_iff.2 (List.mem_of_getElem? h1)
    rw [List.count_cons_self]; omega
  | x :: l, a, i + 1, j + 1, h, h1, h2 => by
    simp only [List.getElem?_cons_succ] at h1 h2
    have := count_two l a i j (by omega) h1 h2
    rw [List.count_cons]; omega

theorem count_tokOf {us : List Lexeme} (hu : ∀ l ∈ us, isOpen l = false ∧ ∃ v, LexOk v l) (s : List Char) :
    (us.map tokOf).count (.str s) = us.count (.str s) := by
  induction us with
  | nil => rfl
  | cons l us ih =>
    have ih := ih fun l hl => hu l (List.mem_cons_of_mem _ hl)
    obtain ⟨ho, v, hv⟩ := hu l List.mem_cons_self
    rw [List.map_cons, List.count_cons, List.count_cons, ih]
    congr 1
    by_cases h : l = .str s
    · subst h; simp [tokOf]
    · have h2 : tokOf l ≠ .str s := fun e => h (tokOf_str ho hv e)
      simp [h, h2]

private theorem aggregated {us : List Lexeme} (hu : ∀ l ∈ us, isOpen l = false ∧ ∃ v, LexOk v l) (sep : Option Token) :
    ∃ (D : List (List Char × List Char)) (body : List Token),
      aggregateStrings (us.map tokOf) sep = .ok (declare D ++ sep.toList ++ body) ∧ (D.map Prod.fst).Nodup ∧ (D.map Prod.snd).Nodup ∧
      (∀ s n, (s, n) ∈ D → GenName n ∧ 2 ≤ us.count (.str s)) ∧ DeclOk D ∧ Pointwise (Put us D) us body := by
  obtain ⟨D, body, h1, h2, h3, -, h4, ⟨h5, h6⟩, -, h7⟩ := C36_faithful_partial (us.map tokOf) sep
  have hD : ∀ s n, (s, n) ∈ D → GenName n ∧ 2 ≤ us.count (.str s) := by
    intro s n h
    have := h4 s n h
    rw [count_tokOf hu] at this
    exact this
  have get : ∀ (i : Nat) (t : Token), (us.map tokOf)[i]? = some t → ∃ l, us[i]? = some l ∧ tokOf l = t := by
    intro i t h
    rw [List.getElem?_map] at h
    cases hl : us[i]? with
    | none => rw [hl] at h; cases h
    | some l => rw [hl] at h; cases h; exact ⟨l, rfl, rfl⟩
  refine ⟨D, body, h1, h2, h3, hD, ?_, pointwise_of _ _ (by simpa using h5) ?_⟩
  · rintro ⟨s, n⟩ hp
    refine ⟨name_gen (hD s n hp).1, ?_⟩
    have hm : Lexeme.str s ∈ us := by
      have := (hD s n hp).2
      exact List.count_pos_iff.1 (by omega)
    obtain ⟨ho, v, hv⟩ := hu _ hm
    exact ⟨ho, rfl, v, hv⟩
  · intro i l t hl ht
    have hti : (us.map tokOf)[i]? = some (tokOf l) := by rw [List.getElem?_map, hl]; rfl
    obtain ⟨hol, vl, hvl⟩ := hu l (List.mem_of_getElem? hl)
    by_cases hin : ∃ s n, l = .str s ∧ (s, n) ∈ D
    · obtain ⟨s, n, rfl, hsn⟩ := hin
      have := h7 i s n hti hsn
      rw [ht] at this
      cases this
      exact .inr ⟨s, n, rfl, name_gen (hD s n hsn).1, (hD s n hsn).2, .inl ⟨hsn, rfl⟩⟩
    rcases h6 i _ t hti ht with h | ⟨s, hs, ⟨n, hn, rfl⟩ | ⟨n, w, ⟨v, a1, a2, ⟨⟨nm, a3⟩, e, a4, a5, a6⟩, a7⟩, -, hwi, rfl⟩⟩
    · exact .inl ⟨h, fun s n e h => hin ⟨s, n, e, h⟩⟩
    · exact absurd ⟨s, n, tokOf_str hol hvl hs, hn⟩ hin
    · obtain rfl := tokOf_str hol hvl hs
      obtain ⟨lw, b1, b2⟩ := get w _ a7
      obtain ⟨hw1, vw, hw2⟩ := hu lw (List.mem_of_getElem? b1)
      obtain rfl := tokOf_str hw1 hw2 b2
      obtain ⟨lv, c1, c2⟩ := get v _ a1
      obtain ⟨hv1, vv, hv2⟩ := hu lv (List.mem_of_getElem? c1)
      obtain ⟨rfl, c3, c4, c5⟩ := tokOf_other hv1 hv2 c2
      simp only at a6
      obtain ⟨a8, a9, a10, -⟩ := a6
      obtain ⟨le, d1, d2⟩ := get e _ a8
      obtain ⟨he1, ve, he2⟩ := hu le (List.mem_of_getElem? d1)
      obtain rfl := tokOf_equal he1 he2 d2
      have hg : ∀ (i j : Nat), All useless (us.map tokOf) i j → ∀ k, i ≤ k → k < j → ∃ l, us[k]? = some l ∧ solid l = false := by
        intro i j ha k h1 h2
        obtain ⟨t, ht, htu⟩ := ha k h1 h2
        obtain ⟨lk, g1, rfl⟩ := get k t ht
        obtain ⟨hk1, vk, hk2⟩ := hu lk (List.mem_of_getElem? g1)
        exact ⟨lk, g1, not_solid hk1 hk2 htu⟩
      refine .inr ⟨s, n, rfl, name_head a2 c3 c4 c5, count_two us _ i w (fun h => hwi h.symm) hl b1, .inr ⟨fun n h => hin ⟨s, n, rfl, h⟩, ?_, rfl⟩⟩
      refine assigns_of c1 d1 b1 a4 a9 (hg _ _ ?_) (hg _ _ a10)
      intro k k1 k2
      obtain ⟨t, t1, t2⟩ := a5 k k1 k2
      exact ⟨t, t1, gap_useless t2⟩

/-- A token in the place of a solid lexeme is solid, and a semicolon only for a semicolon. -/
private theorem put_keep {us : List Lexeme} {D : List (List Char × List Char)} {l : Lexeme} {t : Token}
    (hl : isOpen l = false ∧ ∃ v, LexOk v l) (h : Put us D l t) : keepTok t = solid l := by
  obtain ⟨ho, v, hv⟩ := hl
  rcases h with ⟨rfl, -⟩ | ⟨s, n, rfl, -, -, ⟨-, rfl⟩ | ⟨-, -, rfl⟩⟩
  · exact keepTok_tokOf hv ho
  · rfl
  · rfl

private theorem put_semi {us : List Lexeme} {D : List (List Char × List Char)} {l : Lexeme} {t : Token} (hl : Solid l)
    (h : Put us D l t) : (t == .char .semiColon) = (l == .punct [';']) := by
  rcases h with ⟨rfl, -⟩ | ⟨s, n, rfl, -, -, ⟨-, rfl⟩ | ⟨-, -, rfl⟩⟩
  · exact tokOf_semi hl
  · rfl
  · rfl

private theorem assigns_shorten {src : List Lexeme} {n s : List Char} (hn : Name n) (h : Assigns src n s) : Assigns (src.map shorten) n s := by
  obtain ⟨pre, post, rfl⟩ := h
  refine ⟨pre.map shorten, post.map shorten, ?_⟩
  simp only [List.map_append, List.map_cons, hn.shorten]
  rfl

/-- The lexemes for the tokens. -/
private theorem body_of {us src0 : List Lexeme} {D : List (List Char × List Char)} {rep : List Char → Bool}
    (hrep : ∀ s, 2 ≤ us.count (.str s) → rep s = true)
    (has : ∀ n s, Assigns (us.filter solid) n s → Assigns src0 n s)
    {src : List Lexeme} {X : List Token} (h : Pointwise (Put us D) src X) :
    ∃ B : List Group, X = B.map Prod.fst ∧ Body false freeAfter rep src B ∧
      Pointwise (Renamed D (src0.map shorten)) (src.map shorten) ((B.flatMap Prod.snd).map shorten) ∧
      ∀ s n, (s, n) ∈ D → .str s ∉ (B.flatMap Prod.snd).map shorten := by
  induction h with
  | nil => exact ⟨[], rfl, .nil, .nil, by simp⟩
  | @cons l t src X hp _ ih =>
    obtain ⟨B, rfl, hb, hr, hd⟩ := ih
    rcases hp with ⟨rfl, hp⟩ | ⟨s, n, rfl, hn, hc, h⟩
    · refine ⟨(tokOf l, [l]) :: B, rfl, .keep hb, .cons (.inl rfl) hr, fun s n hsn hm => ?_⟩
      simp only [List.flatMap_cons, List.map_append, List.map_cons, List.map_nil, List.mem_append, List.mem_cons, List.not_mem_nil,
        or_false] at hm
      rcases hm with hm | hm
      · have : l = .str s := by
          cases l with
          | word w => simp only [Spec.Js.shorten] at hm; split at hm <;> cases hm
          | str t => cases hm; rfl
          | _ => cases hm
        exact hp s n this hsn
      · exact hd s n hsn hm
    · have key : ∀ t, (t = .createdVar n ∨ t = .other n) → ((s, n) ∈ D ∨ Assigns (us.filter solid) n s) →
          ∃ B' : List Group, t :: B.map Prod.fst = B'.map Prod.fst ∧ Body false freeAfter rep (.str s :: src) B' ∧
            Pointwise (Renamed D (src0.map shorten)) ((Lexeme.str s :: src).map shorten) ((B'.flatMap Prod.snd).map shorten) ∧
            ∀ s n, (s, n) ∈ D → .str s ∉ (B'.flatMap Prod.snd).map shorten := by
        intro t ht hor
        refine ⟨(t, [.word n]) :: B, rfl, ?_, ?_, fun s' n' hsn hm => ?_⟩
        · refine .new (hrep s hc) ?_ hb
          rcases ht with rfl | rfl
          · exact .var hn fun _ h => h
          · exact .old hn
        · simp only [List.flatMap_cons, List.map_append, List.map_cons, List.map_nil, List.cons_append, List.nil_append, hn.shorten]
          refine .cons (.inr ⟨s, n, rfl, rfl, ?_⟩) hr
          rcases hor with h | h
          · exact .inl h
          · exact .inr (assigns_shorten hn (has n s h))
        · simp only [List.flatMap_cons, List.map_append, List.map_cons, List.map_nil, List.cons_append, List.nil_append, hn.shorten,
            List.mem_cons] at hm
          rcases hm with hm | hm
          · cases hm
          · exact hd s' n' hsn hm
      rcases h with ⟨h1, rfl⟩ | ⟨-, h1, rfl⟩
      · exact key _ (.inl rfl) (.inl h1)
      · exact key _ (.inr rfl) (.inr h1)

/-! ## Leading semicolons -/

theorem safe_semis : ∀ ls : List Lexeme, safeFrom [] ((ls.dropWhile (· == .punct [';'])).map shorten) = true →
    safeFrom [] (ls.map shorten) = true
  | [], h => h
  | l :: ls, h => by
    by_cases hl : l = .punct [';']
    · subst hl
      rw [List.dropWhile_cons_of_pos (by simp)] at h
      have ih := safe_semis ls h
      have e : shorten (.punct [';']) = .punct [';'] := rfl
      rw [List.map_cons, e, safeFrom, safeFrom_congr (ls.map shorten) [] [.punct [';']] (by rw [rp_semi]; rfl) rfl, ih, Bool.and_true]
      simp only [safeHere]
      have hc : ∀ c, compounds.contains ([';'] ++ [c]) = false := by
        intro c
        cases hx : compounds.contains ([';'] ++ [c]) with
        | false => rfl
        | true =>
          have hm := List.contains_iff_mem.1 hx
          have hall : ∀ t ∈ compounds, t.head? ≠ some ';' := by decide +kernel
          exact absurd rfl (hall _ hm)
      cases nextChar (.punct [';']) (ls.map shorten) with
      | none => rfl
      | some c => simp only [hc]; rfl
    · rw [List.dropWhile_cons_of_neg (by simpa using hl)] at h
      exact h

theorem loose_semis {after : Lexeme → Bool} {rep : List Char → Bool} : ∀ ls : List Lexeme,
    looseFrom after rep none (ls.dropWhile (· == .punct [';'])) = true → looseFrom after rep none ls = true
  | [], h => h
  | l :: ls, h => by
    by_cases hl : l = .punct [';']
    · subst hl
      rw [List.dropWhile_cons_of_pos (by simp)] at h
      have ih := loose_semis ls h
      show (true && looseFrom after rep (some (.punct [';'])) ls) = true
      rw [Bool.true_and]
      exact looseFrom_some rfl ih
    · rw [List.dropWhile_cons_of_neg (by simpa using hl)] at h
      exact h

private theorem assigns_drop {n s : List Char} : ∀ ls : List Lexeme, Assigns ls n s → Assigns (ls.dropWhile (· == .punct [';'])) n s
  | [], h => h
  | l :: ls, h => by
    by_cases hl : l = .punct [';']
    · subst hl
      rw [List.dropWhile_cons_of_pos (by simp)]
      refine assigns_drop ls ?_
      obtain ⟨pre, post, h⟩ := h
      cases pre with
      | nil => cases h
      | cons x pre =>
        simp only [List.cons_append, List.cons.injEq] at h
        exact ⟨pre, post, h.2⟩
    · rw [List.dropWhile_cons_of_neg (by simpa using hl)]
      exact h

private theorem count_strip (ls : List Lexeme) (s : List Char) : (strip ls).count (.str s) = ls.count (.str s) := by
  unfold strip
  have h1 : ∀ ls : List Lexeme, (ls.dropWhile (· == .punct [';'])).count (.str s) = ls.count (.str s) := by
    intro ls
    induction ls with
    | nil => rfl
    | cons l ls ih =>
      by_cases hl : l = .punct [';']
      · subst hl
        rw [List.dropWhile_cons_of_pos (by simp), ih, List.count_cons]
        simp
      · rw [List.dropWhile_cons_of_neg (by simpa using hl)]
  rw [h1, List.count_filter rfl]

theorem dropWhile_twice {p : Lexeme → Bool} (l : List Lexeme) : (l.dropWhile p).dropWhile p = l.dropWhile p := by
  induction l with
  | nil => rfl
  | cons a l ih =>
    cases h : p a with
    | true => rw [List.dropWhile_cons_of_pos h, ih]
    | false => rw [List.dropWhile_cons_of_neg (by simp [h]), List.dropWhile_cons_of_neg (by simp [h])]

theorem declare_keep (D : List (List Char × List Char)) : (declare D).filter keepTok = declare D := by
  apply List.filter_eq_self.2
  intro t ht
  cases D with
  | nil => cases ht
  | cons p D =>
    obtain ⟨s, n⟩ := p
    simp only [declare, List.mem_cons, List.mem_append, List.mem_flatMap, List.not_mem_nil, or_false, List.cons_append] at ht
    rcases ht with rfl | rfl | ⟨p, -, rfl | rfl⟩ | rfl <;> rfl

/-! ## C72 -/

/-- What a reader of the text should see: a declaration of the new names, and then the script `ls` with some literals replaced by
names. Leading semicolons of the script are only dropped where nothing is put before them. -/
def Reads (ls : List Lexeme) (out : List Char) : Prop :=
  ∃ (D : List (List Char × List Char)) (src body : List Lexeme),
    src = (if D = [] then strip ls else ls.filter solid).map shorten ∧ (lex out).filter solid = prelude D ++ body ∧
    Pointwise (Renamed D src) src body ∧ (D.map Prod.fst).Nodup ∧ (D.map Prod.snd).Nodup ∧
    ∀ s n, (s, n) ∈ D → GenName n ∧ 2 ≤ src.count (.str s) ∧ .str s ∉ body

/-- C72 as stated. -/
def C72_full : Prop := ∀ (s : List Char) (sep : Option Token), Closed s → Safe (lex s) → (∀ t, sep = some t → useless t = true) →
  ∃ out, aggregatedText s sep = .ok out ∧ Reads (lex s) out

theorem pointwise_length {α β : Type} {R : α → β → Prop} {l : List α} {l' : List β} (h : Pointwise R l l') :
    l'.length = l.length := by
  induction h with
  | nil => rfl
  | cons _ _ ih => simp [ih]

private theorem assignments_length : ∀ (p : List Char × List Char) (D : List (List Char × List Char)),
    (assignments (p :: D)).length = 4 * D.length + 3
  | _, [] => rfl
  | _, q :: D => by simp only [assignments, List.length_cons, assignments_length q D]; omega

/-- A name is written directly after `return`: `returnr_aa+r_aa`. -/
theorem C72_full_false : ¬C72_full := by
  intro h
  obtain ⟨out, h1, D, src, body, h2, h3, h4, -, -, h5⟩ := h "return 'abcdefghij'+'abcdefghij'".toList none
    (by unfold Closed; decide +kernel) (by unfold Safe; decide +kernel) (by intro t h; cases h)
  have ho : aggregatedText "return 'abcdefghij'+'abcdefghij'".toList none =
      .ok "var r_aa='abcdefghij';returnr_aa+r_aa".toList := by decide +kernel
  rw [ho] at h1
  cases h1
  have h6 := congrArg List.length h3
  have h7 : ((lex "var r_aa='abcdefghij';returnr_aa+r_aa".toList).filter solid).length = 8 := by decide +kernel
  have h8 : src.length = 4 := by rw [h2]; split <;> decide +kernel
  rw [h7, List.length_append, pointwise_length h4, h8] at h6
  cases D with
  | nil => simp [prelude] at h6
  | cons p D =>
    simp only [prelude, List.length_cons, List.length_append, assignments_length, List.length_nil] at h6
    omega

/-- The same after `case`, after a regex and between two literals on two lines, which become one word. -/
theorem C72_full_false_more :
    ∀ p ∈ [("switch(x){case 'abcdefghijkl':f('abcdefghijkl')}", "var r_aa='abcdefghijkl';switch(x){caser_aa:f(r_aa)}"),
        ("f(/a/\n'abcdefghijkl');'abcdefghijkl'", "var r_aa='abcdefghijkl';f(/a/r_aa);r_aa"),
        ("'abcdefghijkl'\n'abcdefghijkl'", "var r_aa='abcdefghijkl';r_aar_aa")],
      Closed p.1.toList ∧ Safe (lex p.1.toList) ∧ aggregatedText p.1.toList none = .ok p.2.toList := by
  unfold Closed Safe
  decide +kernel

private theorem reads {us : List Lexeme} {D : List (List Char × List Char)} {X : List Token} {rep : List Char → Bool}
    (hu : ∀ l ∈ us, isOpen l = false ∧ ∃ v, LexOk v l) (hpl : Placed [] us)
    (hs : Safe us) (hl : looseFrom freeAfter rep none (strip us) = true) (hrep : ∀ s, 2 ≤ us.count (.str s) → rep s = true)
    (hD : DeclOk D) (hn1 : (D.map Prod.fst).Nodup) (hn2 : (D.map Prod.snd).Nodup)
    (hg : ∀ s n, (s, n) ∈ D → GenName n ∧ 2 ≤ us.count (.str s))
    (hX : Pointwise (Put us D) (if D = [] then strip us else us.filter solid) X) :
    Reads us (display (declare D ++ X)) := by
  obtain ⟨src, hsrc⟩ : ∃ src, src = if D = [] then strip us else us.filter solid := ⟨_, rfl⟩
  rw [← hsrc] at hX
  have hsol : ∀ l ∈ src, Solid l := by
    intro l hm
    rw [hsrc] at hm
    split at hm
    · exact strip_solid hu l hm
    · obtain ⟨h1, h2⟩ := List.mem_filter.1 hm
      exact ⟨(hu l h1).1, h2, (hu l h1).2⟩
  have hp1 := Placed.filter us [] [] rfl hpl
  have hplace : Placed [] src := by
    rw [hsrc]
    split
    · exact Placed.dropSemi _ [] rfl hp1
    · exact hp1
  have hsafe : safeFrom [] (src.map shorten) = true := by
    rw [hsrc]
    split
    · exact hs
    · exact safe_semis _ hs
  have hloose : looseFrom freeAfter rep none src = true := by
    rw [hsrc]
    split
    · exact hl
    · exact loose_semis _ hl
  have hass : ∀ n s, Assigns (us.filter solid) n s → Assigns src n s := by
    intro n s h
    rw [hsrc]
    split
    · exact assigns_drop _ h
    · exact h
  obtain ⟨B, rfl, hb, hr, hd⟩ := body_of (D := D) hrep hass hX
  have hlex := agg_text freeAfter_shorten hsol hplace hsafe hloose hb hD
  have hsol2 : ∀ l ∈ prelude D ++ (B.flatMap Prod.snd).map shorten, solid l = true := by
    intro l hm
    rcases List.mem_append.1 hm with hm | hm
    · exact ((prelude_ok D [] hD).2.2 l hm).2.1
    · have hsol' : ∀ l ∈ src.map shorten, Solid l := by
        intro l hl
        obtain ⟨l', hl', rfl⟩ := List.mem_map.1 hl
        obtain ⟨h1, h2, v, h3⟩ := hsol l' hl'
        exact ⟨by rw [(shorten_class l').2.1, h1], by rw [(shorten_class l').1, h2], v, h3.shorten⟩
      exact (hb.swap.solid hsol' l hm).2.1
  refine ⟨D, src.map shorten, (B.flatMap Prod.snd).map shorten, by rw [hsrc], ?_, hr, hn1, hn2, fun s n h => ⟨(hg s n h).1, ?_, hd s n h⟩⟩
  · rw [hlex, filter_spaced _ hsol2]
  · have hc : src.count (.str s) = us.count (.str s) := by
      rw [hsrc]
      split
      · exact count_strip us s
      · exact List.count_filter rfl
    have h2 := (hg s n h).2
    rw [← hc] at h2
    have : ∀ l : List Lexeme, l.count (.str s) ≤ (l.map shorten).count (.str s) := by
      intro l
      have := List.count_le_count_map (l := l) (f := shorten) (x := .str s)
      exact this
    exact Nat.le_trans h2 (this src)

theorem placed_lex (s : List Char) : Placed [] (lex s) := Placed.of_wf _ _ (by simpa [lex] using lexRev_wf s)

theorem loose_rep {ls : List Lexeme} {s : List Char} (h : 2 ≤ ls.count (.str s)) : repeated (strip ls) s = true := by
  simp only [repeated, count_strip, h, decide_true]

/-- C72, the part that holds: if no literal that occurs more than once is next to a word, then the text that is written for an aggregated
script is read as a declaration of names for literals, followed by the script with some literals replaced by their names. Missing: the
scripts with such a literal next to a word, of which some are written wrongly, `C72_full_false`. -/
theorem C72_text_partial (s : List Char) (sep : Option Token) (h : Closed s) (hs : Safe (lex s)) (hl : Loose (strip (lex s)))
    (hsep : ∀ t, sep = some t → useless t = true) : ∃ out, aggregatedText s sep = .ok out ∧ Reads (lex s) out := by
  have hu := closed_lex h
  obtain ⟨D, body, h1, h2, h3, h4, h5, h6⟩ := aggregated hu sep
  have hbody := pointwise_filter h6 fun l hl t ht => put_keep (hu l hl) ht
  have hfilter : (declare D ++ sep.toList ++ body).filter keepTok = declare D ++ body.filter keepTok := by
    have : sep.toList.filter keepTok = [] := by
      cases sep with
      | none => rfl
      | some t =>
        have h1 : useless t = true := hsep t rfl
        have : keepTok t = false := by
          cases t with
          | char c => cases c <;> first | rfl | cases h1
          | _ => first | rfl | cases h1
        simp [this]
    rw [List.filter_append, List.filter_append, this, declare_keep, List.append_nil]
  have hclean : ∃ X, cleanTokens (declare D ++ sep.toList ++ body) = declare D ++ X ∧
      Pointwise (Put (lex s) D) (if D = [] then strip (lex s) else (lex s).filter solid) X := by
    rw [cleanTokens_eq, hfilter]
    cases D with
    | nil =>
      refine ⟨_, rfl, ?_⟩
      rw [if_pos rfl]
      refine pointwise_dropWhile hbody fun l hl t ht => put_semi ?_ ht
      obtain ⟨m1, m2⟩ := List.mem_filter.1 hl
      exact ⟨(hu l m1).1, m2, (hu l m1).2⟩
    | cons p D =>
      refine ⟨body.filter keepTok, ?_, ?_⟩
      · obtain ⟨a, b⟩ := p
        simp only [declare, List.cons_append]
        rw [List.dropWhile_cons_of_neg (by decide)]
      · rw [if_neg (by simp)]
        exact hbody
  obtain ⟨X, hX1, hX2⟩ := hclean
  refine ⟨display (declare D ++ X), ?_, reads hu (placed_lex s) hs hl (fun s h => loose_rep h) h5 h2 h3 h4 hX2⟩
  unfold aggregatedText
  rw [tokenize_closed h]
  simp only [Out.bind_ok, h1, hX1]

/-- C72, partial: the same if the tokens are cleaned before. -/
theorem C72_cleaned_partial (s : List Char) (h : Closed s) (hs : Safe (lex s)) (hl : Loose (strip (lex s))) :
    ∃ out, cleanedText s = .ok out ∧ Reads (strip (lex s)) out := by
  have hsol := strip_solid (closed_lex h)
  have hu : ∀ l ∈ strip (lex s), isOpen l = false ∧ ∃ v, LexOk v l := fun l hl => ⟨(hsol l hl).1, (hsol l hl).2.2⟩
  have hf : (strip (lex s)).filter solid = strip (lex s) := List.filter_eq_self.2 fun l hl => (hsol l hl).2.1
  have hss : strip (strip (lex s)) = strip (lex s) := by
    rw [strip, hf]
    exact dropWhile_twice _
  obtain ⟨D, body, h1, h2, h3, h4, h5, h6⟩ := aggregated hu none
  simp only [Option.toList_none, List.append_nil] at h1
  refine ⟨display (declare D ++ body), ?_, reads (rep := repeated (strip (lex s))) hu ?_ ?_ ?_ (fun s h => ?_) h5 h2 h3 h4 ?_⟩
  · unfold cleanedText
    rw [tokenize_closed h]
    simp only [Out.bind_ok, clean_strip (closed_lex h), h1]
  · exact Placed.dropSemi _ [] rfl (Placed.filter _ [] [] rfl (placed_lex s))
  · unfold Safe; rw [hss]; exact hs
  · rw [hss]; exact hl
  · simp only [repeated, h, decide_true]
  · rw [hss, hf, ite_self]; exact h6

private def aggSource : String := "; var r_x = 'ab' ; // c\n f('abcdefghijkl', 'ab' ) + 'abcdefghijkl' in y; g( 007 )"

/-- Not vacuous. -/
example : Closed aggSource.toList ∧ Safe (lex aggSource.toList) ∧ Loose (strip (lex aggSource.toList)) ∧
    useless (.char .backline) = true ∧
    aggregatedText aggSource.toList (some (.char .backline)) =
      .ok "var r_aa='abcdefghijkl';;var r_x='ab';f(r_aa,r_x)+r_aa in y;g(7)".toList ∧
    cleanedText aggSource.toList = .ok "var r_aa='abcdefghijkl';var r_x='ab';f(r_aa,r_x)+r_aa in y;g(7)".toList := by
  unfold Closed Safe Loose
  decide +kernel

/-- Not claimed and not so: that a name may stand wherever a literal may. Keys, directives and templates change their meaning. -/
example : ∀ p ∈ [("x={'abcdefghijkl':1};y={'abcdefghijkl':2}", "var r_aa='abcdefghijkl';x={r_aa:1};y={r_aa:2}"),
      ("function f(){'use strict';}function g(){'use strict';}", "var r_aa='use strict';function f(){r_aa;}function g(){r_aa;}"),
      ("f=x=>(`a${x}bcdefgh`);g=x=>(`a${x}bcdefgh`)", "var r_aa=`a${x}bcdefgh`;f=x=>(r_aa);g=x=>(r_aa)")],
    Closed p.1.toList ∧ Safe (lex p.1.toList) ∧ Loose (strip (lex p.1.toList)) ∧ cleanedText p.1.toList = .ok p.2.toList := by
  unfold Closed Safe Loose
  decide +kernel

end Verif.Js
