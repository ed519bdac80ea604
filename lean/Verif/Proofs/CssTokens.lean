import Verif.Proofs.CssSource
import Verif.Proofs.CssIdem
/-!
# The output of the CSS minifier is related to the source

The marks of a style sheet are followed from the last one to the first; `Suf` relates what follows them in the source and in the output.
-/
set_option linter.unusedSimpArgs false

namespace Verif.Spec.CssSyntax
open Spec.Css

/-- A blank was put after a name that starts in `xs`. -/
def Pend (xs : List Mark) (S O : List Char) : Prop :=
  ∃ m n w S1 O1, (lastWord xs).1 = '@' :: m ∧ startsName (m ++ n) = true ∧ (m ++ n).all nameChar = true ∧
    ((lastWord xs).2.1 ≠ .none ∨ lastChr (lastWord xs).2.2 = none ∨ lastChr (lastWord xs).2.2 = some ';' ∨
      lastChr (lastWord xs).2.2 = some '{' ∨ lastChr (lastWord xs).2.2 = some '}') ∧
    S = n ++ S1 ∧ O = n ++ (w ++ O1) ∧ (∀ c, S1.head? = some c → nameChar c = false ∧ c ≠ '\\') ∧
    (∀ c ∈ w, isBlank c = true) ∧ w ≠ [] ∧ Rel none S1 O1

structure Suf (r xs : List Mark) (S O : List Char) : Prop where
  license : lastLicense xs = true → ∃ g h S1 O1, Skip g ∧ Skip h ∧ S = g ++ S1 ∧ O = h ++ O1 ∧ Rel none S1 O1
  back : lastIs '\\' xs = true → ∃ c S1 O1, S = c :: S1 ∧ O = c :: O1 ∧ hex c = false ∧ newline c = false ∧ Rel (some 'x') S1 O1
  other : lastLicense xs = false → lastIs '\\' xs = false → Rel (lastChr xs) S O ∨ Pend xs S O
  slash : lastIs '/' xs = true → S.head? ≠ some '*'
  num : lastIs '\\' xs = false → headDigit S = true → ∃ d r', r = (.none, .chr d) :: r' ∧ digit d = true

theorem itemSrc_head {x : Item} {c : List Char} (h : ItemSrc x c) : ∃ y c', c = y :: c' ∧
    (x = .chr y ∨ x = .lit y ∨ quote y = true ∨ (y = '/' ∧ isLicense x = true)) := by
  cases h with
  | chr _ _ _ => exact ⟨_, _, rfl, .inl rfl⟩
  | back => exact ⟨_, _, rfl, .inl rfl⟩
  | lit _ _ => exact ⟨_, _, rfl, .inr (.inl rfl)⟩
  | str h =>
    obtain ⟨q, b, v, hq, rfl, _⟩ := h
    exact ⟨_, _, rfl, .inr (.inr (.inl hq))⟩
  | license _ => exact ⟨'/', _, rfl, .inr (.inr (.inr ⟨rfl, rfl⟩))⟩

/-- How the text of a mark begins. -/
theorem mark_head {g : Gap} {x : Item} {b c S : List Char} (hb : GapText g b) (hc : ItemSrc x c) :
    ∃ y t, b ++ c ++ S = y :: t ∧ (isBlank y = true ∨ y = '/' ∨ quote y = true ∨ (g = .none ∧ (x = .chr y ∨ x = .lit y))) := by
  rcases hb.1.head with h | ⟨y, b', rfl, h⟩
  · subst h
    obtain ⟨y, c', rfl, h⟩ := itemSrc_head hc
    refine ⟨y, c' ++ S, by simp, ?_⟩
    have hg : g = .none := hb.2.mpr rfl
    rcases h with h | h | h | h
    · exact .inr (.inr (.inr ⟨hg, .inl h⟩))
    · exact .inr (.inr (.inr ⟨hg, .inr h⟩))
    · exact .inr (.inr (.inl h))
    · exact .inr (.inl h.1)
  · refine ⟨y, b' ++ c ++ S, by simp, ?_⟩
    rcases h with h | h
    · exact .inl h
    · exact .inr (.inl h.1)

theorem blank_ne {y z : Char} (h : isBlank y = true) (hz : isBlank z = false) : y ≠ z := by rintro rfl; rw [h] at hz; cases hz

theorem quote_ne {y z : Char} (h : quote y = true) (hz : quote z = false) : y ≠ z := by rintro rfl; rw [h] at hz; cases hz

theorem blank_digit {y : Char} (h : isBlank y = true) : digit y = false := by
  simp only [isBlank, Bool.or_eq_true, beq_iff_eq] at h
  rcases h with ((rfl | rfl) | rfl) | rfl <;> decide

theorem quote_digit {y : Char} (h : quote y = true) : digit y = false := by
  simp only [quote, Bool.or_eq_true, beq_iff_eq] at h
  rcases h with rfl | rfl <;> decide

/-- The side conditions of `Suf`. -/
theorem side {r xs : List Mark} {g : Gap} {x : Item} {b c S : List Char} (hb : GapText g b) (hc : ItemSrc x c) (ha : Adj xs g x) :
    (lastIs '/' xs = true → (b ++ c ++ S).head? ≠ some '*') ∧
    (headDigit (b ++ c ++ S) = true → lastIs '\\' xs = false → ∃ d r', (g, x) :: r = (.none, .chr d) :: r' ∧ digit d = true) := by
  obtain ⟨y, t, e, h⟩ := mark_head (S := S) hb hc
  rw [e]
  constructor
  · intro hs hy
    simp only [List.head?_cons, Option.some.injEq] at hy
    subst hy
    rcases h with h | h | h | ⟨hg, h | h⟩
    · exact absurd h (by decide)
    · exact absurd h (by decide)
    · exact absurd h (by decide)
    · rw [ha.1 hg h] at hs; cases hs
    · have := ha.2.1.mpr ⟨_, h⟩
      cases xs with
      | nil => cases hs
      | cons m xs =>
        simp only [lastIs, beq_iff_eq] at hs this
        rw [hs] at this
        exact absurd this (by decide)
  · intro hd hn
    simp only [headDigit] at hd
    rcases h with h | h | h | ⟨hg, h | h⟩
    · rw [blank_digit h] at hd; cases hd
    · subst h; exact absurd hd (by decide)
    · rw [quote_digit h] at hd; cases hd
    · exact ⟨y, r, by rw [hg, h], hd⟩
    · rw [ha.2.1.mpr ⟨_, h⟩] at hn; cases hn

theorem glues_first {p : Option Char} {y : Char} (h1 : y ≠ '.') (h2 : y ≠ '+') (r r' : List Char) :
    glues p (y :: r) = glues p (y :: r') := by
  cases p with
  | none => rfl
  | some p =>
    have e1 : (y == '.') = false := by simpa using h1
    have e2 : (y == '+') = false := by simpa using h2
    simp [glues, e1, e2]

theorem glues_digit {p : Option Char} {y : Char} {r r' : List Char} (h : headDigit r' = true → headDigit r = true)
    (hg : glues p (y :: r) = false) : glues p (y :: r') = false := by
  cases p with
  | none => rfl
  | some p =>
    cases h' : headDigit r' with
    | true => simp only [glues, h', h h'] at hg ⊢; exact hg
    | false =>
      simp only [glues, h'] at hg ⊢
      simp only [Bool.or_eq_false_iff] at hg ⊢
      obtain ⟨⟨⟨⟨⟨a1, a2⟩, a3⟩, a4⟩, a5⟩, a6⟩ := hg
      refine ⟨⟨⟨⟨⟨a1, ?_⟩, a3⟩, by simp⟩, a5⟩, a6⟩
      simp only [Bool.and_eq_false_iff, Bool.or_eq_false_iff] at a2 ⊢
      rcases a2 with h | h
      · exact .inl h
      · exact .inr ⟨h.1, by simp⟩

/-- The words in `lastWord`. -/
theorem lastWord_cont {g : Gap} {c : Char} {xs : List Mark} (hc : isPunct c = false) (h : g = .none ∧ wordEnd xs = true) :
    lastWord ((g, .chr c) :: xs) = ((lastWord xs).1 ++ [c], (lastWord xs).2) := by
  rw [lastWord, if_neg (by simp [hc]), if_pos h]

theorem lastWord_new {g : Gap} {c : Char} {xs : List Mark} (hc : isPunct c = false) (h : ¬ (g = .none ∧ wordEnd xs = true)) :
    lastWord ((g, .chr c) :: xs) = ([c], g, xs) := by
  rw [lastWord, if_neg (by simp [hc]), if_neg h]

theorem lastWord_none {g : Gap} {x : Item} {xs : List Mark} (h : isWordChr x = false) : (lastWord ((g, x) :: xs)).1 = [] := by
  cases x with
  | chr c =>
    have : isPunct c = true := by simpa [isWordChr] using h
    rw [lastWord, if_pos this]
  | _ => rfl

theorem lastWord_ne {xs : List Mark} (h : wordEnd xs = true) : (lastWord xs).1 ≠ [] := by
  cases xs with
  | nil => cases h
  | cons m xs =>
    obtain ⟨g, x⟩ := m
    cases x with
    | chr c =>
      have hc : isPunct c = false := by simpa [wordEnd, isWordChr] using h
      by_cases h' : g = .none ∧ wordEnd xs = true
      · rw [lastWord_cont hc h']; simp
      · rw [lastWord_new hc h']; simp
    | _ => cases h

theorem wordEnd_license {xs : List Mark} (h : wordEnd xs = true) : lastLicense xs = false ∧ lastIs '\\' xs = false := by
  cases xs with
  | nil => cases h
  | cons m xs =>
    obtain ⟨g, x⟩ := m
    cases x with
    | chr c =>
      refine ⟨rfl, ?_⟩
      simp only [lastIs, beq_eq_false_iff_ne, ne_eq]
      intro e
      cases e
      have : isWordChr (.chr '\\') = true := h
      exact absurd this (by decide +kernel)
    | _ => cases h

theorem lastIs_license {c : Char} {xs : List Mark} (h : lastLicense xs = true) : lastIs c xs = false := by
  cases xs with
  | nil => rfl
  | cons m xs =>
    obtain ⟨g, x⟩ := m
    cases x <;> first | rfl | cases h

theorem atName_pend {xs : List Mark} (h : atName xs = true) {S O : List Char}
    (hS : ∀ c, S.head? = some c → nameChar c = false ∧ c ≠ '\\') (hr : Rel none S O) : Pend xs S (' ' :: O) := by
  unfold atName at h
  rw [Bool.and_eq_true] at h
  obtain ⟨h1, h2⟩ := h
  split at h1
  · rename_i n e
    rw [Bool.and_eq_true] at h1
    refine ⟨n, [], [' '], S, O, e, by simpa using h1.1, by simpa using h1.2, ?_, rfl, rfl, hS, by simp; decide, by simp, hr⟩
    rw [Bool.or_eq_true] at h2
    rcases h2 with h2 | h2
    · exact .inl (by simpa using h2)
    · split at h2
      · rename_i e'; exact .inr (.inl e')
      · rename_i c e'
        simp only [Bool.or_eq_true, beq_iff_eq] at h2
        rcases h2 with (rfl | rfl) | rfl <;> simp [e']
  · cases h1

/-- What is printed between `xs` and an item. -/
theorem gap_blank {xs : List Mark} {cont k : Bool} : ∀ c ∈ autoText xs cont ++ (if k then [' '] else []), isBlank c = true := by
  unfold autoText
  intro c hc
  simp only [List.mem_append] at hc
  rcases hc with hc | hc
  · split at hc
    · simp at hc; subst hc; decide
    · split at hc
      · simp at hc; subst hc; decide
      · cases hc
  · cases k <;> simp at hc
    subst hc; decide

theorem ahead_chr (c : Char) (r : List Mark) : ∃ t, ahead (.chr c) r = c :: t := by
  cases r with
  | nil => exact ⟨_, rfl⟩
  | cons m r =>
    obtain ⟨g, x⟩ := m
    cases g <;> cases x <;> exact ⟨_, rfl⟩

/-- The item alone: related after every character that can stand before it. -/
theorem item_rel {r xs : List Mark} {g : Gap} {x : Item} {c S O : List Char} (hc : ItemSrc x c) (hs : Suf r ((g, x) :: xs) S O)
    (hl : ∀ d, x ≠ .lit d) (hL : isLicense x = false) :
    (Rel none (c ++ S) (itemText x ++ O) ∧ (g = .none → Rel (lastChr xs) (c ++ S) (itemText x ++ O)) ∧
      ∀ p, glues p (ahead x r) = false → glues p (itemText x ++ O) = false) ∨
    (g = .none ∧ isWordChr x = true ∧ wordEnd xs = true ∧ Pend xs (c ++ S) (itemText x ++ O)) := by
  cases hc with
  | @chr c h1 h2 h3 =>
    have h4 : c = '/' → S.head? ≠ some '*' := fun h => hs.slash (by simp [lastIs, h])
    rcases hs.other rfl (by simp [lastIs, h3]) with h | h
    · refine .inl ⟨.chr h1 h2 h3 h4 h, fun _ => .chr h1 h2 h3 h4 h, fun p hp => ?_⟩
      simp only [itemText, List.cons_append, List.nil_append]
      by_cases hd : c = '.' ∨ c = '+'
      · have hpre : Pre c := by
          rcases hd with rfl | rfl
          · exact .inl (by decide +kernel)
          · exact .inr rfl
        have hR := headDigit_rel hpre h
        cases hO : headDigit O with
        | false =>
          obtain ⟨t, ht⟩ := ahead_chr c r
          rw [ht] at hp
          exact glues_digit (fun h => by rw [hO] at h; cases h) hp
        | true =>
          rw [hO] at hR
          obtain ⟨d, r', rfl, hd'⟩ := hs.num (by simp [lastIs, h3]) hR
          have e : ahead (.chr c) ((.none, .chr d) :: r') = [c, d] := rfl
          rw [e] at hp
          exact glues_digit (r := [d]) (fun _ => hd') hp
      · obtain ⟨t, ht⟩ := ahead_chr c r
        rw [ht] at hp
        rw [glues_first (fun h => hd (.inl h)) (fun h => hd (.inr h)) _ t]
        exact hp
    · obtain ⟨m, n, w, S1, O1, e, hn, ha, hb, rfl, rfl, hS, hw, hwn, hr⟩ := h
      have hwc : isWordChr (.chr c) = true := by
        cases hw : isWordChr (.chr c) with
        | true => rfl
        | false => rw [lastWord_none hw] at e; cases e
      have hcp : isPunct c = false := by simpa [isWordChr] using hwc
      by_cases hcont : g = .none ∧ wordEnd xs = true
      · right
        rw [lastWord_cont hcp hcont] at e hb
        refine ⟨hcont.1, hwc, hcont.2, ?_⟩
        cases hl : (lastWord xs).1 with
        | nil => exact absurd hl (lastWord_ne hcont.2)
        | cons a m' =>
          rw [hl] at e
          simp only [List.cons_append, List.cons.injEq] at e
          obtain ⟨rfl, rfl⟩ := e
          exact ⟨m', c :: n, w, S1, O1, hl, by simpa using hn, by simpa using ha, hb, rfl, rfl, hS, hw, hwn, hr⟩
      · left
        rw [lastWord_new hcp hcont] at e hb
        simp only [List.cons.injEq] at e
        obtain ⟨rfl, rfl⟩ := e
        simp only [List.nil_append] at hn ha
        refine ⟨Rel.media (n := n) (.inl rfl) hn ha hS hw hwn hr, fun hg => ?_, fun p hp => ?_⟩
        · refine Rel.media (n := n) ?_ hn ha hS hw hwn hr
          rcases hb with hb | hb
          · exact absurd hg hb
          · exact hb
        · obtain ⟨t, ht⟩ := ahead_chr '@' r
          rw [ht] at hp
          simp only [itemText, List.cons_append, List.nil_append]
          rw [glues_first (by decide) (by decide) _ t]
          exact hp
  | back =>
    obtain ⟨d, S1, O1, rfl, rfl, e1, e2, e3⟩ := hs.back rfl
    refine .inl ⟨.esc e1 e2 e3, fun _ => .esc e1 e2 e3, fun p hp => ?_⟩
    obtain ⟨t, ht⟩ := ahead_chr '\\' r
    rw [ht] at hp
    simp only [itemText, List.cons_append, List.nil_append]
    rw [glues_first (by decide) (by decide) _ t]
    exact hp
  | lit _ _ => exact absurd rfl (hl _)
  | @str t h =>
    rcases hs.other rfl rfl with hr | ⟨m, n, w, S1, O1, e, _⟩
    · refine .inl ⟨.str h hr, fun _ => .str h hr, fun p _ => ?_⟩
      obtain ⟨q, b, v, hq, rfl, _⟩ := h
      cases p with
      | none => rfl
      | some p => exact glues_stop (.inr (.inr hq)) _
    · cases e
  | license _ => cases hL

/-- One mark. -/
theorem suf_step {alpha : Char → Bool} {r xs : List Mark} {g : Gap} {x : Item} {b c S O : List Char} {k : Bool}
    (hb : GapText g b) (hc : ItemSrc x c) (ha : Adj xs g x) (hs : Suf r ((g, x) :: xs) S O)
    (hk : (g = .none → k = false) ∧ (g = .blank → k = keepRule alpha xs x r) ∧ (g = .comment → keepRule alpha xs x r = true → k = true))
    (hr : risky alpha r ((g, x) :: xs) = false) :
    Suf ((g, x) :: r) xs (b ++ c ++ S)
      (autoText xs (g == .none && isWordChr x) ++ (if k then [' '] else []) ++ itemText x ++ O) := by
  have hside := side (r := r) (S := S) hb hc ha
  have hbn : g ≠ .none → b ≠ [] := fun h h' => h (hb.2.mpr h')
  by_cases hback : lastIs '\\' xs = true
  · -- after a backslash
    obtain ⟨d, rfl⟩ := ha.2.1.mp hback
    obtain rfl := ha.2.2 hback
    have hb0 : b = [] := hb.2.mp rfl
    subst hb0
    have hLx : lastLicense xs = false := by
      cases h : lastLicense xs with
      | false => rfl
      | true => rw [lastIs_license h] at hback; cases hback
    have hm : mediaWord xs = false := by
      cases xs with
      | nil => cases hback
      | cons m xs =>
        obtain ⟨g', y⟩ := m
        have : y = .chr '\\' := by simpa [lastIs] using hback
        subst this
        unfold mediaWord
        rw [lastWord_none (by decide +kernel)]
        rfl
    have e : autoText xs (Gap.none == Gap.none && isWordChr (.lit d)) = [] := by simp [autoText, hLx, hm]
    rw [e, hk.1 rfl]
    cases hc with
    | lit h1 h2 =>
      have hrel : Rel (some 'x') S O := by
        rcases hs.other rfl rfl with h | ⟨m, n, w, S1, O1, e, _⟩
        · exact h
        · cases e
      refine ⟨fun h => ?_, fun _ => ⟨d, S, O, rfl, rfl, h1, h2, hrel⟩, fun _ h => ?_, hside.1, fun h => ?_⟩
      · rw [hLx] at h; cases h
      · rw [hback] at h; cases h
      · rw [hback] at h; cases h
  · have hback' : lastIs '\\' xs = false := by simpa using hback
    have hlit : ∀ d, x ≠ .lit d := by
      intro d hd
      exact hback (ha.2.1.mpr ⟨d, hd⟩)
    have hgb := gap_blank (xs := xs) (cont := g == .none && isWordChr x) (k := k)
    generalize eh : autoText xs (g == .none && isWordChr x) ++ (if k then [' '] else []) = h at *
    cases hL : isLicense x with
    | true =>
      cases hc with
      | @license t c hN =>
        obtain ⟨g1, h1, S1, O1, hg1, hh1, rfl, rfl, hrel⟩ := hs.license rfl
        have hN' : NoEnd ('!' :: t) := hN.tail.cons (by decide)
        have sk1 : Skip ('/' :: '*' :: c :: t ++ ['*', '/']) := Skip.comment hN .nil
        have sk2 : Skip ('/' :: '*' :: '!' :: t ++ ['*', '/']) := Skip.comment hN' .nil
        have sa : Skip (b ++ ('/' :: '*' :: c :: t ++ ['*', '/']) ++ g1) := (hb.1.append sk1).append hg1
        have sb : Skip (h ++ ('/' :: '*' :: '!' :: t ++ ['*', '/']) ++ h1) := ((skip_blanks hgb).append sk2).append hh1
        have e1 : b ++ ('/' :: '*' :: c :: t ++ ['*', '/']) ++ (g1 ++ S1) = (b ++ ('/' :: '*' :: c :: t ++ ['*', '/']) ++ g1) ++ S1 := by simp
        have e2 : h ++ itemText (.license t) ++ (h1 ++ O1) = (h ++ ('/' :: '*' :: '!' :: t ++ ['*', '/']) ++ h1) ++ O1 := by simp [itemText]
        refine ⟨fun _ => ⟨_, _, S1, O1, sa, sb, e1, e2, hrel⟩, fun h => absurd h hback, fun _ _ => .inl ?_, hside.1,
          fun _ hd => hside.2 hd hback'⟩
        rw [e1, e2]
        refine .gap sa (by simp) sb (by simp) (fun hall => ?_) hrel
        exact absurd (hall '/' (by simp)) (by decide)
      | _ => cases hL
    | false =>
      rcases item_rel hc hs hlit hL with ⟨hR, hR', hglue⟩ | ⟨hg, hw, hwe, hP⟩
      · have e1 : b ++ c ++ S = b ++ (c ++ S) := by simp
        have e2 : h ++ itemText x ++ O = h ++ (itemText x ++ O) := by simp
        refine ⟨fun _ => ⟨b, h, _, _, hb.1, skip_blanks hgb, e1, e2, hR⟩, fun h => absurd h hback, fun hLx _ => ?_, hside.1,
          fun _ hd => hside.2 hd hback'⟩
        rw [e1, e2]
        simp only [risky, Bool.or_eq_false_iff] at hr
        by_cases hg : g = .none
        · subst hg
          have hb0 : b = [] := hb.2.mp rfl
          subst hb0
          have hk0 := hk.1 rfl
          subst hk0
          simp only [autoText, hLx, Bool.false_eq_true, ↓reduceIte, List.append_nil, beq_self_eq_true, Bool.true_and] at eh
          by_cases hm : (mediaWord xs && !isWordChr x) = true
          · rw [if_pos hm] at eh
            subst eh
            rw [Bool.and_eq_true, Bool.not_eq_true'] at hm
            have h2 := hr.1.2
            simp only [beq_self_eq_true, hm.1, hm.2, Bool.not_false, Bool.true_and, Bool.or_eq_false_iff, Bool.not_eq_false',
              beq_eq_false_iff_ne, ne_eq] at h2
            refine .inr (atName_pend h2.1 (fun y hy => ?_) hR)
            obtain ⟨z, c', rfl, hz⟩ := itemSrc_head hc
            simp only [List.nil_append, List.cons_append, List.head?_cons, Option.some.injEq] at hy
            subst hy
            rcases hz with rfl | hz | hz | hz
            · have : isPunct z = true := by simpa [isWordChr] using hm.2
              exact ⟨punct_name this, fun h => h2.2 (by rw [h])⟩
            · exact absurd hz (hlit _)
            · simp only [quote, Bool.or_eq_true, beq_iff_eq] at hz
              rcases hz with rfl | rfl <;> decide
            · rw [hL] at hz; cases hz.2
          · rw [if_neg hm] at eh
            subst eh
            exact .inl (hR' rfl)
        · left
          by_cases hh : h = []
          · subst hh
            have ek : k = false := by
              cases k with
              | false => rfl
              | true => simp at eh
            subst ek
            have ekr : keepRule alpha xs x r = false := by
              cases g with
              | none => exact absurd rfl hg
              | blank => exact (hk.2.1 rfl).symm
              | comment =>
                cases h : keepRule alpha xs x r with
                | false => rfl
                | true => have := hk.2.2 rfl h; cases this
            have eauto : autoGap xs g x = false := by
              simp only [autoText, hLx, Bool.false_eq_true, ↓reduceIte, List.append_nil] at eh
              unfold autoGap
              rw [hLx, Bool.false_or]
              split at eh
              · cases eh
              · rename_i h; simpa using h
            have hgl := hr.1.1
            have hg' : (g != Gap.none) = true := by simpa using hg
            simp only [hg', ekr, eauto, Bool.not_false, Bool.true_and] at hgl
            exact .drop hb.1 (hbn hg) (hglue _ hgl) hR
          · exact .gap hb.1 (hbn hg) (skip_blanks hgb) hh (fun _ => hgb) hR
      · subst hg
        have hb0 : b = [] := hb.2.mp rfl
        subst hb0
        have hk0 := hk.1 rfl
        subst hk0
        have hwl := wordEnd_license hwe
        have : h = [] := by
          simp only [autoText, hwl.1, hw, Bool.false_eq_true, ↓reduceIte, List.append_nil, beq_self_eq_true, Bool.true_and,
            Bool.not_true, Bool.and_false] at eh
          exact eh.symm
        subst this
        refine ⟨fun h => ?_, fun h => absurd h hback, fun _ _ => .inr ?_, hside.1, fun _ hd => hside.2 hd hback'⟩
        · rw [hwl.1] at h; cases h
        · simpa using hP

/-- All marks. -/
theorem suf_all {alpha : Char → Bool} {xs : List Mark} {a : List Char} (hs : Src xs a) : ∀ (r : List Mark) (ks : List Bool) (S O : List Char),
    Cleaned alpha r xs ks → risky alpha r xs = false → Suf r xs S O → Rel none (a ++ S) (text xs ks ++ O) := by
  induction hs with
  | nil =>
    intro r ks S O hk _ h
    cases ks with
    | nil =>
      rcases h.other rfl rfl with h | ⟨m, n, w, S1, O1, e, _⟩
      · exact h
      · cases e
    | cons _ _ => exact hk.elim
  | @snoc xs a g b x c h1 h2 h3 h4 ih =>
    intro r ks S O hk hr h
    cases ks with
    | nil => exact hk.elim
    | cons k ks =>
      obtain ⟨k1, k2, k3, k4⟩ := hk
      have hstep := suf_step h2 h3 h4 h ⟨k1, k2, fun e => (k3 e).1⟩ hr
      simp only [risky, Bool.or_eq_false_iff] at hr
      have := ih _ ks _ _ k4 hr.2 hstep
      simpa [text] using this

/-- The end. -/
theorem suf_tail {xs : List Mark} {g : Gap} {b O : List Char} (hb : GapText g b) (hO : ∀ c ∈ O, isBlank c = true)
    (hl : lastIs '\\' xs = false) : Suf [] xs b O := by
  have hnil : Rel none [] [] := .nil (by simp)
  have e1 : b = b ++ [] := by simp
  have e2 : O = O ++ [] := by simp
  refine ⟨fun _ => ⟨b, O, [], [], hb.1, skip_blanks hO, e1, e2, hnil⟩, fun h => ?_, fun _ _ => .inl ?_, fun _ => ?_, fun _ h => ?_⟩
  · rw [hl] at h; cases h
  · by_cases hbn : b = []
    · subst hbn
      exact .nil hO
    · by_cases hOn : O = []
      · subst hOn
        rw [e1]
        exact .drop hb.1 hbn (glues_nil _) hnil
      · rw [e1, e2]
        exact .gap hb.1 hbn (skip_blanks hO) hOn (fun _ => hO) hnil
  · rcases hb.1.head with rfl | ⟨y, t, rfl, h⟩
    · simp
    · simp only [List.head?_cons, ne_eq, Option.some.injEq]
      rintro rfl
      rcases h with h | h
      · exact absurd h (by decide)
      · exact absurd h.1 (by decide)
  · rcases hb.1.head with rfl | ⟨y, t, rfl, h'⟩
    · cases h
    · simp only [headDigit] at h
      rcases h' with h' | h'
      · rw [blank_digit h'] at h; cases h
      · rw [h'.1] at h; exact absurd h (by decide)

/-- The source and the output of the minifier have the same tokens. -/
theorem text_toks {alpha : Char → Bool} {s : List Char} {ks : List Bool} {k : Bool}
    (ho : .openStr ∉ items s) (hc : .openComment ∉ items s) (ht : tame (items s) = true)
    (hp : ∀ t ∈ toks s, plainTok t = true) (hk : Cleaned alpha [] (marks (items s)).acc ks)
    (hr : risky alpha [] (marks (items s)).acc = false) :
    toks (text (marks (items s)).acc ks ++ autoText (marks (items s)).acc false ++ (if k then [' '] else [])) = toks s := by
  obtain ⟨a, b, e, h1, h2, h3⟩ := src_marks s.length s {} [] [] (Nat.le_refl _) .nil gapText_none ho hc ht rfl (by intro _ h; cases h)
  have hrel := suf_all h1 [] ks b (autoText (marks (items s)).acc false ++ (if k then [' '] else [])) hk hr
    (suf_tail h2 gap_blank h3)
  have e' : s = a ++ b := by simpa using e
  rw [← e'] at hrel
  have := rel_toks s.length none s _ (Nat.le_refl _) hrel hp
  rw [this, List.append_assoc]
  rfl

end Verif.Spec.CssSyntax
