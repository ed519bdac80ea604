import Verif.Proofs.CssOut
/-!
# Minifying twice

The marks of the output have the same places, words and `calc` as those of the source (`Sim`), so that the same gaps are kept the
second time.
-/
set_option linter.unusedSimpArgs false

namespace Verif.Css
open Spec.Css

theorem gap_iff {g g' : Gap} (h : g = .none ↔ g' = .none) : (g' == .none) = (g == .none) ∧ (g' != .none) = (g != .none) := by
  cases g <;> cases g' <;> simp at h <;> exact ⟨rfl, rfl⟩

theorem gap_not_comment {g : Gap} (h : g ≠ .comment) : (g != .comment) = true := by cases g <;> first | rfl | exact absurd rfl h

/-- `ys` is `xs` with other gaps, none of which changes how the list is read. -/
def Sim : List Mark → List Mark → Prop
  | [], [] => True
  | (g, x) :: xs, (g', y) :: ys =>
    (y = x ∧ g ≠ .comment ∧ g' ≠ .comment) ∧
    (wordEnd xs = true → isWordChr x = true → (g = .none ↔ g' = .none)) ∧
    (lastIs '*' xs = true → x = .chr '=' → (g = .none ↔ g' = .none)) ∧
    (lastLicense xs = false → isWordChr x = true → g = .none → g' = .none) ∧
    (lastIs ':' xs = true → g' = .none) ∧
    (colonWord xs = true → (g ≠ .none ∨ isWordChr x = false) → (lastWord xs).1 ≠ ['c', 'a', 'l', 'c']) ∧ Sim xs ys
  | _, _ => False

theorem Sim.wordEnd_eq {xs ys : List Mark} (h : Sim xs ys) : wordEnd ys = wordEnd xs := by
  cases xs with
  | nil => cases ys <;> first | rfl | exact h.elim
  | cons m xs =>
    cases ys with
    | nil => exact h.elim
    | cons n ys => obtain ⟨⟨h, _⟩, _⟩ := h; simp only [wordEnd, h]

theorem Sim.lastIs_eq {xs ys : List Mark} (h : Sim xs ys) (c : Char) : lastIs c ys = lastIs c xs := by
  cases xs with
  | nil => cases ys <;> first | rfl | exact h.elim
  | cons m xs =>
    cases ys with
    | nil => exact h.elim
    | cons n ys => obtain ⟨⟨h, _⟩, _⟩ := h; simp only [lastIs, h]

theorem Sim.lastLicense_eq {xs ys : List Mark} (h : Sim xs ys) : lastLicense ys = lastLicense xs := by
  cases xs with
  | nil => cases ys <;> first | rfl | exact h.elim
  | cons m xs =>
    cases ys with
    | nil => exact h.elim
    | cons n ys => obtain ⟨⟨h, _⟩, _⟩ := h; simp only [lastLicense, h]

theorem Sim.lastLit_eq {xs ys : List Mark} (h : Sim xs ys) : lastLit ys = lastLit xs := by
  cases xs with
  | nil => cases ys <;> first | rfl | exact h.elim
  | cons m xs =>
    cases ys with
    | nil => exact h.elim
    | cons n ys =>
      obtain ⟨⟨h, _⟩, _⟩ := h
      obtain ⟨g, x⟩ := m
      obtain ⟨g', y⟩ := n
      simp only at h; subst h
      cases y <;> rfl

theorem lastWord_chr {g : Gap} {x : Item} {xs : List Mark} (h : isWordChr x = true) :
    ∃ c, x = .chr c ∧ lastWord ((g, x) :: xs) =
      if g = .none ∧ wordEnd xs = true then ((lastWord xs).1 ++ [c], (lastWord xs).2) else ([c], g, xs) := by
  cases x with
  | chr c =>
    simp only [isWordChr, Bool.not_eq_true'] at h
    refine ⟨c, rfl, ?_⟩
    rw [lastWord]
    simp only [h, Bool.false_eq_true, if_false]
  | _ => simp [isWordChr] at h

theorem lastWord_nochr {g : Gap} {x : Item} {xs : List Mark} (h : isWordChr x = false) :
    lastWord ((g, x) :: xs) = ([], .none, (g, x) :: xs) := by
  cases x with
  | chr c =>
    simp only [isWordChr, Bool.not_eq_false'] at h
    simp [lastWord, h]
  | _ => rfl

/-- The last words are the same, after similar lists. -/
theorem Sim.lastWord_eq {xs ys : List Mark} (h : Sim xs ys) :
    (lastWord ys).1 = (lastWord xs).1 ∧ Sim (lastWord xs).2.2 (lastWord ys).2.2 ∧ (lastWord xs).2.1 ≠ .comment ∧
      (lastWord ys).2.1 ≠ .comment ∧ (wordEnd xs = true → lastIs ':' (lastWord xs).2.2 = true → (lastWord ys).2.1 = .none) := by
  induction xs generalizing ys with
  | nil =>
    cases ys with
    | nil => exact ⟨rfl, trivial, by simp [lastWord], by simp [lastWord], by simp [wordEnd]⟩
    | cons n ys => exact h.elim
  | cons m xs ih =>
    cases ys with
    | nil => exact h.elim
    | cons n ys =>
      obtain ⟨g, x⟩ := m
      obtain ⟨g', y⟩ := n
      have h0 := h
      obtain ⟨⟨hy, hg, hg'⟩, h1, h2, h3, h4, h5, h6⟩ := h
      subst hy
      have ih := ih h6
      cases hx : isWordChr y with
      | false =>
        rw [lastWord_nochr hx, lastWord_nochr hx]
        exact ⟨rfl, h0, by simp, by simp, by simp [wordEnd, hx]⟩
      | true =>
        obtain ⟨c, rfl, hl⟩ := lastWord_chr (g := g) (xs := xs) hx
        obtain ⟨c', hc', hl'⟩ := lastWord_chr (g := g') (xs := ys) hx
        cases hc'
        rw [hl, hl', h6.wordEnd_eq]
        cases hw : wordEnd xs with
        | false =>
          simp only [Bool.false_eq_true, and_false, if_false]
          exact ⟨trivial, h6, hg, hg', fun _ => h4⟩
        | true =>
          have hiff := h1 hw hx
          by_cases hgn : g = .none
          · rw [if_pos ⟨hiff.1 hgn, rfl⟩, if_pos ⟨hgn, rfl⟩]
            refine ⟨by rw [ih.1], ih.2.1, ih.2.2.1, ih.2.2.2.1, fun _ => ih.2.2.2.2 hw⟩
          · rw [if_neg (fun h => hgn (hiff.2 h.1)), if_neg (fun h => hgn h.1)]
            exact ⟨rfl, h6, hg, hg', fun _ => h4⟩

theorem afterColon_eq {g g' : Gap} {xs ys : List Mark} (h : Sim xs ys) (hg : g ≠ .comment) (hg' : g' ≠ .comment) :
    afterColon g' ys = afterColon g xs := by
  unfold afterColon
  rw [h.lastIs_eq, gap_not_comment hg, gap_not_comment hg']

theorem Sim.afterAt_eq {xs ys : List Mark} (h : Sim xs ys) : afterAt ys = afterAt xs := by
  cases xs with
  | nil => cases ys <;> first | rfl | exact h.elim
  | cons m xs =>
    cases ys with
    | nil => exact h.elim
    | cons n ys =>
      obtain ⟨g, x⟩ := m
      obtain ⟨g', y⟩ := n
      obtain ⟨⟨hy, hg, hg'⟩, h1, _, _, _, _, h6⟩ := h
      subst hy
      simp only [afterAt, afterColon_eq h6 hg hg', h6.wordEnd_eq]
      by_cases hx : y = .chr '@'
      · cases hw : wordEnd xs with
        | false => simp
        | true =>
          have := h1 hw (by rw [hx]; rfl)
          rw [(gap_iff this).2]
      · rw [beq_eq_false_iff_ne.2 hx]; rfl

theorem Sim.place_eq {xs ys : List Mark} (h : Sim xs ys) : place ys = place xs := by
  induction xs generalizing ys with
  | nil => cases ys <;> first | rfl | exact h.elim
  | cons m xs ih =>
    cases ys with
    | nil => exact h.elim
    | cons n ys =>
      obtain ⟨g, x⟩ := m
      obtain ⟨g', y⟩ := n
      obtain ⟨⟨hy, hg, hg'⟩, h1, _, _, _, _, h6⟩ := h
      subst hy
      rw [place, place, ih h6, h6.afterAt_eq]
      have : (isWordChr y && g' == .none && afterAt xs) = (isWordChr y && g == .none && afterAt xs) := by
        cases hx : isWordChr y with
        | false => rfl
        | true =>
          cases ha : afterAt xs with
          | false => simp
          | true =>
            have hw : wordEnd xs = true := by
              cases xs with
              | nil => simp [afterAt] at ha
              | cons m xs =>
                simp only [afterAt, Bool.and_eq_true, beq_iff_eq] at ha
                simp only [wordEnd, ha.1.1]; rfl
            have := h1 hw hx
            rw [(gap_iff this).1]
      simp only [this]

/-- Reading a word as a selector can only be gained. -/
theorem Sim.selTok_eq {alpha : Char → Bool} {xs ys : List Mark} (h : Sim xs ys) {g g' : Gap} (hg : g ≠ .comment) (hg' : g' ≠ .comment)
    (hc : lastIs ':' xs = true → g' = .none) (w : List Char) :
    (selTok alpha xs g w = true → selTok alpha ys g' w = true) ∧
    (selTok alpha ys g' w = true → selTok alpha xs g w = true ∨ (g = .blank ∧ lastIs ':' xs = true ∧ (place xs).sel = true)) := by
  unfold selTok
  rw [h.place_eq, afterColon_eq h hg hg']
  cases hp : (place xs).sel with
  | false => simp
  | true =>
    cases ha : afterColon g xs with
    | false => exact ⟨fun h => by simpa using h, fun h => Or.inl (by simpa using h)⟩
    | true =>
      have hl : lastIs ':' xs = true := by simp only [afterColon, Bool.and_eq_true] at ha; exact ha.1
      rw [hc hl]
      cases g with
      | none => simp
      | blank => simp [hl]
      | comment => exact absurd rfl hg

theorem Sim.selWord_eq {alpha : Char → Bool} {xs ys : List Mark} (h : Sim xs ys) :
    (selWord alpha xs = true → selWord alpha ys = true) ∧
    (selWord alpha ys = true → selWord alpha xs = true ∨ colonWord xs = true) := by
  obtain ⟨e1, e2, e3, e4, e5⟩ := h.lastWord_eq
  unfold selWord colonWord
  rw [h.wordEnd_eq, e1]
  cases hw : wordEnd xs with
  | false => simp
  | true =>
    have := e2.selTok_eq (alpha := alpha) e3 e4 (e5 hw) (lastWord xs).1
    simp only [Bool.true_and]
    refine ⟨this.1, fun h => ?_⟩
    rcases this.2 h with h | ⟨h1, h2, h3⟩
    · exact Or.inl h
    · right; simp [h1, h2, h3]

theorem Sim.mediaWord_eq {xs ys : List Mark} (h : Sim xs ys) : mediaWord ys = mediaWord xs := by
  obtain ⟨e1, e2, e3, e4, _⟩ := h.lastWord_eq
  unfold mediaWord
  rw [e1, e2.place_eq, afterColon_eq e2 e3 e4]

/-- A glued `calc`. -/
def badCalc (xs : List Mark) : Prop := colonWord xs = true ∧ (lastWord xs).1 = ['c', 'a', 'l', 'c']

theorem Sim.calcWord_eq {alpha : Char → Bool} {xs ys : List Mark} (h : Sim xs ys) (hb : ¬ badCalc xs) : calcWord alpha ys = calcWord alpha xs := by
  obtain ⟨e1, _⟩ := h.lastWord_eq
  unfold calcWord
  rw [e1]
  by_cases hc : (lastWord xs).1 = ['c', 'a', 'l', 'c']
  · have hs := h.selWord_eq (alpha := alpha)
    have : selWord alpha ys = selWord alpha xs := by
      rw [Bool.eq_iff_iff]
      refine ⟨fun h => ?_, hs.1⟩
      rcases hs.2 h with h | h
      · exact h
      · exact absurd ⟨h, hc⟩ hb
    rw [this]
  · rw [beq_eq_false_iff_ne.2 hc]; rfl

theorem Sim.calcState_eq {alpha : Char → Bool} {xs ys : List Mark} (h : Sim xs ys) : calcState alpha ys = calcState alpha xs := by
  induction xs generalizing ys with
  | nil => cases ys <;> first | rfl | exact h.elim
  | cons m xs ih =>
    cases ys with
    | nil => exact h.elim
    | cons n ys =>
      obtain ⟨g, x⟩ := m
      obtain ⟨g', y⟩ := n
      obtain ⟨⟨hy, hg, hg'⟩, h1, _, _, _, h5, h6⟩ := h
      subst hy
      rw [calcState, calcState, ih h6]
      have : ((g' != .none || !isWordChr y) && calcWord alpha ys) = ((g != .none || !isWordChr y) && calcWord alpha xs) := by
        cases hw : wordEnd xs with
        | false => rw [calcWord_not alpha hw, calcWord_not alpha (by rw [h6.wordEnd_eq, hw])]; simp
        | true =>
          have hgg : (g' != .none || !isWordChr y) = (g != .none || !isWordChr y) := by
            cases hx : isWordChr y with
            | false => simp
            | true =>
              have := h1 hw hx
              rw [(gap_iff this).2]
          rw [hgg]
          cases hc : (g != .none || !isWordChr y) with
          | false => rfl
          | true =>
            have hnb : ¬ badCalc xs := by
              rintro ⟨b1, b2⟩
              refine h5 b1 ?_ b2
              simp only [Bool.or_eq_true, bne_iff_ne, ne_eq, Bool.not_eq_true'] at hc
              exact hc
            rw [h6.calcWord_eq hnb]
      simp only [this]

theorem Sim.inCalc_eq {alpha : Char → Bool} {xs ys : List Mark} (h : Sim xs ys) (hb : ¬ badCalc xs) : inCalc alpha ys = inCalc alpha xs := by
  unfold inCalc calcNow
  rw [h.calcWord_eq hb, h.calcState_eq]

theorem Sim.recorded_eq {xs ys : List Mark} (h : Sim xs ys) : recorded ys = recorded xs := by
  unfold recorded
  rw [h.lastIs_eq, h.lastIs_eq, h.lastIs_eq, h.lastLicense_eq]
  have : ending ys = ending xs := by
    cases xs with
    | nil => cases ys <;> first | rfl | exact h.elim
    | cons m xs =>
      cases ys with
      | nil => exact h.elim
      | cons n ys =>
        obtain ⟨g, x⟩ := m
        obtain ⟨g', y⟩ := n
        obtain ⟨⟨hy, hg, hg'⟩, _, h2, _, _, _, h6⟩ := h
        subst hy
        simp only [ending]
        have : attrOp ((g', y) :: ys) = attrOp ((g, y) :: xs) := by
          cases xs with
          | nil => cases ys <;> first | rfl | exact h6.elim
          | cons m xs =>
            cases ys with
            | nil => exact h6.elim
            | cons n ys =>
              obtain ⟨g1, x1⟩ := m
              obtain ⟨g2, y1⟩ := n
              have e := h6.1.1
              subst e
              simp only [attrOp]
              by_cases hx : y = .chr '='
              · by_cases hs : y1 = .chr '*'
                · have := h2 (by simp [lastIs, hs]) hx
                  rw [(gap_iff this).1, gap_not_comment hg, gap_not_comment hg']
                · rw [beq_eq_false_iff_ne.2 hs, gap_not_comment hg, gap_not_comment hg']; rfl
              · rw [beq_eq_false_iff_ne.2 hx]; rfl
        rw [this]
  rw [this]

/-- The lists that follow `x`. -/
def RRel (x : Item) : List Mark → List Mark → Prop
  | [], [] => True
  | (g, y) :: _, (g', z) :: _ =>
    z = y ∧ g ≠ .comment ∧ g' ≠ .comment ∧ (isLicense x = false → isWordChr y = true → g = .none → g' = .none) ∧
      (x = .chr '*' → y = .chr '=' → (g = .none ↔ g' = .none))
  | _, _ => False

theorem RRel.directWord_eq {x : Item} {r r' : List Mark} (h : RRel x r r') (hx : isLicense x = false) (hd : directWord r = true) :
    directWord r' = true := by
  cases r with
  | nil => simp [directWord] at hd
  | cons m r =>
    cases r' with
    | nil => exact h.elim
    | cons n r' =>
      obtain ⟨g, y⟩ := m
      obtain ⟨g', z⟩ := n
      obtain ⟨rfl, _, _, h4, _⟩ := h
      simp only [directWord, Bool.and_eq_true, beq_iff_eq] at hd ⊢
      exact ⟨h4 hx hd.2 hd.1, hd.2⟩

theorem RRel.opAt_eq {x : Item} {r r' : List Mark} (h : RRel x r r') : opAt x r' = opAt x r := by
  cases r with
  | nil => cases r' <;> first | rfl | exact h.elim
  | cons m r =>
    cases r' with
    | nil => exact h.elim
    | cons n r' =>
      obtain ⟨g, y⟩ := m
      obtain ⟨g', z⟩ := n
      obtain ⟨rfl, hg, hg', _, h5⟩ := h
      simp only [opAt, attrOp]
      by_cases hy : z = .chr '='
      · by_cases hx : x = .chr '*'
        · have := h5 hx hy
          rw [(gap_iff this).1, gap_not_comment hg, gap_not_comment hg']
        · rw [beq_eq_false_iff_ne.2 hx, gap_not_comment hg, gap_not_comment hg']; rfl
      · rw [beq_eq_false_iff_ne.2 hy]; rfl

theorem pseudoAt_mono {xs ys : List Mark} (h : Sim xs ys) {x : Item} {r r' : List Mark} (hr : RRel x r r') (hp : pseudoAt xs x r = true) :
    pseudoAt ys x r' = true := by
  simp only [pseudoAt, Bool.and_eq_true, beq_iff_eq] at hp ⊢
  exact ⟨⟨hp.1.1, hr.directWord_eq (by rw [hp.1.1]; rfl) hp.1.2⟩, by rw [h.place_eq]; exact hp.2⟩

theorem selAt_mono {alpha : Char → Bool} {xs ys : List Mark} (h : Sim xs ys) {x : Item} {r r' : List Mark} (hr : RRel x r r')
    (hp : selAt alpha xs x r = true) : selAt alpha ys x r' = true := by
  unfold selAt at hp ⊢
  rw [Bool.or_eq_true] at hp ⊢
  rcases hp with hp | hp
  · left
    cases x with
    | chr c =>
      simp only [Bool.and_eq_true] at hp ⊢
      refine ⟨⟨hp.1.1, by rw [h.place_eq]; exact hp.1.2⟩, ?_⟩
      by_cases hc : c = '.' ∨ c = '#' ∨ c = '@'
      · rw [if_pos hc] at hp ⊢
        exact hr.directWord_eq rfl hp.2
      · rw [if_neg hc] at hp ⊢
        exact hp.2
    | _ => cases hp
  · exact Or.inr (pseudoAt_mono h hr hp)

/-- A blank that is kept is kept again. -/
theorem keepRule_mono {alpha : Char → Bool} {xs ys : List Mark} (h : Sim xs ys) {x : Item} {r r' : List Mark} (hr : RRel x r r')
    (hb : ¬ badCalc xs) (hx : colonWord xs = true → x ≠ .chr '(') (hk : keepRule alpha xs x r = true) : keepRule alpha ys x r' = true := by
  rw [keepRule_eq] at hk ⊢
  rw [h.recorded_eq, h.lastIs_eq, h.lastIs_eq, h.lastIs_eq, h.lastIs_eq, h.inCalc_eq hb, h.lastLicense_eq, h.mediaWord_eq, h.wordEnd_eq, h.lastLit_eq, hr.opAt_eq]
  rw [Bool.and_eq_true] at hk ⊢
  refine ⟨hk.1, ?_⟩
  have hk := hk.2
  split at hk
  · rename_i q1; rw [if_pos q1]; exact hk
  · rename_i q1
    rw [if_neg q1]
    split at hk
    · rename_i q2; rw [if_pos q2]
    · rename_i q2
      rw [if_neg q2]
      split at hk
      · rename_i q3
        rw [if_pos q3]
        rw [Bool.or_eq_true] at hk ⊢
        rcases hk with hk | hk
        · exact Or.inl hk
        · exact Or.inr (selAt_mono h hr hk)
      · rename_i q3
        rw [if_neg q3]
        split at hk
        · rename_i q4; rw [if_pos q4]; exact hk
        · rename_i q4
          rw [if_neg q4]
          split at hk
          · cases hk
          · rename_i q5
            rw [if_neg q5]
            simp only [Bool.or_eq_true, Bool.and_eq_true, Bool.not_eq_true'] at hk ⊢
            rcases hk with (hk | hk) | hk
            · exact Or.inl (Or.inl ⟨h.selWord_eq.1 hk.1, hk.2⟩)
            · refine Or.inl (Or.inr ⟨hk.1, ?_⟩)
              rcases hk.2 with (hk | hk) | hk
              · exact Or.inl (Or.inl hk)
              · exact Or.inl (Or.inr (pseudoAt_mono h hr hk))
              · exact Or.inr hk
            · refine Or.inr ⟨hk.1, ?_, hk.2.2⟩
              rw [Bool.eq_false_iff]
              intro hs
              rcases h.selWord_eq.2 hs with hs | hs
              · rw [hk.2.1] at hs; cases hs
              · exact hx hs (by simpa using hk.1)

theorem mediaWord_wordEnd {xs : List Mark} (h : mediaWord xs = true) : wordEnd xs = true := by
  rw [← Bool.not_eq_false]
  intro hw
  rw [mediaWord_not hw] at h; cases h

theorem mediaWord_selWord {alpha : Char → Bool} {xs : List Mark} (h : mediaWord xs = true) : selWord alpha xs = true := by
  unfold selWord
  rw [mediaWord_wordEnd h]
  unfold mediaWord at h
  simp only [Bool.and_eq_true, Bool.not_eq_true'] at h
  obtain ⟨⟨h1, h2⟩, h3⟩ := h
  unfold selTok
  rw [h2, h3]
  split at h1
  · rename_i hl; rw [hl]; simp [startsSel]
  · cases h1

theorem mediaWord_calc {xs : List Mark} (h : mediaWord xs = true) : (lastWord xs).1 ≠ ['c', 'a', 'l', 'c'] := by
  unfold mediaWord at h
  simp only [Bool.and_eq_true, Bool.not_eq_true'] at h
  obtain ⟨⟨h1, _⟩, _⟩ := h
  intro e
  rw [e] at h1
  cases h1

theorem colonWord_wordEnd {xs : List Mark} (h : colonWord xs = true) : wordEnd xs = true := by
  simp only [colonWord, Bool.and_eq_true] at h; exact h.1.1.1

theorem lastLicense_wordEnd {xs : List Mark} (h : lastLicense xs = true) : wordEnd xs = false := by
  rw [Bool.eq_false_iff]; intro hw
  rw [lastLicense_word hw] at h; cases h

theorem lastLicense_lastIs {xs : List Mark} (h : lastLicense xs = true) (c : Char) : lastIs c xs = false := by
  cases xs with
  | nil => rfl
  | cons m xs => obtain ⟨g, x⟩ := m; cases x <;> first | rfl | cases h

/-- After a licence or the name of an at-rule. -/
theorem autoGap_badCalc {xs : List Mark} {g : Gap} {x : Item} (h : autoGap xs g x = true) : ¬ badCalc xs := by
  rintro ⟨b1, b2⟩
  simp only [autoGap, Bool.or_eq_true, Bool.and_eq_true] at h
  rcases h with h | h
  · have := lastLicense_wordEnd h
    rw [colonWord_wordEnd b1] at this; cases this
  · exact mediaWord_calc h.1 b2

/-- The rule after a licence or the name of an at-rule, outside `calc`. -/
theorem keepRule_auto {alpha : Char → Bool} {xs : List Mark} {g : Gap} {x : Item} {r : List Mark} (h : autoGap xs g x = true) :
    keepRule alpha xs x r = (inCalc alpha xs || (mediaWord xs && (x == .chr '*' && !opAt x r))) := by
  rw [keepRule_eq]
  simp only [autoGap, Bool.or_eq_true, Bool.and_eq_true] at h
  rcases h with h | h
  · have hw := lastLicense_wordEnd h
    have hrec : recorded xs = true := by simp [recorded, h]
    simp only [lastLicense_lastIs h, hrec, h, mediaWord_not hw]
    cases inCalc alpha xs <;> simp
  · have hw := mediaWord_wordEnd h.1
    simp only [recorded_word hw, lastIs_word hw (c := ']') (by decide), lastIs_word hw (c := '*') (by decide),
      lastIs_word hw (c := '/') (by decide), lastIs_word hw (c := '+') (by decide), lastLicense_word hw, h.1,
      mediaWord_selWord (alpha := alpha) h.1]
    cases inCalc alpha xs <;> simp

theorem stable_cons {alpha : Char → Bool} {g : Gap} {x : Item} {xs r : List Mark} (h : stable alpha r ((g, x) :: xs) = true) :
    g ≠ .comment ∧ (colonWord xs = true → g = .blank → x ≠ .chr '(') ∧
    (colonWord xs = true → (g ≠ .none ∨ isWordChr x = false) → (lastWord xs).1 ≠ ['c', 'a', 'l', 'c']) ∧
    (g = .none → autoGap xs g x = true → inCalc alpha xs = false ∧ (mediaWord xs && (x == .chr '*' && !opAt x r)) = false) ∧
    stable alpha ((g, x) :: r) xs = true := by
  simp only [stable, Bool.and_eq_true, Bool.not_eq_true', bne_iff_ne, ne_eq] at h
  obtain ⟨⟨⟨⟨h1, h2⟩, h3⟩, h4⟩, h5⟩ := h
  refine ⟨h1, ?_, ?_, ?_, h5⟩
  · rintro a rfl rfl
    simp [a] at h2
  · intro a b c
    simp only [a, c, Bool.true_and, beq_self_eq_true, Bool.and_true] at h3
    rcases b with b | b
    · simp [b] at h3
    · simp [b] at h3
  · rintro rfl a
    rw [a, Bool.and_assoc (mediaWord xs)] at h4
    simpa using h4

/-- The output is similar to the source. -/
theorem sim_out {alpha : Char → Bool} (acc : List Mark) : ∀ (r : List Mark) (ks : List Bool), stable alpha r acc = true →
    Cleaned alpha r acc ks → Sim acc (outMarks acc ks) := by
  induction acc with
  | nil => intro r ks _ h; cases ks <;> first | trivial | exact h.elim
  | cons m xs ih =>
    intro r ks hst h
    obtain ⟨g, x⟩ := m
    cases ks with
    | nil => exact h.elim
    | cons k ks =>
      obtain ⟨s1, s2, s3, s4, s5⟩ := stable_cons hst
      obtain ⟨c1, c2, c3, c4⟩ := h
      have hsim := ih _ _ s5 c4
      rw [outMarks]
      have hnone : g = .none → lastLicense xs = false → isWordChr x = true → (if k || autoGap xs g x then Gap.blank else Gap.none) = .none := by
        intro hg hl hx
        rw [c1 hg]
        simp [autoGap, hl, hg, hx]
      have hblank : k = true → (if k || autoGap xs g x then Gap.blank else Gap.none) ≠ .none := by
        intro hk; simp [hk]
      refine ⟨⟨rfl, s1, ?_⟩, ?_, ?_, ?_, ?_, s3, hsim⟩
      · split <;> simp
      · intro hw hx
        constructor
        · intro hg; exact hnone hg (lastLicense_word hw) hx
        · intro hg'
          cases g with
          | none => rfl
          | comment => exact absurd rfl s1
          | blank =>
            exfalso
            by_cases hm : mediaWord xs = true
            · simp [autoGap, hm] at hg'
            · refine hblank ?_ hg'
              have ho : opens x = true := by
                cases x with
                | chr c => simp only [isWordChr] at hx; simp [opens, hx]
                | _ => simp [isWordChr] at hx
              rw [c2 rfl, keepRule_eq]
              simp only [recorded_word hw, lastIs_word hw (c := ']') (by decide), lastIs_word hw (c := '*') (by decide),
                lastIs_word hw (c := '/') (by decide), lastIs_word hw (c := '+') (by decide), lastLicense_word hw, ho, hm]
              cases inCalc alpha xs <;> simp
      · intro hs hx
        have hne : ∀ c, c ≠ '*' → lastIs c xs = false := by
          intro c hc
          cases xs with
          | nil => rfl
          | cons m xs =>
            simp only [lastIs, beq_iff_eq] at hs
            simp only [lastIs, hs, beq_eq_false_iff_ne, ne_eq, Item.chr.injEq]
            exact fun e => hc e.symm
        have hw : wordEnd xs = false := by
          cases xs with
          | nil => rfl
          | cons m xs =>
            simp only [lastIs, beq_iff_eq] at hs
            simp only [wordEnd, hs]; rfl
        have hl : lastLicense xs = false := by
          rw [Bool.eq_false_iff]; intro hl
          rw [lastLicense_lastIs hl] at hs; cases hs
        have ha : autoGap xs g x = false := by simp [autoGap, hl, mediaWord_not hw]
        rw [ha]
        cases g with
        | none => rw [c1 rfl]; simp
        | comment => exact absurd rfl s1
        | blank =>
          have : k = true := by
            rw [c2 rfl, keepRule_eq]
            have hrec : recorded xs = true := by simp [recorded, hs]
            rw [hrec, hne ']' (by decide), hs, hx]
            cases inCalc alpha xs <;> simp
          simp [this]
      · intro hl hx hg; exact hnone hg hl hx
      · intro hc
        have hw : wordEnd xs = false := by
          cases xs with
          | nil => rfl
          | cons m xs =>
            simp only [lastIs, beq_iff_eq] at hc
            simp only [wordEnd, hc]; rfl
        have hl : lastLicense xs = false := by
          rw [Bool.eq_false_iff]; intro hl
          rw [lastLicense_lastIs hl] at hc; cases hc
        have ha : autoGap xs g x = false := by simp [autoGap, hl, mediaWord_not hw]
        have hrec : recorded xs = false := by
          cases xs with
          | nil => rfl
          | cons m xs =>
            obtain ⟨g0, y⟩ := m
            simp only [lastIs, beq_iff_eq] at hc
            subst hc
            unfold recorded ending
            simp only [attrOp_not (g := g0) (x := .chr ':') (xs := xs) (by simp)]
            rfl
        have : k = false := by
          cases g with
          | none => exact c1 rfl
          | comment => exact absurd rfl s1
          | blank => rw [c2 rfl, keepRule_eq, hrec]; rfl
        rw [this, ha]; rfl

/-- The lists that follow a list. -/
def HeadRel : List Mark → List Mark → List Mark → Prop
  | [], _, _ => True
  | (_, x) :: _, r, r' => RRel x r r'

/-- The same gaps are kept the second time. -/
theorem same_ks {alpha : Char → Bool} (acc : List Mark) : ∀ (r r' : List Mark) (ks ks' : List Bool), stable alpha r acc = true →
    Cleaned alpha r acc ks → Cleaned alpha r' (outMarks acc ks) ks' →
    HeadRel acc r r' → ks' = ks := by
  induction acc with
  | nil =>
    intro r r' ks ks' _ h h' _
    cases ks with
    | nil => cases ks' <;> first | rfl | exact h'.elim
    | cons => exact h.elim
  | cons m xs ih =>
    intro r r' ks ks' hst h h' hr
    obtain ⟨g, x⟩ := m
    cases ks with
    | nil => exact h.elim
    | cons k ks =>
      have hsim0 := sim_out _ _ _ hst h
      obtain ⟨s1, s2, s3, s4, s5⟩ := stable_cons hst
      obtain ⟨c1, c2, c3, c4⟩ := h
      rw [outMarks] at h' hsim0
      cases ks' with
      | nil => exact h'.elim
      | cons k' ks' =>
        obtain ⟨d1, d2, d3, d4⟩ := h'
        obtain ⟨⟨_, _, hg'⟩, h1, h2, h3, h4, h5, hsim⟩ := hsim0
        have hrr : HeadRel xs ((g, x) :: r) ((if k || autoGap xs g x then Gap.blank else Gap.none, x) :: r') := by
          cases xs with
          | nil => trivial
          | cons n xs =>
            obtain ⟨g0, y⟩ := n
            refine ⟨rfl, s1, hg', fun hl => h3 hl, fun hy => h2 (by simp [lastIs, hy])⟩
        rw [ih _ _ _ _ s5 c4 d4 hrr]
        congr 1
        have hr : RRel x r r' := hr
        cases hk : k with
        | true =>
          rw [hk] at d2
          have hg : g = .blank := by
            cases g with
            | none => rw [c1 rfl] at hk; cases hk
            | blank => rfl
            | comment => exact absurd rfl s1
          have hnb : ¬ badCalc xs := by
            rintro ⟨b1, b2⟩
            exact s3 b1 (Or.inl (by simp [hg])) b2
          rw [d2 (by simp)]
          refine keepRule_mono hsim hr hnb (fun hc => s2 hc hg) ?_
          rw [← c2 hg, hk]
        | false =>
          rw [hk] at d1 d2
          cases ha : autoGap xs g x with
          | false => rw [ha] at d1; exact d1 rfl
          | true =>
            rw [ha] at d2
            rw [d2 rfl]
            have ha' : autoGap (outMarks xs ks) (if k || autoGap xs g x then Gap.blank else Gap.none) x = true := by
              simp only [autoGap, Bool.or_eq_true, Bool.and_eq_true] at ha ⊢
              rw [hsim.lastLicense_eq, hsim.mediaWord_eq]
              rcases ha with ha | ha
              · exact Or.inl ha
              · right; refine ⟨ha.1, ?_⟩
                simp [ha.1, ha.2]
            rw [keepRule_auto ha', hsim.inCalc_eq (autoGap_badCalc ha), hsim.mediaWord_eq, hr.opAt_eq]
            cases g with
            | comment => exact absurd rfl s1
            | none => rw [(s4 rfl ha).1, (s4 rfl ha).2]; simp
            | blank => rw [← keepRule_auto ha, ← c2 rfl, hk]

theorem text_sim {alpha : Char → Bool} (acc : List Mark) : ∀ (r : List Mark) (ks : List Bool), stable alpha r acc = true →
    Cleaned alpha r acc ks → text (outMarks acc ks) ks = text acc ks := by
  induction acc with
  | nil => intro r ks _ h; cases ks <;> rfl
  | cons m xs ih =>
    intro r ks hst h
    obtain ⟨g, x⟩ := m
    cases ks with
    | nil => exact h.elim
    | cons k ks =>
      have hsim0 := sim_out _ _ _ hst h
      obtain ⟨s1, s2, s3, s4, s5⟩ := stable_cons hst
      obtain ⟨c1, c2, c3, c4⟩ := h
      rw [outMarks] at hsim0
      rw [outMarks, text, text, ih _ _ s5 c4]
      obtain ⟨_, h1, _, _, _, _, hsim⟩ := hsim0
      have : autoText (outMarks xs ks) ((if k || autoGap xs g x then Gap.blank else Gap.none) == .none && isWordChr x) =
          autoText xs (g == .none && isWordChr x) := by
        unfold autoText
        rw [hsim.lastLicense_eq, hsim.mediaWord_eq]
        cases hm : mediaWord xs with
        | false => simp
        | true =>
          cases hx : isWordChr x with
          | false => simp
          | true =>
            have := h1 (mediaWord_wordEnd hm) hx
            by_cases hgn : g = .none
            · rw [this.1 hgn, hgn]
            · rw [beq_eq_false_iff_ne.2 hgn, beq_eq_false_iff_ne.2 (mt this.2 hgn)]
      rw [this]

/-- The same decision at the end. -/
theorem tailRule_sim {alpha : Char → Bool} {xs ys : List Mark} (h : Sim xs ys) (hb : ¬ badCalc xs) : tailRule alpha ys = tailRule alpha xs := by
  unfold tailRule
  rw [h.recorded_eq, h.lastIs_eq, h.lastIs_eq, h.lastIs_eq, h.lastIs_eq, h.inCalc_eq hb, h.lastLicense_eq, h.mediaWord_eq]

theorem problem_solids (is : List Item) : ∀ d b, problem d b (solids is) = problem d b is := by
  induction is with
  | nil => intro d b; rfl
  | cons i is ih =>
    intro d b
    have hs : ∀ i : Item, (∀ x, i ≠ .comment x) → i ≠ .blank → solids (i :: is) = i :: solids is := by
      intro i h1 h2
      unfold solids
      cases i <;> first | rfl | exact absurd rfl h2 | exact absurd rfl (h1 _)
    cases i with
    | blank => show problem d b (solids is) = problem d b is; exact ih d b
    | comment x => show problem d b (solids is) = problem d b is; exact ih d b
    | openStr => rw [hs _ (by simp) (by simp)]; rfl
    | openComment => rw [hs _ (by simp) (by simp)]; rfl
    | license x => rw [hs _ (by simp) (by simp)]; exact ih d b
    | str x => rw [hs _ (by simp) (by simp)]; exact ih d b
    | lit x => rw [hs _ (by simp) (by simp)]; exact ih d b
    | chr c =>
      rw [hs _ (by simp) (by simp)]
      by_cases h1 : c = '{'
      · subst h1; simp only [problem]; exact ih _ _
      by_cases h2 : c = '}'
      · subst h2
        cases d with
        | zero => rfl
        | succ d => simp only [problem]; exact ih _ _
      by_cases h3 : c = '['
      · subst h3; simp only [problem, ih]
      by_cases h4 : c = ']'
      · subst h4; simp only [problem, ih]
      simp [problem, h1, h2, h3, h4, ih]

end Verif.Css
