import Verif.Props.CssBlanks
import Verif.Spec.Again
/-!
# Minifying a style sheet again and again

On a sheet without comments, a run fills the places where something is printed in any case (`Filled`) and glues what follows a
colon to it (`Glued`). The result is `stable`, so that the next run is the last one that changes anything. The first run removes the
comments.
-/
set_option linter.unusedSimpArgs false

namespace Verif.Css
open Spec.Css Spec

/-! ## Marks and segments -/

theorem segs_marks_fold (is : List Item) : ∀ (s : Segs) (m : Marks), s.acc = m.acc.map (fun m => (m.1 != .none, m.2)) → s.gap = (m.gap != .none) →
    (is.foldl push s).acc = (is.foldl mark m).acc.map (fun m => (m.1 != .none, m.2)) ∧ (is.foldl push s).gap = ((is.foldl mark m).gap != .none) := by
  induction is with
  | nil => intro s m h h'; exact ⟨h, h'⟩
  | cons i is ih =>
    intro s m h h'
    rw [List.foldl_cons, List.foldl_cons]
    refine ih _ _ ?_ ?_
    · cases i <;> simp [push, mark, h, h']
    · cases i <;> simp [push, mark, h, h']
      split <;> simp

theorem segs_marks (is : List Item) : (segs is).acc = (marks is).acc.map (fun m => (m.1 != .none, m.2)) :=
  (segs_marks_fold is {} {} rfl rfl).1

/-- `*`, after a slash. -/
def slashStar : List Mark → Bool
  | (_, y) :: (_, z) :: _ => y == .chr '*' && z == .chr '/'
  | _ => false

/-- `slashStarEq`, on marks. -/
def glued : List Mark → Bool
  | [] => false
  | (g, x) :: xs => (g == .none && x == .chr '=' && slashStar xs) || glued xs

theorem slashStarEq_marks (xs : List Mark) : slashStarEq (xs.map fun m => (m.1 != .none, m.2)) = glued xs := by
  induction xs with
  | nil => rfl
  | cons m xs ih =>
    obtain ⟨g, x⟩ := m
    have : ((g != .none) == false) = (g == .none) := by cases g <;> rfl
    match xs, ih with
    | [], _ => simp [slashStarEq, glued, slashStar]
    | [n], ih => simp [slashStarEq, glued, slashStar]
    | n :: n' :: xs, ih =>
      rw [glued, ← ih]
      simp only [List.map_cons, slashStarEq, slashStar, this]

theorem outMarks_items {acc : List Mark} : ∀ {r : List Mark} {ks : List Bool} {alpha : Char → Bool}, Cleaned alpha r acc ks →
    (outMarks acc ks).map Prod.snd = acc.map Prod.snd := by
  induction acc with
  | nil => intro r ks alpha h; cases ks <;> first | rfl | exact h.elim
  | cons m xs ih =>
    intro r ks alpha h
    cases ks with
    | nil => exact h.elim
    | cons k ks => rw [outMarks, List.map_cons, List.map_cons, ih h.2.2.2]

/-- Gluing makes no new beginning of a comment. -/
theorem glued_out {alpha : Char → Bool} (acc : List Mark) : ∀ (r : List Mark) (ks : List Bool), Cleaned alpha r acc ks → glued acc = false →
    glued (outMarks acc ks) = false := by
  induction acc with
  | nil => intro r ks h hg; cases ks <;> first | rfl | exact h.elim
  | cons m xs ih =>
    intro r ks h hg
    obtain ⟨g, x⟩ := m
    cases ks with
    | nil => exact h.elim
    | cons k ks =>
      rw [glued, Bool.or_eq_false_iff] at hg
      rw [outMarks, glued, ih _ _ h.2.2.2 hg.2, Bool.or_false]
      obtain ⟨h1, h2, h3, h4⟩ := h
      rw [Bool.eq_false_iff]
      intro hc
      simp only [Bool.and_eq_true, beq_iff_eq] at hc
      obtain ⟨⟨hc1, hx⟩, hss⟩ := hc
      have hss' : slashStar xs = true := by
        match xs, ks, h4, hss with
        | (g1, y) :: (g2, z) :: ys, k1 :: k2 :: ks, h4, hss => exact hss
        | [], ks, _, hss => cases ks <;> simp [outMarks, slashStar] at hss
        | [_], [], _, hss => simp [outMarks, slashStar] at hss
        | [_], _ :: ks, _, hss => cases ks <;> simp [outMarks, slashStar] at hss
        | _ :: _ :: _, [], _, hss => simp [outMarks, slashStar] at hss
        | _ :: _ :: _, [_], _, hss => simp [outMarks, slashStar] at hss
      have hg1 : g ≠ .none := by
        intro e
        have := hg.1
        rw [e, hx, hss'] at this
        simp at this
      have hl : lastIs '*' xs = true ∧ lastIs ']' xs = false := by
        match xs, hss' with
        | (g1, y) :: (g2, z) :: ys, hss' =>
          simp only [slashStar, Bool.and_eq_true, beq_iff_eq] at hss'
          simp [lastIs, hss'.1]
      have hkr : keepRule alpha xs x r = true := by
        unfold keepRule
        simp only [recorded, hl.1, hl.2, hx]
        cases inCalc alpha xs <;> simp
      have hk : k = true := by
        cases g with
        | none => exact absurd rfl hg1
        | blank => rw [h2 rfl, hkr]
        | comment => exact (h3 rfl).1 hkr
      simp [hk] at hc1

/-! ## The places stay -/

/-- The same items, no comments, and the same words. -/
def Near : List Mark → List Mark → Prop
  | [], [] => True
  | (g, x) :: xs, (g', y) :: ys =>
    (y = x ∧ g ≠ .comment ∧ g' ≠ .comment) ∧ (wordEnd xs = true → isWordChr x = true → (g = .none ↔ g' = .none)) ∧ Near xs ys
  | _, _ => False

theorem Near.wordEnd_eq {xs ys : List Mark} (h : Near xs ys) : wordEnd ys = wordEnd xs := by
  cases xs with
  | nil => cases ys <;> first | rfl | exact h.elim
  | cons m xs =>
    cases ys with
    | nil => exact h.elim
    | cons n ys => obtain ⟨⟨h, _⟩, _⟩ := h; simp only [wordEnd, h]

theorem Near.lastIs_eq {xs ys : List Mark} (h : Near xs ys) (c : Char) : lastIs c ys = lastIs c xs := by
  cases xs with
  | nil => cases ys <;> first | rfl | exact h.elim
  | cons m xs =>
    cases ys with
    | nil => exact h.elim
    | cons n ys => obtain ⟨⟨h, _⟩, _⟩ := h; simp only [lastIs, h]

theorem Near.lastLicense_eq {xs ys : List Mark} (h : Near xs ys) : lastLicense ys = lastLicense xs := by
  cases xs with
  | nil => cases ys <;> first | rfl | exact h.elim
  | cons m xs =>
    cases ys with
    | nil => exact h.elim
    | cons n ys => obtain ⟨⟨h, _⟩, _⟩ := h; simp only [lastLicense, h]

theorem Near.lastWord_eq {xs ys : List Mark} (h : Near xs ys) :
    (lastWord ys).1 = (lastWord xs).1 ∧ Near (lastWord xs).2.2 (lastWord ys).2.2 ∧ (lastWord xs).2.1 ≠ .comment ∧
      (lastWord ys).2.1 ≠ .comment := by
  induction xs generalizing ys with
  | nil =>
    cases ys with
    | nil => exact ⟨rfl, trivial, by simp [lastWord], by simp [lastWord]⟩
    | cons n ys => exact h.elim
  | cons m xs ih =>
    cases ys with
    | nil => exact h.elim
    | cons n ys =>
      obtain ⟨g, x⟩ := m
      obtain ⟨g', y⟩ := n
      have h0 := h
      obtain ⟨⟨hy, hg, hg'⟩, h1, h6⟩ := h
      subst hy
      have ih := ih h6
      cases hx : isWordChr y with
      | false =>
        rw [lastWord_nochr hx, lastWord_nochr hx]
        exact ⟨rfl, h0, by simp, by simp⟩
      | true =>
        obtain ⟨c, rfl, hl⟩ := lastWord_chr (g := g) (xs := xs) hx
        obtain ⟨c', hc', hl'⟩ := lastWord_chr (g := g') (xs := ys) hx
        cases hc'
        rw [hl, hl', h6.wordEnd_eq]
        cases hw : wordEnd xs with
        | false =>
          simp only [Bool.false_eq_true, and_false, if_false]
          exact ⟨trivial, h6, hg, hg'⟩
        | true =>
          have hiff := h1 hw hx
          by_cases hgn : g = .none
          · rw [if_pos ⟨hiff.1 hgn, rfl⟩, if_pos ⟨hgn, rfl⟩]
            exact ⟨by rw [ih.1], ih.2.1, ih.2.2.1, ih.2.2.2⟩
          · rw [if_neg (fun h => hgn (hiff.2 h.1)), if_neg (fun h => hgn h.1)]
            exact ⟨rfl, h6, hg, hg'⟩

theorem Near.afterColon_eq {g g' : Gap} {xs ys : List Mark} (h : Near xs ys) (hg : g ≠ .comment) (hg' : g' ≠ .comment) :
    afterColon g' ys = afterColon g xs := by
  unfold afterColon
  rw [h.lastIs_eq, gap_not_comment hg, gap_not_comment hg']

theorem Near.afterAt_eq {xs ys : List Mark} (h : Near xs ys) : afterAt ys = afterAt xs := by
  cases xs with
  | nil => cases ys <;> first | rfl | exact h.elim
  | cons m xs =>
    cases ys with
    | nil => exact h.elim
    | cons n ys =>
      obtain ⟨g, x⟩ := m
      obtain ⟨g', y⟩ := n
      obtain ⟨⟨hy, hg, hg'⟩, h1, h6⟩ := h
      subst hy
      simp only [afterAt, h6.afterColon_eq hg hg', h6.wordEnd_eq]
      by_cases hx : y = .chr '@'
      · cases hw : wordEnd xs with
        | false => simp
        | true =>
          have := h1 hw (by rw [hx]; rfl)
          rw [(gap_iff this).2]
      · rw [beq_eq_false_iff_ne.2 hx]; rfl

theorem Near.place_eq {xs ys : List Mark} (h : Near xs ys) : place ys = place xs := by
  induction xs generalizing ys with
  | nil => cases ys <;> first | rfl | exact h.elim
  | cons m xs ih =>
    cases ys with
    | nil => exact h.elim
    | cons n ys =>
      obtain ⟨g, x⟩ := m
      obtain ⟨g', y⟩ := n
      obtain ⟨⟨hy, hg, hg'⟩, h1, h6⟩ := h
      subst hy
      rw [place, place, ih h6, h6.afterAt_eq]
      have : (isWordChr y && g' == .none && afterAt xs) = (isWordChr y && g == .none && afterAt xs) := by
        cases hx : isWordChr y with
        | false => rfl
        | true =>
          cases ha : afterAt xs with
          | false => simp
          | true =>
            have hw : wordEnd xs = true := by
              cases xs with
              | nil => simp [afterAt] at ha
              | cons m xs =>
                simp only [afterAt, Bool.and_eq_true, beq_iff_eq] at ha
                simp only [wordEnd, ha.1.1]; rfl
            have := h1 hw hx
            rw [(gap_iff this).1]
      simp only [this]

theorem Near.mediaWord_eq {xs ys : List Mark} (h : Near xs ys) : mediaWord ys = mediaWord xs := by
  obtain ⟨e1, e2, e3, e4⟩ := h.lastWord_eq
  unfold mediaWord
  rw [e1, e2.place_eq, e2.afterColon_eq e3 e4]

theorem near_out {alpha : Char → Bool} (acc : List Mark) : ∀ (r : List Mark) (ks : List Bool), (∀ m ∈ acc, m.1 ≠ .comment) →
    Cleaned alpha r acc ks → Near acc (outMarks acc ks) := by
  induction acc with
  | nil => intro r ks _ h; cases ks <;> first | trivial | exact h.elim
  | cons m xs ih =>
    intro r ks hp h
    obtain ⟨g, x⟩ := m
    cases ks with
    | nil => exact h.elim
    | cons k ks =>
      have s1 : g ≠ .comment := hp (g, x) (by simp)
      obtain ⟨c1, c2, c3, c4⟩ := h
      have hsim := ih _ _ (fun m hm => hp m (by simp [hm])) c4
      rw [outMarks]
      refine ⟨⟨rfl, s1, by split <;> simp⟩, ?_, hsim⟩
      intro hw hx
      constructor
      · intro hg
        rw [c1 hg]
        simp [autoGap, lastLicense_word hw, hg, hx]
      · intro hg'
        cases g with
        | none => rfl
        | comment => exact absurd rfl s1
        | blank =>
          exfalso
          by_cases hm : mediaWord xs = true
          · simp [autoGap, hm] at hg'
          · have hk : k = true := by
              have ho : opens x = true := by
                cases x with
                | chr c => simp only [isWordChr] at hx; simp [opens, hx]
                | _ => simp [isWordChr] at hx
              rw [c2 rfl, keepRule_eq]
              simp only [recorded_word hw, lastIs_word hw (c := ']') (by decide), lastIs_word hw (c := '*') (by decide),
                lastIs_word hw (c := '/') (by decide), lastIs_word hw (c := '+') (by decide), lastLicense_word hw, ho, hm]
              cases inCalc alpha xs <;> simp
            simp [hk] at hg'

/-! ## What a run leaves -/

/-- There are blanks wherever something is printed in any case, and no comments. -/
def Filled : List Mark → Prop
  | [] => True
  | (g, x) :: xs => g ≠ .comment ∧ (autoGap xs g x = true → g = .blank) ∧ Filled xs

theorem Filled.plain {acc : List Mark} (h : Filled acc) : ∀ m ∈ acc, m.1 ≠ .comment := by
  induction acc with
  | nil => intro m hm; cases hm
  | cons m acc ih =>
    intro n hn
    rcases List.mem_cons.1 hn with rfl | hn
    · exact h.1
    · exact ih h.2.2 n hn

theorem filled_out {alpha : Char → Bool} (acc : List Mark) : ∀ (r : List Mark) (ks : List Bool), (∀ m ∈ acc, m.1 ≠ .comment) →
    Cleaned alpha r acc ks → Filled (outMarks acc ks) := by
  induction acc with
  | nil => intro r ks _ h; cases ks <;> first | trivial | exact h.elim
  | cons m xs ih =>
    intro r ks hp h
    obtain ⟨g, x⟩ := m
    cases ks with
    | nil => exact h.elim
    | cons k ks =>
      have hp' : ∀ m ∈ xs, m.1 ≠ .comment := fun m hm => hp m (by simp [hm])
      have hnear := near_out _ _ _ hp' h.2.2.2
      rw [outMarks]
      refine ⟨by split <;> simp, ?_, ih _ _ hp' h.2.2.2⟩
      intro ha
      split
      · rfl
      · rename_i hc
        exfalso
        rw [if_neg hc] at ha
        simp only [Bool.not_eq_true, Bool.or_eq_false_iff] at hc
        unfold autoGap at ha hc
        rw [hnear.lastLicense_eq, hnear.mediaWord_eq] at ha
        cases hl : lastLicense xs with
        | true => rw [hl] at hc; simp at hc
        | false =>
          rw [hl] at hc ha
          cases hm : mediaWord xs with
          | false => rw [hm] at ha; simp at ha
          | true =>
            rw [hm] at hc ha
            simp at hc ha
            rw [hc.2.2] at ha; cases ha

/-- Nothing between a colon and what follows. -/
def Glued : List Mark → Prop
  | [] => True
  | (g, _) :: xs => (lastIs ':' xs = true → g = .none) ∧ Glued xs

theorem lastIs_colon {xs : List Mark} (h : lastIs ':' xs = true) (alpha : Char → Bool) (g : Gap) (x : Item) (r : List Mark) :
    keepRule alpha xs x r = false ∧ autoGap xs g x = false := by
  cases xs with
  | nil => simp [lastIs] at h
  | cons m xs =>
    obtain ⟨g', y⟩ := m
    simp only [lastIs, beq_iff_eq] at h
    subst h
    have hw : wordEnd ((g', Item.chr ':') :: xs) = false := rfl
    constructor
    · have : attrOp ((g', Item.chr ':') :: xs) = false := by
        cases xs with
        | nil => rfl
        | cons n xs => simp [attrOp]
      rw [keepRule_eq, recorded, ending, this]
      simp [closes, lastIs, lastLicense, isLicense, isPunct]
    · rw [autoGap, mediaWord_not hw]; rfl

theorem glued_colon {alpha : Char → Bool} (acc : List Mark) : ∀ (r : List Mark) (ks : List Bool), (∀ m ∈ acc, m.1 ≠ .comment) →
    Cleaned alpha r acc ks → Glued (outMarks acc ks) := by
  induction acc with
  | nil => intro r ks _ h; cases ks <;> first | trivial | exact h.elim
  | cons m xs ih =>
    intro r ks hp h
    obtain ⟨g, x⟩ := m
    cases ks with
    | nil => exact h.elim
    | cons k ks =>
      have hp' : ∀ m ∈ xs, m.1 ≠ .comment := fun m hm => hp m (by simp [hm])
      have hnear := near_out _ _ _ hp' h.2.2.2
      rw [outMarks]
      refine ⟨fun hl => ?_, ih _ _ hp' h.2.2.2⟩
      rw [hnear.lastIs_eq] at hl
      obtain ⟨e1, e2⟩ := lastIs_colon hl alpha g x r
      have hk : k = false := by
        cases g with
        | none => exact h.1 rfl
        | blank => rw [h.2.1 rfl, e1]
        | comment => exact absurd rfl (hp (.comment, x) (by simp))
      simp [hk, e2]

theorem Glued.colonWord {acc : List Mark} (h : Glued acc) : colonWord acc = false := by
  induction acc with
  | nil => rfl
  | cons m xs ih =>
    obtain ⟨g, x⟩ := m
    cases hx : isWordChr x with
    | false =>
      have hw : wordEnd ((g, x) :: xs) = false := hx
      simp [Spec.Css.colonWord, hw]
    | true =>
      obtain ⟨c, rfl, hl⟩ := lastWord_chr (g := g) (xs := xs) hx
      have hw : wordEnd ((g, Item.chr c) :: xs) = true := hx
      rw [Spec.Css.colonWord, hl]
      by_cases hc : g = .none ∧ wordEnd xs = true
      · rw [if_pos hc]
        have := ih h.2
        rw [Spec.Css.colonWord, hc.2] at this
        rw [hw]; exact this
      · rw [if_neg hc]
        cases hi : lastIs ':' xs with
        | false => simp [hi]
        | true => simp [h.1 hi]

theorem stable_of {alpha : Char → Bool} (acc : List Mark) : ∀ r, Filled acc → Glued acc → stable alpha r acc = true := by
  induction acc with
  | nil => intro r _ _; rfl
  | cons m xs ih =>
    intro r hf hg
    obtain ⟨g, x⟩ := m
    rw [stable, ih _ hf.2.2 hg.2, hg.2.colonWord, gap_not_comment hf.1]
    by_cases ha : autoGap xs g x = true
    · simp [hf.2.1 ha]
    · simp [ha]

theorem uncomment_plain {acc : List Mark} (h : ∀ m ∈ acc, m.1 ≠ .comment) : uncomment acc = acc := by
  induction acc with
  | nil => rfl
  | cons m xs ih =>
    obtain ⟨g, x⟩ := m
    have hg := h (g, x) (by simp)
    have := ih (fun m hm => h m (by simp [hm]))
    unfold uncomment at this ⊢
    rw [List.map_cons, this]
    cases g <;> first | rfl | exact absurd rfl hg

theorem calm_plain {alpha : Char → Bool} (acc : List Mark) : ∀ r, (∀ m ∈ acc, m.1 ≠ .comment) → calm alpha r acc = true := by
  induction acc with
  | nil => intro r _; rfl
  | cons m xs ih =>
    intro r h
    obtain ⟨g, x⟩ := m
    rw [calm, ih _ (fun m hm => h m (by simp [hm])), gap_not_comment (h (g, x) (by simp))]
    simp

/-! ## Runs -/

/-- The result of a run, if there is one. -/
def done (alpha : Char → Bool) (s : List Char) : Option (List Char) :=
  match minify alpha s with
  | .ok o => some o
  | _ => none

private theorem tokenize_ok {alpha : Char → Bool} {s out : List Char} (h : minify alpha s = .ok out) :
    ∃ ts, rawTokens alpha s = .ok ts ∧ out = display (cleanTokens ts) := by
  unfold minify tokenize at h
  cases hr : rawTokens alpha s with
  | ok ts => rw [hr] at h; simp at h; exact ⟨ts, rfl, h.symm⟩
  | err e => rw [hr] at h; simp [Bind.bind, Out.bind] at h
  | panic e => rw [hr] at h; simp [Bind.bind, Out.bind] at h

/-- What is known about a run on a sheet without `/ *=`. -/
theorem run_marks {alpha : Char → Bool} (hA : AlphaOk alpha) {s out : List Char} (h : minify alpha s = .ok out)
    (hs : slashStarEq (segs (items s)).acc = false) :
    (∃ out2, minify alpha out = .ok out2) ∧ slashStarEq (segs (items out)).acc = false ∧
    ∃ ks k, Cleaned alpha [] (marks (items s)).acc ks ∧ CleanedTail alpha (marks (items s)) k ∧
      marks (items out) = ⟨outMarks (marks (items s)).acc ks,
        if k || lastLicense (marks (items s)).acc || mediaWord (marks (items s)).acc then .blank else .none⟩ := by
  have hsol := C14_solids_partial alpha hA s out h hs
  have hacc : ∃ out2, minify alpha out = .ok out2 := by
    have e1 := C13_errors alpha hA s
    have e2 := C13_errors alpha hA out
    rw [← problem_solids, hsol, problem_solids] at e2
    cases hp : problem 0 false (items s) with
    | none => rw [hp] at e2; exact e2
    | some e => rw [hp] at e1; simp only at e1; rw [h] at e1; cases e1
  refine ⟨hacc, ?_⟩
  obtain ⟨ts, hr, rfl⟩ := tokenize_ok h
  obtain ⟨ks, k, c1, c2, c3, c4⟩ := minify_marks hA hr
  refine ⟨?_, ks, k, c1, c2, c4 hs⟩
  rw [segs_marks, slashStarEq_marks] at hs ⊢
  rw [c4 (by rw [segs_marks, slashStarEq_marks]; exact hs)]
  exact glued_out _ _ _ c1 hs

theorem outMarks_plain (acc : List Mark) (ks : List Bool) : ∀ m ∈ outMarks acc ks, m.1 ≠ .comment := by
  induction acc generalizing ks with
  | nil => intro m hm; cases ks <;> cases hm
  | cons n xs ih =>
    intro m hm
    cases ks with
    | nil => cases hm
    | cons k ks =>
      rw [outMarks] at hm
      rcases List.mem_cons.1 hm with rfl | hm
      · simp only; split <;> simp
      · exact ih ks m hm

/-- The second run on a sheet without comments is the last one that changes anything. -/
theorem settle_two {alpha : Char → Bool} (hA : AlphaOk alpha) {s out : List Char} (h : minify alpha s = .ok out)
    (hs : slashStarEq (segs (items s)).acc = false) (hp : ∀ m ∈ (marks (items s)).acc, m.1 ≠ .comment) :
    ∃ o, minify alpha out = .ok o ∧ minify alpha o = .ok o := by
  obtain ⟨⟨o, ho⟩, hs1, ks, k, c1, c2, c3⟩ := run_marks hA h hs
  refine ⟨o, ho, ?_⟩
  have hn := near_out _ _ _ hp c1
  have hpl := outMarks_plain (marks (items s)).acc ks
  have hg := glued_colon _ _ _ hp c1
  refine C20_idempotent_partial alpha hA out o ho hs1 ?_ ?_ ?_ ?_
  · rw [c3]; exact calm_plain _ _ hpl
  · rw [c3, calmTail]; simp only; split <;> simp
  · rw [c3, uncomment_plain hpl]; exact stable_of _ _ (filled_out _ _ _ hp c1) hg
  · rw [c3, uncomment_plain hpl, stableTail, hg.colonWord, hn.lastLicense_eq, hn.mediaWord_eq]
    rw [Bool.or_assoc]
    cases lastLicense (marks (items s)).acc || mediaWord (marks (items s)).acc <;> cases k <;> simp [plainGap]

/-- The third run on any sheet without `/ *=` is the last one that changes anything. -/
theorem settle_three {alpha : Char → Bool} (hA : AlphaOk alpha) {s out : List Char} (h : minify alpha s = .ok out)
    (hs : slashStarEq (segs (items s)).acc = false) :
    ∃ o2 o3, minify alpha out = .ok o2 ∧ minify alpha o2 = .ok o3 ∧ minify alpha o3 = .ok o3 := by
  obtain ⟨⟨o, ho⟩, hs1, ks, k, c1, c2, c3⟩ := run_marks hA h hs
  obtain ⟨o3, h1, h2⟩ := settle_two hA ho hs1 (by rw [c3]; exact outMarks_plain _ _)
  exact ⟨o, o3, ho, h1, h2⟩

end Verif.Css
