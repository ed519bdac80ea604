import Verif.Proofs.CssIdem
/-!
# Comments that count as blanks

In a calm style sheet every ordinary comment is treated like a blank, and so could be one (`uncomment`).
-/
set_option linter.unusedSimpArgs false

namespace Verif.Css
open Spec.Css

theorem uncomment_cons (g : Gap) (x : Item) (xs : List Mark) : uncomment ((g, x) :: xs) = (plainGap g, x) :: uncomment xs := rfl

theorem plainGap_none (g : Gap) : (plainGap g == .none) = (g == .none) := by cases g <;> rfl

theorem plainGap_none' (g : Gap) : (plainGap g != .none) = (g != .none) := by cases g <;> rfl

theorem plainGap_eq_none (g : Gap) : plainGap g = .none ↔ g = .none := by cases g <;> simp [plainGap]

theorem wordEnd_un (xs : List Mark) : wordEnd (uncomment xs) = wordEnd xs := by cases xs <;> rfl

theorem lastIs_un (c : Char) (xs : List Mark) : lastIs c (uncomment xs) = lastIs c xs := by cases xs <;> rfl

theorem lastLicense_un (xs : List Mark) : lastLicense (uncomment xs) = lastLicense xs := by cases xs <;> rfl

theorem lastLit_un (xs : List Mark) : lastLit (uncomment xs) = lastLit xs := by
  cases xs with
  | nil => rfl
  | cons m xs => obtain ⟨g, x⟩ := m; cases x <;> rfl

theorem directWord_un (xs : List Mark) : directWord (uncomment xs) = directWord xs := by
  cases xs with
  | nil => rfl
  | cons m xs => obtain ⟨g, x⟩ := m; simp only [uncomment_cons, directWord, plainGap_none]

theorem lastWord_un (xs : List Mark) :
    lastWord (uncomment xs) = ((lastWord xs).1, plainGap (lastWord xs).2.1, uncomment (lastWord xs).2.2) := by
  induction xs with
  | nil => rfl
  | cons m xs ih =>
    obtain ⟨g, x⟩ := m
    rw [uncomment_cons]
    cases x with
    | chr c =>
      simp only [lastWord, plainGap_eq_none, wordEnd_un, ih]
      split
      · rfl
      · split <;> rfl
    | _ => rfl

theorem mild_cons {g : Gap} {x : Item} {xs : List Mark} (h : mild ((g, x) :: xs) = true) :
    (g = .comment → (lastIs ':' xs && (place xs).sel) = false ∧ splitOp xs x = false) ∧ mild xs = true := by
  simp only [mild, Bool.and_eq_true, Bool.or_eq_true, bne_iff_ne, ne_eq, Bool.not_eq_true'] at h
  refine ⟨fun hg => ?_, h.2⟩
  rcases h.1 with h1 | h1
  · exact absurd hg h1
  · exact h1

/-- The gap before the last word. -/
theorem mild_word {xs : List Mark} (h : mild xs = true) : mild (lastWord xs).2.2 = true ∧
    ((lastWord xs).2.1 = .comment → (lastIs ':' (lastWord xs).2.2 && (place (lastWord xs).2.2).sel) = false) := by
  induction xs with
  | nil => exact ⟨rfl, by simp [lastWord]⟩
  | cons m xs ih =>
    obtain ⟨g, x⟩ := m
    obtain ⟨h1, h2⟩ := mild_cons h
    cases x with
    | chr c =>
      simp only [lastWord]
      split
      · exact ⟨h, by simp⟩
      · split
        · exact ih h2
        · exact ⟨h2, fun hg => (h1 hg).1⟩
    | _ => exact ⟨h, by simp [lastWord]⟩

theorem afterColon_un {g : Gap} {xs : List Mark} {s : Bool} (h : g = .comment → (lastIs ':' xs && s) = false) :
    (s && afterColon (plainGap g) (uncomment xs)) = (s && afterColon g xs) := by
  unfold afterColon
  rw [lastIs_un]
  cases g with
  | comment =>
    have := h rfl
    cases s
    · rfl
    · simp only [Bool.and_true] at this; simp [this]
  | _ => rfl

theorem place_un {xs : List Mark} (h : mild xs = true) : place (uncomment xs) = place xs := by
  induction xs with
  | nil => rfl
  | cons m xs ih =>
    obtain ⟨g, x⟩ := m
    obtain ⟨h1, h2⟩ := mild_cons h
    rw [uncomment_cons]
    simp only [place, ih h2, plainGap_none]
    have key : (afterAt (uncomment xs) && (place xs).sel) = (afterAt xs && (place xs).sel) := by
      cases xs with
      | nil => rfl
      | cons n xs =>
        obtain ⟨g', y⟩ := n
        obtain ⟨h3, h4⟩ := mild_cons h2
        rw [uncomment_cons]
        simp only [afterAt, plainGap_none', wordEnd_un]
        cases hs : (place ((g', y) :: xs)).sel with
        | false => simp
        | true =>
          simp only [Bool.and_true]
          cases hy : y == .chr '@' with
          | false => simp
          | true =>
            simp only [Bool.true_and]
            congr 2
            have hy : y = .chr '@' := by simpa using hy
            have : g' = .comment → lastIs ':' xs = false := by
              intro hg
              have hp : place ((g', y) :: xs) = place xs := by
                subst hy hg
                simp [place]
              rw [hp] at hs
              have := (h3 hg).1
              rw [hs] at this
              simpa using this
            have := afterColon_un (g := g') (xs := xs) (s := true) (by intro hg; simp [this hg])
            simpa using this
    simp only [Bool.and_assoc, key]

theorem selTok_un (alpha : Char → Bool) {xs : List Mark} {g : Gap} {w : List Char} (h : mild xs = true)
    (hg : g = .comment → (lastIs ':' xs && (place xs).sel) = false) :
    selTok alpha (uncomment xs) (plainGap g) w = selTok alpha xs g w := by
  unfold selTok
  rw [place_un h, plainGap_none]
  cases hs : (place xs).sel with
  | false => rfl
  | true =>
    have := afterColon_un (g := g) (xs := xs) (s := true) (by intro e; have := hg e; rwa [hs] at this)
    simp only [Bool.true_and] at this
    rw [this]

theorem selWord_un (alpha : Char → Bool) {xs : List Mark} (h : mild xs = true) :
    selWord alpha (uncomment xs) = selWord alpha xs := by
  unfold selWord
  rw [wordEnd_un, lastWord_un, selTok_un alpha (mild_word h).1 (mild_word h).2]

theorem mediaWord_un {xs : List Mark} (h : mild xs = true) : mediaWord (uncomment xs) = mediaWord xs := by
  unfold mediaWord
  rw [lastWord_un]
  simp only
  rw [place_un (mild_word h).1, Bool.and_assoc, Bool.and_assoc]
  congr 1
  cases hs : (place (lastWord xs).2.2).sel with
  | false => rfl
  | true =>
    have := afterColon_un (g := (lastWord xs).2.1) (xs := (lastWord xs).2.2) (s := true)
      (by intro e; have := (mild_word h).2 e; rwa [hs] at this)
    simp only [Bool.true_and] at this ⊢
    rw [this]

theorem colonWord_un {xs : List Mark} (h : mild xs = true) (hc : colonWord (uncomment xs) = true) : colonWord xs = true := by
  unfold colonWord at hc ⊢
  rw [wordEnd_un, lastWord_un] at hc
  simp only [lastIs_un, place_un (mild_word h).1, Bool.and_eq_true, beq_iff_eq] at hc ⊢
  refine ⟨⟨⟨hc.1.1.1, ?_⟩, hc.1.2⟩, hc.2⟩
  have h2 := (mild_word h).2
  cases hg : (lastWord xs).2.1 with
  | blank => rfl
  | none => rw [hg] at hc; simp [plainGap] at hc
  | comment => have := h2 hg; simp [hc.1.2, hc.2] at this

theorem calcWord_un (alpha : Char → Bool) {xs : List Mark} (h : mild xs = true) :
    calcWord alpha (uncomment xs) = calcWord alpha xs := by
  unfold calcWord
  rw [lastWord_un, selWord_un alpha h]

theorem calcState_un (alpha : Char → Bool) {xs : List Mark} (h : mild xs = true) :
    calcState alpha (uncomment xs) = calcState alpha xs := by
  induction xs with
  | nil => rfl
  | cons m xs ih =>
    obtain ⟨g, x⟩ := m
    obtain ⟨_, h2⟩ := mild_cons h
    rw [uncomment_cons]
    simp only [calcState, plainGap_none', calcWord_un alpha h2, ih h2]

theorem inCalc_un (alpha : Char → Bool) {xs : List Mark} (h : mild xs = true) :
    inCalc alpha (uncomment xs) = inCalc alpha xs := by
  unfold inCalc calcNow
  rw [calcWord_un alpha h, calcState_un alpha h]

theorem attrOp_pair {g g' : Gap} {x y : Item} {xs ys zs : List Mark} (h : g = .comment → splitOp ((g', y) :: xs) x = false) :
    attrOp ((plainGap g, x) :: (plainGap g', y) :: ys) = attrOp ((g, x) :: (g', y) :: zs) := by
  simp only [attrOp, plainGap_none]
  cases g with
  | comment =>
    have := h rfl
    simp only [splitOp, lastIs] at this
    cases hx : x == .chr '=' with
    | false => simp
    | true =>
      rw [hx] at this
      simp only [Bool.true_and, Bool.or_eq_false_iff] at this
      simp [this.1.1.1, this.1.1.2, this.1.2, this.2]
  | _ => rfl

theorem attrOp_un {xs : List Mark} (h : mild xs = true) : attrOp (uncomment xs) = attrOp xs := by
  cases xs with
  | nil => rfl
  | cons m xs =>
    cases xs with
    | nil => rfl
    | cons n xs => exact attrOp_pair (xs := xs) fun hg => ((mild_cons h).1 hg).2

theorem recorded_un {xs : List Mark} (h : mild xs = true) : recorded (uncomment xs) = recorded xs := by
  have : ending (uncomment xs) = ending xs := by
    cases xs with
    | nil => rfl
    | cons m xs =>
      obtain ⟨g, x⟩ := m
      have := attrOp_un h
      rw [uncomment_cons] at this ⊢
      simp only [ending, this]
  unfold recorded
  rw [this, lastIs_un, lastIs_un, lastIs_un, lastLicense_un]

/-- What follows an item and does not stand apart from it by a comment if they make an operator. -/
def RightMild (x : Item) : List Mark → Prop
  | [] => True
  | (g, y) :: _ => g = .comment → splitOp [(.none, x)] y = false

theorem opAt_un {x : Item} {r : List Mark} (h : RightMild x r) : opAt x (uncomment r) = opAt x r := by
  cases r with
  | nil => rfl
  | cons m r => exact attrOp_pair (g' := .none) (xs := []) (ys := []) (zs := []) h

theorem pseudoAt_un {xs r : List Mark} {x : Item} (h : mild xs = true) : pseudoAt (uncomment xs) x (uncomment r) = pseudoAt xs x r := by
  unfold pseudoAt
  rw [directWord_un, place_un h]

theorem selAt_un (alpha : Char → Bool) {xs r : List Mark} {x : Item} (h : mild xs = true) :
    selAt alpha (uncomment xs) x (uncomment r) = selAt alpha xs x r := by
  unfold selAt
  rw [pseudoAt_un h, directWord_un, place_un h]

theorem keepRule_un (alpha : Char → Bool) {xs r : List Mark} {x : Item} (h : mild xs = true) (hr : RightMild x r) :
    keepRule alpha (uncomment xs) x (uncomment r) = keepRule alpha xs x r := by
  rw [keepRule_eq, keepRule_eq, recorded_un h, lastIs_un, lastIs_un, lastIs_un, lastIs_un, inCalc_un alpha h, lastLicense_un,
    selAt_un alpha h, opAt_un hr, selWord_un alpha h, mediaWord_un h, pseudoAt_un h, wordEnd_un, lastLit_un]

theorem tailRule_un (alpha : Char → Bool) {xs : List Mark} (h : mild xs = true) :
    tailRule alpha (uncomment xs) = tailRule alpha xs := by
  unfold tailRule
  rw [recorded_un h, lastIs_un, lastIs_un, lastIs_un, lastIs_un, inCalc_un alpha h, lastLicense_un, mediaWord_un h]

theorem autoGap_un {xs : List Mark} {g : Gap} {x : Item} (h : mild xs = true) :
    autoGap (uncomment xs) (plainGap g) x = autoGap xs g x := by
  unfold autoGap
  rw [lastLicense_un, mediaWord_un h, plainGap_none]

theorem autoText_un {xs : List Mark} {b : Bool} (h : mild xs = true) : autoText (uncomment xs) b = autoText xs b := by
  unfold autoText
  rw [lastLicense_un, mediaWord_un h]

theorem text_un {xs : List Mark} (h : mild xs = true) (ks : List Bool) : text (uncomment xs) ks = text xs ks := by
  induction xs generalizing ks with
  | nil => rfl
  | cons m xs ih =>
    obtain ⟨g, x⟩ := m
    obtain ⟨_, h2⟩ := mild_cons h
    cases ks with
    | nil => rfl
    | cons k ks => rw [uncomment_cons, text, text, ih h2, autoText_un h2, plainGap_none]

theorem outMarks_un {xs : List Mark} (h : mild xs = true) (ks : List Bool) : outMarks (uncomment xs) ks = outMarks xs ks := by
  induction xs generalizing ks with
  | nil => rfl
  | cons m xs ih =>
    obtain ⟨g, x⟩ := m
    obtain ⟨_, h2⟩ := mild_cons h
    cases ks with
    | nil => rfl
    | cons k ks => rw [uncomment_cons, outMarks, outMarks, ih h2, autoGap_un h2]

theorem calm_cons {alpha : Char → Bool} {g : Gap} {x : Item} {xs r : List Mark} (h : calm alpha r ((g, x) :: xs) = true) :
    (g = .comment → splitOp xs x = false ∧ (keepRule alpha xs x r = true ∨ quiet alpha xs = true)) ∧
      calm alpha ((g, x) :: r) xs = true := by
  simp only [calm, Bool.and_eq_true, Bool.or_eq_true, bne_iff_ne, ne_eq, Bool.not_eq_true'] at h
  refine ⟨fun hg => ?_, h.2⟩
  rcases h.1 with h1 | h1
  · exact absurd hg h1
  · exact ⟨h1.1.2, h1.2⟩

theorem calm_mild {alpha : Char → Bool} {xs : List Mark} : ∀ {r}, calm alpha r xs = true → mild xs = true := by
  induction xs with
  | nil => intro r _; rfl
  | cons m xs ih =>
    intro r h
    obtain ⟨g, x⟩ := m
    have h' := h
    simp only [calm, Bool.and_eq_true, Bool.or_eq_true, bne_iff_ne, ne_eq, Bool.not_eq_true'] at h
    simp only [mild, Bool.and_eq_true, Bool.or_eq_true, bne_iff_ne, ne_eq, Bool.not_eq_true']
    refine ⟨?_, ih (calm_cons h').2⟩
    rcases h.1 with h1 | h1
    · exact .inl h1
    · exact .inr h1.1

/-- In a calm sheet comments are treated like blanks. -/
theorem cleaned_un {alpha : Char → Bool} {xs : List Mark} : ∀ {r : List Mark} {ks : List Bool}, calm alpha r xs = true →
    (∀ g x ys, xs = (g, x) :: ys → RightMild x r) → Cleaned alpha r xs ks → Cleaned alpha (uncomment r) (uncomment xs) ks := by
  induction xs with
  | nil => intro r ks _ _ h; cases ks <;> first | trivial | exact h.elim
  | cons m xs ih =>
    intro r ks hc hr h
    obtain ⟨g, x⟩ := m
    cases ks with
    | nil => exact h.elim
    | cons k ks =>
      obtain ⟨h1, h2, h3, h4⟩ := h
      obtain ⟨c1, c2⟩ := calm_cons hc
      have hk := keepRule_un alpha (x := x) (r := r) (calm_mild c2) (hr g x xs rfl)
      have hrest := ih c2 (by
        rintro g' y ys rfl hg
        have := (c1 hg).1
        simpa [splitOp, lastIs] using this) h4
      rw [uncomment_cons]
      refine ⟨fun e => h1 ((plainGap_eq_none g).1 e), fun e => ?_, fun e => ?_, ?_⟩
      · rw [hk]
        cases g with
        | none => cases e
        | blank => exact h2 rfl
        | comment =>
          rcases (c1 rfl).2 with hkr | hq
          · rw [hkr]; exact (h3 rfl).1 hkr
          · exact (h3 rfl).2 hq (c1 rfl).1
      · cases g <;> simp [plainGap] at e
      · rw [uncomment_cons] at hrest
        exact hrest

theorem cleanedTail_un {alpha : Char → Bool} {m : Marks} {k : Bool} (hm : mild m.acc = true) (hc : calmTail alpha m = true)
    (h : CleanedTail alpha m k) : CleanedTail alpha ⟨uncomment m.acc, plainGap m.gap⟩ k := by
  obtain ⟨h1, h2, h3⟩ := h
  unfold CleanedTail
  simp only [tailRule_un alpha hm]
  refine ⟨fun e => h1 ((plainGap_eq_none _).1 e), fun e => ?_, fun e => ?_⟩
  · cases hg : m.gap with
    | none => rw [hg] at e; cases e
    | blank => exact h2 hg
    | comment =>
      simp only [calmTail, hg, bne_self_eq_false, Bool.false_or, Bool.or_eq_true] at hc
      rcases hc with hkr | hq
      · rw [hkr]; exact (h3 hg).1 hkr
      · exact (h3 hg).2 hq
  · cases hg : m.gap <;> rw [hg] at e <;> simp [plainGap] at e

end Verif.Css
