import Verif.Proofs.EcmaParts
import Verif.Spec.JsKeep
import Verif.Proofs.JsSpell
import Verif.Proofs.JsOut
/-!
# Texts laid out from the same pieces have the same tokens

The source and the output of the minifier consist of the same pieces; they differ in the gaps between them.
-/
set_option linter.unusedSimpArgs false
namespace Verif.Spec.Ecma
open Spec.Js

/-! ## Gaps -/

/-- A text without tokens: blanks and comments. -/
def Skip (g : List Char) : Prop := ∀ goal hist b, toksAfter goal hist (g ++ b) = toksAfter goal hist b

theorem Skip.nil : Skip [] := fun _ _ _ => rfl

theorem Skip.append {g g' : List Char} (h : Skip g) (h' : Skip g') : Skip (g ++ g') := by
  intro goal hist b
  rw [List.append_assoc, h, h']

theorem Skip.blank {c : Char} (h : isBlank c = true) : Skip [c] := by
  intro goal hist b
  rw [List.cons_append, toksAfter_cons, if_pos]
  · rfl
  · simp only [isBlank, Bool.or_eq_true, beq_iff_eq] at h
    rcases h with ((rfl | rfl) | rfl) | rfl <;> decide

theorem afterLine_body (c : Char) (hc : lineEnd c = true) (r : List Char) : ∀ (b : List Char), (∀ x ∈ b, lineEnd x = false) →
    afterLine (b ++ c :: r) = some r
  | [], _ => by rw [List.nil_append, afterLine, if_pos hc]
  | x :: b, h => by
    rw [List.cons_append, afterLine, h x List.mem_cons_self]
    exact afterLine_body c hc r b (fun y hy => h y (List.mem_cons_of_mem _ hy))

theorem Skip.line {b : List Char} {c : Char} (hb : ∀ x ∈ b, lineEnd x = false) (hc : lineEnd c = true) : Skip ('/' :: '/' :: b ++ [c]) := by
  intro goal hist s
  simp only [List.cons_append, List.append_assoc, List.nil_append]
  have hw : (white '/' || lineEnd '/') = false := by decide
  rw [toksAfter_cons, hw, if_neg (by simp), if_pos (by simp), afterLine]
  have : lineEnd '/' = false := by decide
  rw [this, if_neg (by simp), afterLine_body c hc s b hb]

theorem afterBlock_close : ∀ (s b r : List Char), closeBlock s = some (b, r) → afterBlock s = some r
  | [], b, r, h => by simp [closeBlock] at h
  | c :: s, b, r, h => by
    by_cases hc : c = '*' ∧ s.head? = some '/'
    · obtain ⟨rfl, hs⟩ := hc
      cases s with
      | nil => cases hs
      | cons d s =>
        simp at hs; subst hs
        rw [closeBlock] at h
        simp only [Option.some.injEq, Prod.mk.injEq] at h
        rw [afterBlock, h.2]
    · rw [afterBlock_step s hc]
      have : closeBlock (c :: s) = (closeBlock s).map fun p => (c :: p.1, p.2) := by
        rw [closeBlock]
        rintro s' rfl rfl
        exact hc ⟨rfl, rfl⟩
      rw [this] at h
      cases hx : closeBlock s with
      | none => rw [hx] at h; cases h
      | some p =>
        rw [hx] at h
        simp only [Option.map_some, Option.some.injEq, Prod.mk.injEq] at h
        exact afterBlock_close s p.1 r (by rw [hx, ← h.2])

theorem Skip.block {b : List Char} (h : closeBlock (b ++ ['*', '/']) = some (b, [])) : Skip ('/' :: '*' :: b ++ ['*', '/']) := by
  intro goal hist s
  have h2 := (Js.closeBlock_stable _ _ _ h).2 s
  simp only [List.cons_append, List.append_assoc, List.nil_append]
  have hw : (white '/' || lineEnd '/') = false := by decide
  rw [toksAfter_cons, hw, if_neg (by simp), if_neg (by simp), if_pos (by simp), List.tail_cons, afterBlock_close _ _ _ h2]

theorem Breaks.skip {k : Nat} {g : List Char} (h : Breaks k g) : Skip g := by
  intro goal hist b
  rw [← parts_toks goal _ _ _ (Nat.le_refl _), ← parts_toks goal _ _ _ (Nat.le_refl _), h, List.filterMap_append]
  have : (List.replicate k (none : Option Tok)).filterMap id = [] := by
    rw [List.filterMap_eq_nil_iff]
    intro x hx
    exact (List.mem_replicate.1 hx).2
  rw [this, List.nil_append]

theorem Breaks.blank {c : Char} (h : isBlank c = true) : Breaks (if lineEnd c then 1 else 0) [c] := by
  intro goal hist b
  rw [List.cons_append, partsAfter_cons]
  by_cases hl : lineEnd c = true
  · rw [if_pos hl, if_pos hl]; rfl
  · rw [if_neg hl, if_neg hl, if_pos]
    · rfl
    · simp only [isBlank, Bool.or_eq_true, beq_iff_eq] at h
      rcases h with ((rfl | rfl) | rfl) | rfl <;> first | decide | exact absurd (by decide) hl

theorem Breaks.line {b : List Char} {c : Char} (hb : ∀ x ∈ b, lineEnd x = false) (hc : lineEnd c = true) :
    Breaks 1 ('/' :: '/' :: b ++ [c]) := by
  intro goal hist s
  simp only [List.cons_append, List.append_assoc, List.nil_append]
  have hl : lineEnd '/' = false := by decide
  have hw : white '/' = false := by decide
  rw [partsAfter_cons, hl, if_neg (by simp), hw, if_neg (by simp), if_pos (by simp), afterLine]
  rw [hl, if_neg (by simp), afterLine_body c hc s b hb]
  rfl

theorem Breaks.block {b : List Char} (h : closeBlock (b ++ ['*', '/']) = some (b, [])) :
    Breaks (if b.any lineEnd then 1 else 0) ('/' :: '*' :: b ++ ['*', '/']) := by
  intro goal hist s
  have h2 := (Js.closeBlock_stable _ _ _ h).2 s
  simp only [List.cons_append, List.append_assoc, List.nil_append]
  have hl : lineEnd '/' = false := by decide
  have hw : white '/' = false := by decide
  have hs : lineEnd '*' = false := by decide
  rw [partsAfter_cons, hl, if_neg (by simp), hw, if_neg (by simp), if_neg (by simp), if_pos (by simp), List.tail_cons,
    afterBlock_close _ _ _ (by simpa using h2)]
  simp only
  have ht : List.take (('*' :: (b ++ '*' :: '/' :: s)).length - s.length) ('*' :: (b ++ '*' :: '/' :: s)) = '*' :: (b ++ ['*', '/']) := by
    have e : '*' :: (b ++ '*' :: '/' :: s) = ('*' :: (b ++ ['*', '/'])) ++ s := by simp
    rw [e, List.length_append, Nat.add_sub_cancel, List.take_left']
    rfl
  rw [ht]
  have ha : ('*' :: (b ++ ['*', '/'])).any lineEnd = b.any lineEnd := by simp [hs, hl]
  rw [ha]
  split <;> rfl

/-! ## What glues -/

theorem glues_mono {t : Tok} {y : Char} {r : List Char} (s : List Char) (h : glues t (y :: r) = false) : glues t (y :: r ++ s) = false := by
  cases r with
  | cons z r =>
    simp only [List.cons_append]
    cases t <;> simpa [glues, headDigit] using h
  | nil =>
    simp only [List.cons_append, List.nil_append]
    cases t with
    | punct p =>
      simp only [glues, headDigit, Bool.or_eq_false_iff, List.any_eq_false, Bool.and_false, Bool.not_false, Bool.and_true] at h ⊢
      refine ⟨⟨fun q hq => ?_, h.1.2⟩, h.2⟩
      have := h.1.1 q hq
      rw [Bool.not_eq_true] at this
      rw [this]; simp
    | number w => cases w <;> simpa [glues] using h
    | _ => simpa [glues] using h

private theorem no_later : ∀ p ∈ punctuators, ∀ c ∈ p.tail, c ≠ ' ' ∧ c ≠ '\t' ∧ c ≠ '\n' ∧ c ≠ '\r' ∧ c ≠ '/' := by decide +kernel

private theorem step_none (st : Num) {y : Char} (h : y = ' ' ∨ y = '\t' ∨ y = '\n' ∨ y = '\r' ∨ y = '/') : st.step y = none := by
  rcases h with rfl | rfl | rfl | rfl | rfl <;> cases st <;> decide

theorem glues_gap {t : Tok} {y : Char} (r : List Char) (hy : y = ' ' ∨ y = '\t' ∨ y = '\n' ∨ y = '\r' ∨ y = '/')
    (ht : y = '/' → t ≠ .punct ['/']) (hne : t ≠ .punct []) : glues t (y :: r) = false := by
  have hn : nameChar y = false := by rcases hy with rfl | rfl | rfl | rfl | rfl <;> decide
  have hd : digit y = false := by rcases hy with rfl | rfl | rfl | rfl | rfl <;> decide
  cases t with
  | name w => exact hn
  | regex b f => exact hn
  | number w =>
    cases w with
    | nil => rfl
    | cons c w =>
      simp only [glues]
      cases (Num.init c).after w with
      | none => rfl
      | some st => simp [step_none st hy]
  | punct p =>
    simp only [glues, hd, Bool.and_false, Bool.or_false, Bool.or_eq_false_iff, List.any_eq_false]
    refine ⟨fun q hq => ?_, ?_⟩
    · have : (p ++ [y]).isPrefixOf q = false := by
        rw [Bool.eq_false_iff, ne_eq, List.isPrefixOf_iff_prefix]
        rintro ⟨u, rfl⟩
        cases p with
        | nil => exact hne rfl
        | cons c p =>
          have := no_later _ hq y (by simp)
          rcases hy with rfl | rfl | rfl | rfl | rfl <;> simp at this
      rw [this]; simp
    · rcases hy with rfl | rfl | rfl | rfl | rfl
      · simp
      · simp
      · simp
      · simp
      · have := ht rfl
        simp only [ne_eq, Tok.punct.injEq] at this
        simp [this]
  | _ => rfl

theorem token_punct_ne {re : Bool} {c : Char} {r r' : List Char} {t : Tok} (h : token re c r = some (t, r')) : t ≠ .punct [] := by
  unfold token at h
  split at h
  · cases h; simp
  split at h
  · split at h <;> cases h; simp
  split at h
  · cases h; simp
  split at h
  · cases hs : string c r with
    | none => rw [hs] at h; cases h
    | some p => rw [hs] at h; cases h; simp
  split at h
  · cases hs : template (.text []) r with
    | none => rw [hs] at h; cases h
    | some p => rw [hs] at h; cases h; simp
  split at h
  · cases hs : regex false r with
    | none => rw [hs] at h; cases h
    | some p => rw [hs] at h; cases h; simp
  · obtain ⟨p, hp, rfl, -⟩ := punct_some h
    rintro he
    cases he
    exact absurd hp (by decide +kernel)

theorem toksAfter_punct_ne (goal : List Tok → Bool) : ∀ (k : Nat) (s : List Char) (hist : List Tok), s.length ≤ k →
    ∀ t ∈ toksAfter goal hist s, t ≠ .punct [] := by
  intro k
  induction k with
  | zero =>
    intro s hist h t ht
    have : s = [] := by simpa using h
    subst this
    cases ht
  | succ k ih =>
    intro s hist hk t ht
    cases s with
    | nil => cases ht
    | cons c r =>
      have hr : r.length ≤ k := by simpa using hk
      rw [toksAfter_cons] at ht
      split at ht
      · exact ih r hist hr t ht
      split at ht
      · cases hx : afterLine r with
        | none => rw [hx] at ht; simp at ht; simp [ht]
        | some x => rw [hx] at ht; exact ih x hist (Nat.le_trans (afterLine_le _ _ hx) hr) t ht
      split at ht
      · cases hx : afterBlock r.tail with
        | none => rw [hx] at ht; simp at ht; simp [ht]
        | some x =>
          rw [hx] at ht
          have := afterBlock_le _ _ hx
          simp at this
          exact ih x hist (by omega) t ht
      · cases hx : token (goal hist) c r with
        | none => rw [hx] at ht; simp at ht; simp [ht]
        | some p =>
          obtain ⟨t', x⟩ := p
          rw [hx] at ht
          simp only [List.mem_cons] at ht
          rcases ht with rfl | ht
          · exact token_punct_ne hx
          · exact ih x _ (Nat.le_trans (token_le hx) hr) t ht

/-! ## Layouts -/

/-- A gap between pieces: it begins with a blank or a comment. -/
def GapText (g : List Char) : Prop := (∃ k, Breaks k g) ∧ ∀ y, g.head? = some y → isBlank y = true ∨ y = '/'

/-- A text made of these pieces with gaps between them, as `joined` and `noted` allow. -/
inductive Laid : List Piece → List Char → Prop
  | nil {g : List Char} : GapText g → g.head? ≠ some '/' → Laid [] g
  | cons {q : Piece} {ps : List Piece} {g s : List Char} : GapText g → (g = [] → q.joined = true ∧ q.text ≠ [] ∨ q.text ++ s = []) →
      (g.head? = some '/' → q.noted = true) → Laid ps s → Laid (q :: ps) (g ++ (q.text ++ s))

/-- The tokens of the pieces, each read on its own. -/
def toksOf (goal : List Tok → Bool) : List Tok → List Piece → List Tok
  | _, [] => []
  | hist, p :: ps => toksAfter goal hist p.text ++ toksOf goal ((toksAfter goal hist p.text).reverse ++ hist) ps

private theorem glues_nil (t : Tok) : glues t [] = false := rfl

private theorem blank_cases {y : Char} (h : isBlank y = true ∨ y = '/') : y = ' ' ∨ y = '\t' ∨ y = '\n' ∨ y = '\r' ∨ y = '/' := by
  simp only [isBlank, Bool.or_eq_true, beq_iff_eq] at h
  rcases h with (((h | h) | h) | h) | h <;> simp [h]

theorem fits_cons {goal : List Tok → Bool} {hist : List Tok} {p : Piece} {ps : List Piece} (h : fits goal hist (p :: ps) = true) :
    (∀ t ∈ toksAfter goal hist p.text, good t = true) ∧
    (∀ t q ps', (toksAfter goal hist p.text).getLast? = some t → ps = q :: ps' →
      (q.joined = true → glues t q.text = false) ∧ (q.noted = true → t ≠ .punct ['/'])) ∧
    fits goal ((toksAfter goal hist p.text).reverse ++ hist) ps = true := by
  rw [fits.eq_def] at h
  simp only [Bool.and_eq_true, List.all_eq_true] at h
  refine ⟨h.1.1, ?_, h.2⟩
  rintro t q ps' ht rfl
  have h2 := h.1.2
  rw [ht] at h2
  simp only [Bool.and_eq_true, Bool.not_eq_true', Bool.and_eq_false_iff] at h2
  refine ⟨fun hj => ?_, fun hn => ?_⟩
  · rcases h2.1 with h3 | h3
    · rw [hj] at h3; cases h3
    · exact h3
  · rcases h2.2 with h3 | h3
    · rw [hn] at h3; cases h3
    · simpa using h3

/-- The last token of a piece is not changed by what follows. -/
theorem laid_glues {goal : List Tok → Bool} {ps : List Piece} {p : Piece} {hist : List Tok} {s : List Char}
    (hf : fits goal hist (p :: ps) = true) (hs : Laid ps s) (t : Tok) (ht : (toksAfter goal hist p.text).getLast? = some t) :
    glues t s = false := by
  have hne : t ≠ .punct [] := toksAfter_punct_ne goal _ _ _ (Nat.le_refl _) t (List.mem_of_getLast? ht)
  cases hs with
  | nil hg hh =>
    cases s with
    | nil => rfl
    | cons y s =>
      refine glues_gap s (blank_cases (hg.2 y rfl)) ?_ hne
      rintro rfl; exact absurd rfl hh
  | @cons q ps g s hg hj hn hl =>
    obtain ⟨h6, h7⟩ := (fits_cons hf).2.1 t q ps ht rfl
    cases g with
    | nil =>
      rw [List.nil_append]
      rcases hj rfl with ⟨h4, h5⟩ | h4
      · cases hq : q.text with
        | nil => exact absurd hq h5
        | cons y r =>
          refine glues_mono s ?_
          rw [← hq]
          exact h6 h4
      · rw [h4]; rfl
    | cons y g =>
      rw [List.cons_append]
      refine glues_gap _ (blank_cases (hg.2 y rfl)) ?_ hne
      rintro rfl
      exact h7 (hn rfl)

theorem toksAfter_laid (goal : List Tok → Bool) : ∀ (ps : List Piece) (p : Piece) (hist : List Tok) (s : List Char),
    fits goal hist (p :: ps) = true → Laid ps s → toksAfter goal hist (p.text ++ s) = toksOf goal hist (p :: ps) := by
  intro ps
  induction ps with
  | nil =>
    intro p hist s hf hs
    rw [toksAfter_append goal s _ p.text hist (Nat.le_refl _) (fits_cons hf).1 (laid_glues hf hs)]
    cases hs with
    | nil hg hh =>
      have := hg.1.choose_spec.skip goal ((toksAfter goal hist p.text).reverse ++ hist) []
      rw [List.append_nil] at this
      rw [this, toksOf, toksOf, toksAfter_nil]
  | cons q ps ih =>
    intro p hist s hf hs
    rw [toksAfter_append goal _ _ p.text hist (Nat.le_refl _) (fits_cons hf).1 (laid_glues hf hs)]
    cases hs with
    | @cons _ _ g s hg hj hn hl =>
      rw [hg.1.choose_spec.skip, ih q _ s (fits_cons hf).2.2 hl]
      rfl

theorem GapText.nil : GapText [] := ⟨⟨0, .nil⟩, by simp⟩

theorem GapText.append {g g' : List Char} (h : GapText g) (h' : GapText g') : GapText (g ++ g') := by
  refine ⟨⟨_, h.1.choose_spec.append h'.1.choose_spec⟩, ?_⟩
  cases g with
  | nil => exact h'.2
  | cons c g => exact h.2

/-- Two texts laid out from the same pieces; `R` relates the numbers of line breaks in their gaps. -/
inductive Both (R : Nat → Nat → Prop) : List Piece → List Char → List Char → Prop
  | nil {k k' : Nat} {g g' : List Char} : GapText g → GapText g' → g.head? ≠ some '/' → g'.head? ≠ some '/' →
      Breaks k g → Breaks k' g' → R k k' → Both R [] g g'
  | cons {q : Piece} {ps : List Piece} {k k' : Nat} {g g' s s' : List Char} : GapText g → GapText g' →
      (g = [] → q.joined = true ∧ q.text ≠ [] ∨ q.text ++ s = []) → (g' = [] → q.joined = true ∧ q.text ≠ [] ∨ q.text ++ s' = []) →
      (g.head? = some '/' → q.noted = true) → (g'.head? = some '/' → q.noted = true) →
      Breaks k g → Breaks k' g' → R k k' → Both R ps s s' →
      Both R (q :: ps) (g ++ (q.text ++ s)) (g' ++ (q.text ++ s'))

theorem Both.laid {R : Nat → Nat → Prop} {ps : List Piece} {s s' : List Char} (h : Both R ps s s') : Laid ps s ∧ Laid ps s' := by
  induction h with
  | nil h1 h2 h3 h4 => exact ⟨.nil h1 h3, .nil h2 h4⟩
  | cons h1 h2 h3 h4 h5 h6 _ _ _ _ ih => exact ⟨.cons h1 h3 h5 ih.1, .cons h2 h4 h6 ih.2⟩

/-- Both texts have the same tokens, and what holds of the line breaks in gaps holds of all. -/
theorem parts_both (goal : List Tok → Bool) {R : Nat → Nat → Prop} {Q : List (Option Tok) → List (Option Tok) → Prop} (hrefl : ∀ x, Q x x)
    (happ : ∀ {x y x' y'}, Q x y → Q x' y' → Q (x ++ x') (y ++ y'))
    (hgap : ∀ {k k'}, R k k' → Q (List.replicate k' none) (List.replicate k none)) :
    ∀ (ps : List Piece) (p : Piece) (hist : List Tok) (s s' : List Char),
    fits goal hist (p :: ps) = true → Both R ps s s' →
    Q (partsAfter goal hist (p.text ++ s')) (partsAfter goal hist (p.text ++ s)) := by
  intro ps
  induction ps with
  | nil =>
    intro p hist s s' hf hs
    rw [partsAfter_append goal s _ p.text hist (Nat.le_refl _) (fits_cons hf).1 (laid_glues hf hs.laid.1),
      partsAfter_append goal s' _ p.text hist (Nat.le_refl _) (fits_cons hf).1 (laid_glues hf hs.laid.2)]
    cases hs with
    | nil _ _ _ _ h1 h2 h3 =>
      have e1 := h1 goal ((toksAfter goal hist p.text).reverse ++ hist) []
      have e2 := h2 goal ((toksAfter goal hist p.text).reverse ++ hist) []
      simp only [List.append_nil, partsAfter_nil] at e1 e2
      rw [e1, e2]
      exact happ (hrefl _) (hgap h3)
  | cons q ps ih =>
    intro p hist s s' hf hs
    rw [partsAfter_append goal s _ p.text hist (Nat.le_refl _) (fits_cons hf).1 (laid_glues hf hs.laid.1),
      partsAfter_append goal s' _ p.text hist (Nat.le_refl _) (fits_cons hf).1 (laid_glues hf hs.laid.2)]
    cases hs with
    | cons _ _ _ _ _ _ h1 h2 h3 h5 =>
      rw [h1, h2]
      exact happ (hrefl _) (happ (hgap h3) (ih q _ _ _ (fits_cons hf).2.2 h5))

/-- No line breaks are in the second text, if they are neither in its gaps nor in the pieces. -/
theorem parts_steady (goal : List Tok → Bool) {R : Nat → Nat → Prop} (hR : ∀ {k k'}, R k k' → k' = 0) :
    ∀ (ps : List Piece) (p : Piece) (hist : List Tok) (s s' : List Char),
    fits goal hist (p :: ps) = true → Both R ps s s' → steady goal hist (p :: ps) = true →
      ∀ x ∈ partsAfter goal hist (p.text ++ s'), x.isSome = true := by
  intro ps
  induction ps with
  | nil =>
    intro p hist s s' hf hs
    rw [partsAfter_append goal s' _ p.text hist (Nat.le_refl _) (fits_cons hf).1 (laid_glues hf hs.laid.2)]
    cases hs with
    | nil _ _ _ _ h1 h2 h3 =>
      have e2 := h2 goal ((toksAfter goal hist p.text).reverse ++ hist) []
      simp only [List.append_nil, partsAfter_nil] at e2
      rw [e2]
      intro hst x hx
      rw [hR h3] at hx
      simp only [steady, Bool.and_true, List.all_eq_true] at hst
      exact hst x (by simpa using hx)
  | cons q ps ih =>
    intro p hist s s' hf hs
    rw [partsAfter_append goal s' _ p.text hist (Nat.le_refl _) (fits_cons hf).1 (laid_glues hf hs.laid.2)]
    cases hs with
    | cons _ _ _ _ _ _ h1 h2 h3 h5 =>
      rw [h2]
      intro hst x hx
      rw [hR h3] at hx
      rw [steady, Bool.and_eq_true, List.all_eq_true] at hst
      simp only [List.replicate_zero, List.nil_append, List.mem_append] at hx
      rcases hx with hx | hx
      · exact hst.1 x hx
      · exact ih q _ _ _ (fits_cons hf).2.2 h5 hst.2 x hx

/-! ## The source and the output -/

private theorem gap_comment {b t : List Char} (h : Spells (.comment b) t) (ho : oddComment (.comment b) = false) : GapText t ∧ t ≠ [] := by
  cases h with
  | line b c hc hbn =>
    refine ⟨⟨⟨_, .line ?_ ?_⟩, by simp⟩, by simp⟩
    · intro x hx
      have h1 := hbn x hx
      simp only [oddComment, List.any_eq_false, Bool.or_eq_true, beq_iff_eq, not_or] at ho
      have h2 := ho x hx
      simp only [isNewline, Bool.or_eq_false_iff] at h1
      simp [lineEnd, h1, h2]
    · simp only [isNewline] at hc
      simp only [lineEnd, hc, Bool.true_or]
  | block b hb' => exact ⟨⟨⟨_, .block hb'⟩, by simp⟩, by simp⟩

/-- What is written after the lexeme `prev`. -/
private def after (prev : Option Lexeme) : List Lexeme → List Char
  | [] => []
  | l :: ls => (if prev.any (gap · l) then [' '] else []) ++ (text l ++ after (some l) ls)

private theorem textOf_after : ∀ (ls : List Lexeme) (a : Lexeme), textOf (spaced (a :: ls)) = text a ++ after (some a) ls
  | [], a => by simp [spaced, textOf, after]
  | b :: ls, a => by
    have ih := textOf_after ls b
    rw [spaced, after]
    split
    · rename_i h
      simp only [Option.any_some, h, if_true, List.cons_append, List.nil_append]
      simp only [textOf, List.flatMap_cons] at ih ⊢
      rw [ih]; rfl
    · rename_i h
      simp only [Option.any_some, h, Bool.false_eq_true, if_false, List.nil_append]
      simp only [textOf, List.flatMap_cons] at ih ⊢
      rw [ih]

private theorem textOf_spaced (ls : List Lexeme) : textOf (spaced ls) = after none ls := by
  cases ls with
  | nil => rfl
  | cons a ls => rw [textOf_after, after]; simp

/-- How the numbers of line breaks may change. -/
private structure Steps (keep : Char → Bool) (R : Nat → Nat → Prop) (ls : List Lexeme) : Prop where
  zero : R 0 0
  comment : ∀ b, .comment b ∈ ls → ∀ m k k', R k k' → R (k + m) k'
  drop : ∀ c, .blank c ∈ ls → keep c = false → ∀ k k', R k k' → R (k + if lineEnd c then 1 else 0) k'
  keep : ∀ c, .blank c ∈ ls → keep c = true → ∀ k k', R k k' → R (k + if lineEnd c then 1 else 0) (k' + if lineEnd c then 1 else 0)
  license : ∀ b, .license b ∈ ls → ∀ k k', R k k' →
    R (k + if ('!' :: b).any lineEnd then 1 else 0) (k' + if ('!' :: b).any lineEnd then 1 else 0)

private theorem Steps.tail {keep : Char → Bool} {R : Nat → Nat → Prop} {l : Lexeme} {ls : List Lexeme} (h : Steps keep R (l :: ls)) :
    Steps keep R ls :=
  ⟨h.zero, fun b hb => h.comment b (List.mem_cons_of_mem _ hb), fun c hc => h.drop c (List.mem_cons_of_mem _ hc),
    fun c hc => h.keep c (List.mem_cons_of_mem _ hc), fun b hb => h.license b (List.mem_cons_of_mem _ hb)⟩

private theorem both_laid {keep : Char → Bool} {R : Nat → Nat → Prop} : ∀ (ls : List Lexeme) (s γ γ' : List Char) (k k' : Nat)
    (prev prevW : Option Lexeme) (g note lic : Bool), Steps keep R ls →
    SpellsAll ls s → (∀ l ∈ ls, isOpen l = false ∧ ∃ v, Js.LexOk v l) → (∀ l ∈ ls, oddComment l = false) →
    GapText γ → (γ = [] ↔ g = false) → (γ.head? = some '/' → note = true) →
    GapText γ' → (γ' = [] ↔ lic = false) → (γ'.head? = some '/' → note = true) → (lic = false → prevW = prev) →
    Breaks k γ → Breaks k' γ' → R k k' →
    ∃ s1 s2, γ ++ s = (piecesFrom keep prev g note lic ls).1 ++ s1 ∧
      γ' ++ after prevW (layout keep ls) = (piecesFrom keep prev g note lic ls).1 ++ s2 ∧
      Both R (piecesFrom keep prev g note lic ls).2 s1 s2 := by
  intro ls
  induction ls with
  | nil =>
    intro s γ γ' k k' prev prevW g note lic hst hs _ _ hg hgg hn hg' hgl hn' hpw hk hk' hkk
    cases hs
    refine ⟨γ, γ', by rw [piecesFrom]; simp, by rw [piecesFrom]; simp [after, layout], ?_⟩
    rw [piecesFrom]
    cases note with
    | true =>
      have := Both.cons (R := R) (q := ⟨false, true, []⟩) (ps := []) (g := γ) (g' := γ') (s := []) (s' := []) hg hg' (fun _ => .inr rfl)
        (fun _ => .inr rfl) (fun _ => rfl) (fun _ => rfl) hk hk' hkk
        (.nil .nil .nil (by simp) (by simp) .nil .nil hst.zero)
      simpa using this
    | false =>
      simp only [Bool.false_eq_true, if_false]
      exact .nil hg hg' (fun h => by cases hn h) (fun h => by cases hn' h) hk hk' hkk
  | cons l ls ih =>
    intro s γ γ' k k' prev prevW g note lic hst hs hok hodd hg hgg hn hg' hgl hn' hpw hk hk' hkk
    cases hs with
    | @cons _ _ t s hl hs =>
      have ihl := fun γ γ' k k' prev prevW g note lic => ih s γ γ' k k' prev prevW g note lic hst.tail hs
        (fun l h => hok l (List.mem_cons_of_mem _ h)) (fun l h => hodd l (List.mem_cons_of_mem _ h))
      have hl1 := hok l List.mem_cons_self
      have hl2 := hodd l List.mem_cons_self
      have solidCase : solid l = true → (∀ b, l ≠ .license b) → t = text l → t ≠ [] →
          ∃ s1 s2, γ ++ (t ++ s) = (piecesFrom keep prev g note lic (l :: ls)).1 ++ s1 ∧
            γ' ++ after prevW (layout keep (l :: ls)) = (piecesFrom keep prev g note lic (l :: ls)).1 ++ s2 ∧
            Both R (piecesFrom keep prev g note lic (l :: ls)).2 s1 s2 := by
        intro h1 h2 h3 h4
        have he : piecesFrom keep prev g note lic (l :: ls) =
            if !g && !(lic || prev.any (gap · l)) then
              (text l ++ (piecesFrom keep (some l) false false false ls).1, (piecesFrom keep (some l) false false false ls).2)
            else ([], ⟨!(g && (lic || prev.any (gap · l))), note, text l ++ (piecesFrom keep (some l) false false false ls).1⟩ ::
              (piecesFrom keep (some l) false false false ls).2) := by
          cases l with
          | blank c => cases h1
          | comment c => cases h1
          | license b => exact absurd rfl (h2 b)
          | _ => rfl
        have hw : wanted keep l = true := by
          cases l with
          | blank c => cases h1
          | _ => exact h1
        obtain ⟨s1, s2, h5, h5', h6⟩ := ihl [] [] 0 0 (some l) (some l) false false false .nil (by simp) (by simp) .nil (by simp) (by simp)
          (fun _ => rfl) .nil .nil hst.zero
        rw [List.nil_append] at h5 h5'
        unfold layout at h5' ⊢
        rw [he, List.filter_cons_of_pos hw, after, h5', h5, h3]
        by_cases hc : (!g && !(lic || prev.any (gap · l))) = true
        · rw [if_pos hc]
          simp only [Bool.and_eq_true, Bool.not_eq_true', Bool.or_eq_false_iff] at hc
          have e1 : γ = [] := hgg.2 hc.1
          have e2 : γ' = [] := hgl.2 hc.2.1
          rw [hpw hc.2.1]
          subst e1 e2
          rw [hc.2.2]
          exact ⟨s1, s2, by simp, by simp, h6⟩
        · rw [if_neg hc]
          refine ⟨_, _, (List.nil_append _).symm, (List.nil_append _).symm, ?_⟩
          rw [← List.append_assoc (text l), ← List.append_assoc (text l), ← List.append_assoc γ']
          rw [h3] at h4
          have hbl : Breaks 0 (if prevW.any (gap · l) then [' '] else []) := by
            split
            · exact Breaks.blank (by decide)
            · exact .nil
          have hbl2 := hk'.append hbl
          refine .cons hg ?_ ?_ ?_ hn ?_ hk hbl2 hkk h6
          · refine hg'.append ?_
            split
            · exact ⟨⟨_, .blank (by decide)⟩, by simp; decide⟩
            · exact .nil
          · intro hγ
            refine .inl ⟨?_, ?_⟩
            · rw [hgg.1 hγ]; rfl
            · simp only [ne_eq, List.append_eq_nil_iff, not_and]
              intro h; exact absurd h h4
          · intro h
            simp only [List.append_eq_nil_iff] at h
            refine .inl ⟨?_, by simp [h4]⟩
            have h7 : lic = false := hgl.1 h.1
            rw [hpw h7] at h
            have h8 : prev.any (gap · l) = false := by
              cases hx : prev.any (gap · l) with
              | false => rfl
              | true => rw [hx] at h; simp at h
            rw [h7, h8]; simp
          · intro h
            cases γ' with
            | nil =>
              rw [List.nil_append] at h
              split at h <;> simp at h
            | cons y γ' => exact hn' h
      have gapCase : ∀ (u : List Char) (note' : Bool), GapText u → u ≠ [] → (note = true → note' = true) →
          (γ = [] → u.head? = some '/' → note' = true) → GapText (γ ++ u) ∧
          (γ ++ u = [] ↔ true = false) ∧ ((γ ++ u).head? = some '/' → note' = true) := by
        intro u note' hu hne hno hno'
        refine ⟨hg.append hu, by simp [hne], ?_⟩
        cases γ with
        | nil => exact hno' rfl
        | cons y γ => exact fun h => hno (hn h)
      have blankCase : ∀ (c d : Char), l = .blank c → isBlank c = true → isBlank d = true → lineEnd d = lineEnd c → t = [d] →
          ∃ s1 s2, γ ++ (t ++ s) = (piecesFrom keep prev g note lic (l :: ls)).1 ++ s1 ∧
            γ' ++ after prevW (layout keep (l :: ls)) = (piecesFrom keep prev g note lic (l :: ls)).1 ++ s2 ∧
            Both R (piecesFrom keep prev g note lic (l :: ls)).2 s1 s2 := by
        rintro c d rfl hc hd hcd rfl
        have hne : ∀ {x : Char}, isBlank x = true → x ≠ '/' := by rintro x h rfl; revert h; decide
        obtain ⟨m3, m4, m5⟩ := gapCase [d] note ⟨⟨_, .blank hd⟩, by simp [hd]⟩ (by simp) id (by
          intro _ h; simp at h; exact absurd h (hne hd))
        have m2 := hk.append (Breaks.blank hd)
        rw [hcd] at m2
        rw [← List.append_assoc]
        cases hkc : keep c with
        | false =>
          have e1 : layout keep (.blank c :: ls) = layout keep ls := List.filter_cons_of_neg (by simp [wanted, hkc])
          have e2 : piecesFrom keep prev g note lic (.blank c :: ls) = piecesFrom keep prev true note lic ls := by
            rw [piecesFrom, hkc, Bool.or_false]
          rw [e1, e2]
          exact ihl (γ ++ [d]) γ' _ k' prev prevW true note lic m3 m4 m5 hg' hgl hn' hpw m2 hk' (hst.drop c List.mem_cons_self hkc k k' hkk)
        | true =>
          have e1 : layout keep (.blank c :: ls) = .blank c :: layout keep ls := List.filter_cons_of_pos (by simp [wanted, hkc])
          have e2 : piecesFrom keep prev g note lic (.blank c :: ls) = piecesFrom keep prev true note true ls := by
            rw [piecesFrom, hkc, Bool.or_true]
          have e3 : prevW.any (gap · (.blank c)) = false := by
            cases prevW with
            | none => rfl
            | some p => cases p <;> rfl
          rw [e1, e2, after, e3]
          have := ihl (γ ++ [d]) (γ' ++ [c]) _ _ prev (some (.blank c)) true note true m3 m4 m5
            (hg'.append ⟨⟨_, .blank hc⟩, by simp [hc]⟩) (by simp) (by
              cases γ' with
              | nil => intro h; simp at h; exact absurd h (hne hc)
              | cons y γ' => exact hn') (by simp) m2 (hk'.append (Breaks.blank hc)) (hst.keep c List.mem_cons_self hkc k k' hkk)
          simpa [text] using this
      have commentCase : ∀ b, l = .comment b → GapText t → t ≠ [] →
          ∃ s1 s2, γ ++ (t ++ s) = (piecesFrom keep prev g note lic (l :: ls)).1 ++ s1 ∧
            γ' ++ after prevW (layout keep (l :: ls)) = (piecesFrom keep prev g note lic (l :: ls)).1 ++ s2 ∧
            Both R (piecesFrom keep prev g note lic (l :: ls)).2 s1 s2 := by
        rintro b rfl h1 h2
        obtain ⟨m3, m4, m5⟩ := gapCase t (note || !g) h1 h2 (by intro h; simp [h]) (by intro h _; simp [hgg.1 h])
        rw [← List.append_assoc]
        have e1 : layout keep (.comment b :: ls) = layout keep ls := List.filter_cons_of_neg (by simp [wanted, solid])
        rw [e1]
        exact ihl (γ ++ t) γ' _ k' prev prevW true (note || !g) lic m3 m4 m5 hg' hgl (fun h => by rw [hn' h]; rfl) hpw
          (hk.append h1.1.choose_spec) hk' (hst.comment b List.mem_cons_self _ k k' hkk)
      cases hl with
      | word w => exact solidCase rfl (by intro b h; cases h) rfl hl1.2.choose_spec.1
      | punct t =>
        obtain ⟨v, hv⟩ := hl1.2
        refine solidCase rfl (by intro b h; cases h) rfl ?_
        have : ∀ t ∈ Js.puncts, t ≠ [] := by decide +kernel
        exact this t hv
      | str t =>
        obtain ⟨v, q, b, h, -⟩ := hl1.2
        exact solidCase rfl (by intro b h; cases h) rfl (by rw [h]; simp)
      | regex b fl => exact solidCase rfl (by intro b h; cases h) rfl (by simp)
      | blank c =>
        obtain ⟨v, hv⟩ := hl1.2
        exact blankCase c c rfl hv.1 hv.1 rfl rfl
      | «return» => exact blankCase '\n' '\r' rfl (by decide) (by decide) (by decide) rfl
      | line b c hc hbn =>
        obtain ⟨h1, h2⟩ := gap_comment (.line b c hc hbn) hl2
        exact commentCase b rfl h1 h2
      | block b hb =>
        obtain ⟨h1, h2⟩ := gap_comment (.block b hb) hl2
        exact commentCase b rfl h1 h2
      | license b =>
        obtain ⟨v, hv⟩ := hl1.2
        have h1 := Breaks.block (hv [])
        have hgap : prevW.any (gap · (.license b)) = false := by
          cases prevW with
          | none => rfl
          | some p => cases p <;> rfl
        have e1 : layout keep (.license b :: ls) = .license b :: layout keep ls := List.filter_cons_of_pos (by rfl)
        rw [← List.append_assoc, e1, after, hgap]
        obtain ⟨s1, s2, e1, e2, e3⟩ := ihl (γ ++ ('/' :: '*' :: ('!' :: b) ++ ['*', '/'])) (γ' ++ ('/' :: '*' :: ('!' :: b) ++ ['*', '/']))
          _ _ (some (.license b)) (some (.license b)) true true true (hg.append ⟨⟨_, h1⟩, by simp⟩) (by simp) (fun _ => rfl)
          (hg'.append ⟨⟨_, h1⟩, by simp⟩) (by simp) (fun _ => rfl) (by simp) (hk.append h1) (hk'.append h1)
          (hst.license b List.mem_cons_self k k' hkk)
        exact ⟨s1, s2, e1, by simpa [text, piecesFrom] using e2, e3⟩

/-- Two texts made of the lexemes `ls`: one with all the gaps, one with the blanks of `keep` only. -/
private theorem both_text {keep : Char → Bool} {R : Nat → Nat → Prop} {ls : List Lexeme} {s : List Char} (hst : Steps keep R ls)
    (hs : SpellsAll ls s) (hok : ∀ l ∈ ls, isOpen l = false ∧ ∃ v, Js.LexOk v l) (hodd : ∀ l ∈ ls, oddComment l = false) :
    ∃ s1 s2, s = (piecesFrom keep none false false false ls).1 ++ s1 ∧
      textOf (spaced (layout keep ls)) = (piecesFrom keep none false false false ls).1 ++ s2 ∧
      Both R (piecesFrom keep none false false false ls).2 s1 s2 := by
  have := both_laid ls s [] [] 0 0 none none false false false hst hs hok hodd .nil (by simp) (by simp) .nil (by simp) (by simp)
    (fun _ => rfl) .nil .nil hst.zero
  rw [List.nil_append, List.nil_append, ← textOf_spaced] at this
  exact this

/-- A text with the blanks of `keep` only has the same tokens, and no line break at a place where there was none. -/
theorem parts_layout (goal : List Tok → Bool) {keep : Char → Bool} {ls : List Lexeme} {s : List Char}
    (hs : SpellsAll ls s) (hok : ∀ l ∈ ls, isOpen l = false ∧ ∃ v, Js.LexOk v l) (hodd : ∀ l ∈ ls, oddComment l = false)
    (hf : fits goal [] (piecesKeeping keep ls) = true) :
    toks goal (textOf (spaced (layout keep ls))) = toks goal s ∧ Less (parts goal (textOf (spaced (layout keep ls)))) (parts goal s) := by
  obtain ⟨s1, s2, h1, h2, h3⟩ := both_text (keep := keep) (R := fun k k' => k' ≤ k) ⟨Nat.le_refl _, fun _ _ _ _ _ h => Nat.le_add_right_of_le h,
    fun _ _ _ _ _ h => Nat.le_add_right_of_le h, fun _ _ _ _ _ h => Nat.add_le_add_right h _, fun _ _ _ _ h => Nat.add_le_add_right h _⟩
    hs hok hodd
  unfold piecesKeeping at hf
  unfold toks parts
  constructor
  · have e1 := toksAfter_laid goal _ _ [] s1 hf h3.laid.1
    have e2 := toksAfter_laid goal _ _ [] s2 hf h3.laid.2
    simp only at e1 e2
    rw [← h1] at e1
    rw [h2, e2, e1]
  · have e := parts_both goal (Q := Less) Less.refl Less.append Less.gap _ _ [] s1 s2 hf h3
    simp only at e
    rw [← h1] at e
    rw [h2]
    exact e

/-- If there are no comments and line breaks are kept, then all line breaks are the same. -/
theorem parts_kept (goal : List Tok → Bool) {keep : Char → Bool} {ls : List Lexeme} {s : List Char}
    (hs : SpellsAll ls s) (hok : ∀ l ∈ ls, isOpen l = false ∧ ∃ v, Js.LexOk v l) (hno : ∀ b, .comment b ∉ ls) (hkeep : keep '\n' = true)
    (hf : fits goal [] (piecesKeeping keep ls) = true) :
    parts goal (textOf (spaced (layout keep ls))) = parts goal s := by
  have hodd : ∀ l ∈ ls, oddComment l = false := by
    intro l hl
    cases l with
    | comment b => exact absurd hl (hno b)
    | _ => rfl
  obtain ⟨s1, s2, h1, h2, h3⟩ := both_text (keep := keep) (R := fun k k' => k' = k) (ls := ls) (s := s)
    ⟨rfl, fun b hb => absurd hb (hno b), fun c hc hkc k k' h => by
      obtain ⟨v, hv⟩ := (hok _ hc).2
      have : lineEnd c = false := by
        have h1 := hv.1
        simp only [isBlank, Bool.or_eq_true, beq_iff_eq] at h1
        rcases h1 with ((rfl | rfl) | rfl) | rfl
        · decide
        · decide
        · rw [hkeep] at hkc; cases hkc
        · exact absurd rfl hv.2
      rw [this]; exact h,
      fun _ _ _ k k' h => by rw [h], fun _ _ k k' h => by rw [h]⟩ hs hok hodd
  unfold piecesKeeping at hf
  unfold parts
  have e := parts_both goal (Q := Eq) (fun _ => rfl) (fun h h' => by rw [h, h']) (fun h => by rw [h]) _ _ [] s1 s2 hf h3
  simp only at e
  rw [← h1] at e
  rw [h2]
  exact e

private theorem layout_none (ls : List Lexeme) : layout (fun _ => false) ls = ls.filter solid := by
  refine List.filter_congr fun l _ => ?_
  cases l <;> rfl

/-! ## Semicolons at the beginning -/

private theorem partsF_blind {goal : List Tok → Bool} (hg : SemiBlind goal) : ∀ (n : Nat) (hist : List Tok) (s : List Char),
    partsF goal n (hist ++ [.punct [';']]) s = partsF goal n hist s := by
  intro n
  induction n with
  | zero => intro _ _; rfl
  | succ n ih =>
    intro hist s
    cases s with
    | nil => rfl
    | cons c r =>
      simp only [partsF, ih, hg hist]
      have : ∀ t r, partsF goal n (t :: (hist ++ [.punct [';']])) r = partsF goal n (t :: hist) r := fun t r => ih (t :: hist) r
      simp only [this]

private theorem partsAfter_blind {goal : List Tok → Bool} (hg : SemiBlind goal) (s : List Char) : ∀ (k : Nat) (hist : List Tok),
    partsAfter goal (hist ++ List.replicate k (.punct [';'])) s = partsAfter goal hist s
  | 0, hist => by simp
  | k + 1, hist => by
    rw [List.replicate_succ', ← List.append_assoc]
    exact (partsF_blind hg _ _ _).trans (partsAfter_blind hg s k hist)

theorem marked_blind {rule : List Tok → Tok → Bool} (hr : SemiBlind rule) : ∀ (x : List (Option Tok)) (hist : List Tok) (nl : Bool) (k : Nat),
    marked rule (hist ++ List.replicate k (.punct [';'])) nl x = marked rule hist nl x := by
  have one : ∀ (x : List (Option Tok)) (hist : List Tok) (nl : Bool), marked rule (hist ++ [.punct [';']]) nl x = marked rule hist nl x := by
    intro x
    induction x with
    | nil => intro _ _; rfl
    | cons a x ih =>
      intro hist nl
      cases a with
      | none => exact ih hist true
      | some t =>
        simp only [marked]
        rw [hr hist, ← List.cons_append, ih]
  intro x hist nl k
  induction k generalizing hist with
  | zero => simp
  | succ k ih => rw [List.replicate_succ', ← List.append_assoc, one, ih]

private theorem semi_parts (goal : List Tok → Bool) (hist : List Tok) (b : List Char) :
    partsAfter goal hist (';' :: b) = some (.punct [';']) :: partsAfter goal (.punct [';'] :: hist) b := by
  have ht : toksAfter goal hist [';'] = [.punct [';']] := by
    simp only [toksAfter, toksF, List.length_singleton]
    have : ∀ re, token re ';' [] = some (.punct [';'], []) := by intro re; cases re <;> decide +kernel
    simp [this, white, lineEnd, toksF]
  have hp : partsAfter goal hist [';'] = [some (.punct [';'])] := by
    simp only [partsAfter, partsF, List.length_singleton]
    have : ∀ re, token re ';' [] = some (.punct [';'], []) := by intro re; cases re <;> decide +kernel
    simp [this, white, lineEnd, partsF]
  have := partsAfter_append goal b _ [';'] hist (Nat.le_refl _) (by rw [ht]; simp [good]) (by
    rw [ht]
    intro t h
    cases h
    cases b <;> rfl)
  simpa [ht, hp] using this

/-- The text before the main part of a script has no tokens but semicolons. -/
private theorem parts_front (goal : List Tok → Bool) : ∀ {ls : List Lexeme} {s : List Char}, SpellsAll ls s →
    (∀ l ∈ ls, isOpen l = false ∧ ∃ v, Js.LexOk v l) → (∀ l ∈ ls, oddComment l = false) →
    ∃ a b, s = a ++ b ∧ SpellsAll (mainPart ls) b ∧ ∀ hist, ∃ P : List (Option Tok), P.filterMap id = List.replicate (semicolons ls) (.punct [';']) ∧
      partsAfter goal hist s = P ++ partsAfter goal (List.replicate (semicolons ls) (.punct [';']) ++ hist) b := by
  intro ls
  induction ls with
  | nil =>
    intro s hs _ _
    cases hs
    exact ⟨[], [], rfl, .nil, fun hist => ⟨[], rfl, rfl⟩⟩
  | cons l ls ih =>
    intro s hs hok hodd
    obtain ⟨ho, v, hl⟩ := hok l List.mem_cons_self
    have ho' := hodd l List.mem_cons_self
    cases hs with
    | @cons _ _ t s hsp hss =>
      have ih' := ih hss (fun l hl => hok l (List.mem_cons_of_mem _ hl)) (fun l hl => hodd l (List.mem_cons_of_mem _ hl))
      cases hsol : solid l with
      | false =>
        have hg : ∃ k, Breaks k t := by
          cases l with
          | comment b => exact (gap_comment hsp ho').1.1
          | blank c =>
            cases hsp with
            | blank => exact ⟨_, .blank hl.1⟩
            | «return» => exact ⟨_, .blank (by decide)⟩
          | _ => first | cases hsol | cases ho
        obtain ⟨k, hk⟩ := hg
        obtain ⟨a, b, rfl, h2, h3⟩ := ih'
        have e1 : mainPart (l :: ls) = mainPart ls := by simp [mainPart, hsol]
        have e2 : semicolons (l :: ls) = semicolons ls := by simp [semicolons, hsol]
        rw [e1, e2]
        refine ⟨t ++ a, b, by simp, h2, fun hist => ?_⟩
        obtain ⟨P, h4, h5⟩ := h3 hist
        refine ⟨List.replicate k none ++ P, ?_, ?_⟩
        · rw [List.filterMap_append, h4]
          have : (List.replicate k (none : Option Tok)).filterMap id = [] := by
            rw [List.filterMap_eq_nil_iff]
            intro x hx
            rw [List.eq_of_mem_replicate hx]; rfl
          rw [this]; rfl
        · rw [hk goal hist (a ++ b), h5, List.append_assoc]
      | true =>
        by_cases hsemi : l = .punct [';']
        · subst hsemi
          cases hsp
          obtain ⟨a, b, rfl, h2, h3⟩ := ih'
          have e1 : mainPart (.punct [';'] :: ls) = mainPart ls := by simp [mainPart]
          have e2 : semicolons (.punct [';'] :: ls) = semicolons ls + 1 := by simp [semicolons, hsol]
          rw [e1, e2]
          refine ⟨';' :: a, b, by simp, h2, fun hist => ?_⟩
          obtain ⟨P, h4, h5⟩ := h3 (.punct [';'] :: hist)
          refine ⟨some (.punct [';']) :: P, ?_, ?_⟩
          · rw [List.filterMap_cons, h4]; rfl
          · rw [List.cons_append, List.nil_append, semi_parts, h5, List.replicate_succ']
            simp
        · have e1 : mainPart (l :: ls) = l :: ls := by simp [mainPart, hsol, hsemi]
          have e2 : semicolons (l :: ls) = 0 := by simp [semicolons, hsol, hsemi]
          rw [e1, e2]
          exact ⟨[], t ++ s, rfl, .cons hsp hss, fun hist => ⟨[], rfl, rfl⟩⟩

private theorem strip_main (ls : List Lexeme) : strip ls = (mainPart ls).filter solid := by
  unfold strip mainPart
  induction ls with
  | nil => rfl
  | cons l ls ih =>
    cases hsol : solid l with
    | false => simpa [hsol] using ih
    | true =>
      by_cases hsemi : l = .punct [';']
      · subst hsemi
        simpa [hsol] using ih
      · simp [hsol, hsemi]

private theorem minimal_layout {s : List Char} (hshort : ∀ l ∈ lex s, shorten l = l) :
    minimal (lex s) = textOf (spaced (layout (fun _ => false) (mainPart (lex s)))) := by
  unfold minimal
  rw [strip_main, layout_none]
  congr 2
  exact (List.map_congr_left fun l hl => hshort l ((List.dropWhile_suffix _).subset (List.mem_filter.1 hl).1)).trans (List.map_id _)

/-- The source and the output have the same tokens, semicolons at the beginning apart, if the pieces fit. The output has no line break at
a place where the source has none, and none at all if they are neither in licences nor in pieces. -/
theorem parts_minimal (goal : List Tok → Bool) {s : List Char} (h : Closed s) (hodd : ∀ l ∈ lex s, oddComment l = false)
    (hshort : ∀ l ∈ lex s, shorten l = l) (hgoal : semicolons (lex s) ≠ 0 → SemiBlind goal)
    (hf : fits goal [] (pieces (mainPart (lex s))) = true) :
    ∃ P y, parts goal s = P ++ y ∧ P.filterMap id = List.replicate (semicolons (lex s)) (.punct [';']) ∧
      toks goal (minimal (lex s)) = y.filterMap id ∧ Less (parts goal (minimal (lex s))) y ∧
      ((∀ l ∈ lex s, oneLine l = true) → steady goal [] (pieces (mainPart (lex s))) = true →
        ∀ x ∈ parts goal (minimal (lex s)), x.isSome = true) := by
  obtain ⟨a, b, -, hs, hP⟩ := parts_front goal (Js.lex_spells h).1 (Js.closed_lex h) hodd
  obtain ⟨P, hP1, hP2⟩ := hP []
  have hsub : ∀ l ∈ mainPart (lex s), l ∈ lex s := fun l hl => (List.dropWhile_suffix _).subset hl
  have hok := fun l hl => Js.closed_lex h l (hsub l hl)
  have hodd' := fun l hl => hodd l (hsub l hl)
  rw [minimal_layout hshort]
  obtain ⟨h1, h2⟩ := parts_layout goal hs hok hodd' hf
  refine ⟨P, parts goal b, ?_, hP1, ?_, h2, fun ho hst => ?_⟩
  · rw [parts, hP2]
    congr 1
    by_cases hz : semicolons (lex s) = 0
    · rw [hz]; rfl
    · rw [List.append_nil, ← List.nil_append (List.replicate _ _)]
      exact partsAfter_blind (hgoal hz) b (semicolons (lex s)) []
  · rw [h1]
    exact (parts_toks goal _ _ _ (Nat.le_refl _)).symm
  · obtain ⟨s1, s2, -, h4, h5⟩ := both_text (keep := fun _ => false) (R := fun _ k' => k' = 0)
      ⟨rfl, fun _ _ _ _ _ h => h, fun _ _ _ _ _ h => h, (fun _ _ h => by cases h), fun b hb k k' h => by
        have := ho _ (hsub _ hb)
        simp only [oneLine, Bool.not_eq_true'] at this
        have hx : lineEnd '!' = false := by decide
        rw [List.any_cons, hx, this, h]; rfl⟩ hs hok hodd'
    rw [h4]
    exact parts_steady goal (fun h => h) _ _ [] s1 s2 hf h5 hst

end Verif.Spec.Ecma
