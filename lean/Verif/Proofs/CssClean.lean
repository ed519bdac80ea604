import Verif.Proofs.CssMarks
/-!
# Which blanks `clean_tokens` keeps

The decisions of `clean_tokens` between two tokens are those of `Spec.Css.keepRule` between the marks of the source
(`keep_eq`, `cleaned`).
-/
set_option linter.unusedSimpArgs false

namespace Verif.Css
open Spec.Css

/-! ## The last token, seen from the marks -/

def Token.isOther : Token → Bool
  | .other _ => true
  | _ => false

def lastLit : List Mark → Bool
  | (_, .lit _) :: _ => true
  | _ => false

def isAtWord : List Char → Bool
  | '@' :: _ :: _ => true
  | _ => false

theorem mediaWord_push {acc : List Mark} {g : Gap} {w : List Char} (hw : Word w) (hn : w ≠ [])
    (ha : g = .none → wordEnd acc = false) :
    mediaWord (pushChars acc g w) = (isAtWord w && (place acc).sel && !afterColon g acc) := by
  unfold mediaWord; rw [lastWord_push hw hn ha]; rfl

/-- What the marks tell about the last token `p`. -/
structure Prof (alpha : Char → Bool) (xs : List Mark) (p : Token) : Prop where
  bracket : lastIs ']' xs = (p == .char .closeBracket)
  star : lastIs '*' xs = (p == .char .star)
  slash : lastIs '/' xs = (p == .char .slash)
  plus : lastIs '+' xs = (p == .char .plus)
  colon : lastIs ':' xs = (p == .char .colon)
  lic : lastLicense xs = p.isLicense
  sel : selWord alpha xs = p.isSel
  media : mediaWord xs = p.isMedia
  oth : (!selWord alpha xs && (wordEnd xs || lastLit xs)) = p.isOther
  rec_ : recorded xs = wantsSpace (some p)
  calcw : calcWord alpha xs = (p == .other ['c', 'a', 'l', 'c'])

theorem lastIs_word {xs : List Mark} (h : wordEnd xs = true) {c : Char} (hc : isPunct c = true) : lastIs c xs = false := by
  cases xs with
  | nil => rfl
  | cons m ms =>
    obtain ⟨g, x⟩ := m
    simp only [lastIs, Bool.eq_false_iff, ne_eq, beq_iff_eq]
    rintro rfl
    simp [wordEnd, isWordChr, hc] at h

theorem lastLicense_word {xs : List Mark} (h : wordEnd xs = true) : lastLicense xs = false := by
  cases xs with
  | nil => rfl
  | cons m ms => obtain ⟨g, x⟩ := m; cases x <;> first | rfl | simp [wordEnd, isWordChr] at h

theorem lastLit_word {xs : List Mark} (h : wordEnd xs = true) : lastLit xs = false := by
  cases xs with
  | nil => rfl
  | cons m ms => obtain ⟨g, x⟩ := m; cases x <;> first | rfl | simp [wordEnd, isWordChr] at h

theorem recorded_word {xs : List Mark} (h : wordEnd xs = true) : recorded xs = true := by
  cases xs with
  | nil => simp [wordEnd] at h
  | cons m ms =>
    obtain ⟨g, x⟩ := m
    cases x <;> simp [wordEnd, isWordChr] at h
    simp [recorded, ending, closes, h]

theorem selWord_not (alpha : Char → Bool) {xs : List Mark} (h : wordEnd xs = false) : selWord alpha xs = false := by
  simp [selWord, h]

/-- The marks after a word. -/
theorem prof_word {alpha : Char → Bool} {acc : List Mark} {g : Gap} {w : List Char} {p : Token} (hw : Word w) (hn : w ≠ [])
    (ha : g = .none → wordEnd acc = false) (hc : p.isChar = false) (hl : p.isLicense = false)
    (hs : selTok alpha acc g w = p.isSel)
    (hm : (isAtWord w && (place acc).sel && !afterColon g acc) = p.isMedia)
    (ho : p.isOther = !p.isSel) (hcalc : (w == ['c', 'a', 'l', 'c'] && !p.isSel) = (p == .other ['c', 'a', 'l', 'c'])) :
    Prof alpha (pushChars acc g w) p := by
  have he := pushChars_wordEnd acc g hw hn
  have hsel : selWord alpha (pushChars acc g w) = p.isSel := by rw [selWord_push alpha hw hn ha, hs]
  have hch : ∀ c, (p == .char c) = false := by
    intro c; cases p <;> first | rfl | simp [Token.isChar] at hc
  constructor
  · rw [lastIs_word he (by decide), hch]
  · rw [lastIs_word he (by decide), hch]
  · rw [lastIs_word he (by decide), hch]
  · rw [lastIs_word he (by decide), hch]
  · rw [lastIs_word he (by decide), hch]
  · rw [lastLicense_word he, hl]
  · exact hsel
  · rw [mediaWord_push hw hn ha]; exact hm
  · rw [hsel, he, ho]; simp
  · rw [recorded_word he]
    cases p <;> simp [Token.isChar] at hc <;> rfl
  · unfold calcWord; rw [hsel, lastWord_push hw hn ha]; exact hcalc

/-- The marks after something else. -/
theorem prof_single {alpha : Char → Bool} {xs : List Mark} {p : Token} (he : wordEnd xs = false) (hs : p.isSel = false)
    (h1 : lastIs ']' xs = (p == .char .closeBracket)) (h2 : lastIs '*' xs = (p == .char .star))
    (h3 : lastIs '/' xs = (p == .char .slash)) (h4 : lastIs '+' xs = (p == .char .plus)) (h5 : lastLicense xs = p.isLicense)
    (h6 : lastLit xs = p.isOther) (h7 : recorded xs = wantsSpace (some p)) (h8 : p ≠ .other ['c', 'a', 'l', 'c'])
    (h9 : lastIs ':' xs = (p == .char .colon)) : Prof alpha xs p := by
  constructor
  · exact h1
  · exact h2
  · exact h3
  · exact h4
  · exact h9
  · exact h5
  · rw [selWord_not alpha he, hs]
  · rw [mediaWord_not he]; cases p <;> first | rfl | simp [Token.isSel] at hs
  · rw [selWord_not alpha he, he, ← h6]; simp
  · exact h7
  · rw [calcWord_not alpha he]; simpa using h8

theorem attrOp_not {g : Gap} {x : Item} {xs : List Mark} (h : x ≠ .chr '=') : attrOp ((g, x) :: xs) = false := by
  cases xs with
  | nil => rfl
  | cons m ms => obtain ⟨g', y⟩ := m; simp [attrOp, h]

/-- A single character. -/
theorem recorded_char {g : Gap} {c : RChar} {xs : List Mark} (hu : c.isUseless = false)
    (he : c = .equalSign → attrOp ((g, .chr '=') :: xs) = false) :
    recorded ((g, .chr c.toChar) :: xs) = wantsSpace (some (.char c)) := by
  have hat : attrOp ((g, .chr c.toChar) :: xs) = false := by
    by_cases h : c = .equalSign
    · rw [h]; exact he h
    · apply attrOp_not
      intro e; apply h
      cases c <;> first | rfl | simp [RChar.toChar] at e
  unfold recorded ending
  simp only [hat]
  cases c <;> first | exact absurd hu (by decide) | rfl

theorem place_colon (g : Gap) (acc : List Mark) : place ((g, .chr ':') :: acc) = place acc := by
  rw [show ':' = RChar.colon.toChar from rfl, place_punct _ _ _ rfl]; rfl

theorem prof {alpha : Char → Bool} {es : List Ent} {e : Ent} (h : EOk alpha es e) : Prof alpha (emarks (e :: es)) e.t := by
  obtain ⟨_, h⟩ := h
  rw [emarks]
  generalize emarks es = acc at h ⊢
  generalize isBs (lastTok es) = bs at h ⊢
  have norm : ∀ s, (∀ p, s ≠ .pseudoClass p) → KindOk alpha acc e.g e.i bs (.sel s) →
      Prof alpha (tokMarks acc e.g e.i bs (.sel s)) (.sel s) := by
    intro s hp h
    have h : bs = false ∧ s.chars ≠ [] ∧ Word s.chars ∧ (e.g = .none → wordEnd acc = false) ∧ selTok alpha acc e.g s.chars = true ∧
        afterColon e.g acc = false ∧ Sel.ofStr alpha s.chars = some s := by
      cases s <;> first | exact h | exact absurd rfl (hp _)
    obtain ⟨_, hn, hw, ha, hs, hc, ho⟩ := h
    have hsel : (place acc).sel = true := by simp only [selTok, Bool.and_eq_true] at hs; exact hs.1
    refine prof_word hw hn ha rfl rfl hs ?_ rfl (by simp [Token.isSel])
    rw [hsel, hc]
    have hm := ofStr_media ho
    simp only [Bool.and_true, Bool.not_false]
    rw [Bool.eq_iff_iff, hm]
    unfold isAtWord
    split
    · rename_i c v hv; simp [hv]
    · rename_i hv
      simp only [Bool.false_eq_true, false_iff, not_exists]
      intro c v e'; exact hv c v e'
  cases ht : e.t with
  | char c =>
    rw [ht] at h
    obtain ⟨_, hu, hq1, hq2, he⟩ := h
    refine prof_single (by simp [tokMarks, wordEnd, isWordChr, toChar_punct]) rfl ?_ ?_ ?_ ?_ rfl rfl (recorded_char hu he) (by simp) ?_ <;>
      (cases c <;> first | rfl | cases hu)
  | other w =>
    rw [ht] at h
    cases bs with
    | true =>
      obtain ⟨_, c, rfl⟩ := h
      exact prof_single rfl rfl rfl rfl rfl rfl rfl rfl (by simp [tokMarks, recorded, ending, closes, wantsSpace, Token.isUseless, Token.isChar])
        (by simp) rfl
    | false =>
      obtain ⟨hn, hw, ha, hs⟩ := h
      refine prof_word hw hn ha rfl rfl (by rw [hs]; rfl) ?_ rfl ?_
      · show _ = false
        rw [Bool.eq_false_iff]
        simp only [Bool.and_eq_true, Bool.not_eq_true', ne_eq, not_and, Bool.not_eq_false]
        rintro ⟨h1, h2⟩
        rw [← Bool.not_eq_false]
        intro h3
        unfold isAtWord at h1
        split at h1
        · simp [selTok, h2, h3, startsSel] at hs
        · cases h1
      · simp only [Token.isSel, Bool.not_false, Bool.and_true]
        by_cases hwc : w = ['c', 'a', 'l', 'c']
        · rw [hwc]; decide
        · rw [beq_eq_false_iff_ne.2 hwc, beq_eq_false_iff_ne.2 (by simpa using hwc)]
  | sel s =>
    rw [ht] at h
    cases s with
    | pseudoClass p =>
      obtain ⟨_, hw, hn, hs⟩ := h
      have hac : afterColon .none ((e.g, .chr ':') :: acc) = true := by simp [afterColon, lastIs]
      refine prof_word (acc := (e.g, .chr ':') :: acc) (g := .none) hw hn (by intro _; simp [wordEnd, isWordChr, isPunct]) rfl rfl ?_ ?_ rfl ?_
      · unfold selTok; rw [place_colon, hs, hac]; rfl
      · rw [hac]; simp [Token.isMedia]
      · simp [Token.isSel]
    | _ => exact norm _ (by simp) h
  | str b =>
    exact prof_single rfl rfl rfl rfl rfl rfl rfl rfl
      (by simp [tokMarks, recorded, ending, closes, wantsSpace, Token.isUseless, Token.isChar]) (by simp) rfl
  | license b =>
    exact prof_single rfl rfl rfl rfl rfl rfl rfl rfl
      (by simp [tokMarks, recorded, lastLicense, isLicense, wantsSpace, Token.isUseless, Token.isChar]) (by simp) rfl
  | selOp o =>
    rw [ht] at h
    refine prof_single (by simp [tokMarks, wordEnd, isWordChr, isPunct]) rfl rfl rfl rfl rfl rfl rfl ?_ (by simp) rfl
    have := h.2
    show recorded ((e.i, .chr '=') :: (e.g, .chr (o.display.headD '=')) :: acc) = true
    unfold recorded ending
    simp only [this]
    rfl
  | comment b => rw [ht] at h; exact h.elim
  | operator o => rw [ht] at h; exact h.elim

/-! ## `calc` -/

def ecalc : List Ent → Bool × Int
  | [] => (false, 0)
  | e :: es => calcStep (ecalc es).1 (ecalc es).2 e.t

def CalcRel (o : Option Int) (s : Bool × Int) : Prop := o = (if s.1 then some s.2 else none) ∧ (s.1 = false → s.2 = 0)

theorem calcState_single (alpha : Char → Bool) {g : Gap} {x : Item} {acc : List Mark} (hx : isWordChr x = false) :
    calcState alpha ((g, x) :: acc) =
      if x = .chr '(' then (calcNow alpha acc).map (· + 1)
      else if x = .chr ')' then
        match calcNow alpha acc with
        | none => none
        | some d => if d - 1 = 0 then none else some (d - 1)
      else calcNow alpha acc := by
  rw [calcState]
  simp only [hx, Bool.not_false, Bool.or_true, Bool.true_and]
  rfl

theorem calcState_first (alpha : Char → Bool) {g : Gap} {c : Char} {acc : List Mark} (hc : RChar.ofChar c = none)
    (ha : g = .none → wordEnd acc = false) : calcState alpha ((g, .chr c) :: acc) = calcNow alpha acc := by
  have n := fun d hd => word_ne (c := c) (d := d) hc hd
  rw [calcState]
  simp only [n '(' (by decide), n ')' (by decide), if_false, word_isWordChr hc, Bool.not_true, Bool.or_false]
  unfold calcNow
  by_cases hg : g = .none
  · rw [calcWord_not alpha (ha hg)]; simp
  · have : (g != .none) = true := by simpa using hg
    rw [this]; simp

theorem calcState_cont (alpha : Char → Bool) {acc : List Mark} {w : List Char} (hw : Word w) :
    calcState alpha (pushChars acc .none w) = calcState alpha acc := by
  induction w generalizing acc with
  | nil => rfl
  | cons c w ih =>
    have n := fun d hd => word_ne (c := c) (d := d) hw.head hd
    rw [pushChars, ih hw.tail, calcState]
    simp only [n '(' (by decide), n ')' (by decide), if_false, word_isWordChr hw.head]
    simp

theorem calcState_push (alpha : Char → Bool) {acc : List Mark} {g : Gap} {w : List Char} (hw : Word w) (hn : w ≠ [])
    (ha : g = .none → wordEnd acc = false) : calcState alpha (pushChars acc g w) = calcNow alpha acc := by
  cases w with
  | nil => exact absurd rfl hn
  | cons c w => rw [pushChars, calcState_cont alpha hw.tail, calcState_first alpha hw.head ha]

theorem calcNow_not (alpha : Char → Bool) {acc : List Mark} (h : calcWord alpha acc = false) :
    calcNow alpha acc = calcState alpha acc := by
  simp [calcNow, h]

theorem ecalc_marks {alpha : Char → Bool} {es : List Ent} (h : EsOk alpha es) : CalcRel (calcNow alpha (emarks es)) (ecalc es) := by
  induction es with
  | nil => exact ⟨rfl, fun _ => rfl⟩
  | cons e es ih =>
    obtain ⟨i1, i2⟩ := ih h.2
    have hp := (prof h.1).calcw
    have hk := h.1.2
    have key : e.t ≠ .char .openParen → e.t ≠ .char .closeParen → calcState alpha (emarks (e :: es)) = calcNow alpha (emarks es) →
        CalcRel (calcNow alpha (emarks (e :: es))) (ecalc (e :: es)) := by
      intro n1 n2 hs
      unfold calcNow
      rw [hp, hs, i1, ecalc]
      generalize ecalc es = s at i2
      obtain ⟨ic, p⟩ := s
      simp only at i2 ⊢
      by_cases hc : e.t = .other ['c', 'a', 'l', 'c']
      · rw [if_pos (by simp [hc]), hc]
        have : calcStep ic p (.other ['c', 'a', 'l', 'c']) = (true, p) := by simp [calcStep]
        rw [this]
        refine ⟨?_, by simp⟩
        cases ic with
        | false => rw [i2 rfl]; rfl
        | true => rfl
      · have : calcStep ic p e.t = (ic, p) := by simp [calcStep, hc, n1, n2]
        rw [if_neg (by simp [hc]), this]
        exact ⟨rfl, i2⟩
    have single : ∀ (g : Gap) (x : Item), emarks (e :: es) = (g, x) :: emarks es → isWordChr x = false → x ≠ .chr '(' → x ≠ .chr ')' →
        calcState alpha (emarks (e :: es)) = calcNow alpha (emarks es) := by
      intro g x he hx h1 h2
      rw [he, calcState_single alpha hx, if_neg h1, if_neg h2]
    cases ht : e.t with
    | char c =>
      rw [ht] at hk hp
      have hem : emarks (e :: es) = (e.g, .chr c.toChar) :: emarks es := by rw [emarks, ht]; rfl
      have hx : isWordChr (.chr c.toChar) = false := by simp [isWordChr, toChar_punct]
      by_cases h1 : c = .openParen
      · rw [calcNow_not alpha (by rw [hp]; rfl), hem, calcState_single alpha hx, i1, ecalc, ht, h1]
        generalize ecalc es = s at i2
        obtain ⟨ic, p⟩ := s
        cases ic with
        | false => exact ⟨rfl, i2⟩
        | true => exact ⟨rfl, by simp [calcStep]⟩
      · by_cases h2 : c = .closeParen
        · rw [calcNow_not alpha (by rw [hp]; rfl), hem, calcState_single alpha hx, i1, ecalc, ht, h2]
          generalize ecalc es = s at i2
          obtain ⟨ic, p⟩ := s
          cases ic with
          | false => exact ⟨rfl, i2⟩
          | true =>
            simp only [RChar.toChar, calcStep]
            by_cases hz : p - 1 = 0
            · simp [hz, CalcRel]
            · simp [hz, CalcRel]
        · refine key (by simp [ht, h1]) (by simp [ht, h2]) (single _ _ hem hx ?_ ?_)
          · intro e'; apply h1; cases c <;> first | rfl | simp [RChar.toChar] at e'
          · intro e'; apply h2; cases c <;> first | rfl | simp [RChar.toChar] at e'
    | other w =>
      refine key (by simp [ht]) (by simp [ht]) ?_
      rw [ht] at hk
      cases hb : isBs (lastTok es) with
      | true =>
        rw [hb] at hk
        obtain ⟨_, c, rfl⟩ := hk
        exact single e.g (.lit c) (by rw [emarks, ht, hb]; rfl) rfl (by simp) (by simp)
      | false =>
        rw [hb] at hk
        rw [emarks, ht, hb]
        exact calcState_push alpha hk.2.1 hk.1 hk.2.2.1
    | sel s =>
      refine key (by simp [ht]) (by simp [ht]) ?_
      rw [ht] at hk
      rw [emarks, ht]
      cases s with
      | pseudoClass p =>
        show calcState alpha (pushChars ((e.g, .chr ':') :: emarks es) .none p) = _
        rw [calcState_push alpha hk.2.1 hk.2.2.1 (by intro _; simp [wordEnd, isWordChr, isPunct]),
          calcNow_not alpha (calcWord_not alpha (by simp [wordEnd, isWordChr, isPunct])), calcState_single alpha (by simp [isWordChr, isPunct])]
        simp
      | cls w => exact calcState_push alpha hk.2.2.1 hk.2.1 hk.2.2.2.1
      | id w => exact calcState_push alpha hk.2.2.1 hk.2.1 hk.2.2.2.1
      | tag w => exact calcState_push alpha hk.2.2.1 hk.2.1 hk.2.2.2.1
      | media w => exact calcState_push alpha hk.2.2.1 hk.2.1 hk.2.2.2.1
    | str b => exact key (by simp [ht]) (by simp [ht]) (single e.g (.str b) (by rw [emarks, ht]; rfl) rfl (by simp) (by simp))
    | license b => exact key (by simp [ht]) (by simp [ht]) (single e.g (.license b) (by rw [emarks, ht]; rfl) rfl (by simp) (by simp))
    | selOp o =>
      refine key (by simp [ht]) (by simp [ht]) ?_
      rw [emarks, ht]
      show calcState alpha ((e.i, .chr '=') :: (e.g, .chr (o.display.headD '=')) :: emarks es) = _
      have ho : ∃ rc : RChar, o.display.headD '=' = rc.toChar ∧ rc ≠ .openParen ∧ rc ≠ .closeParen := by
        cases o
        · exact ⟨.tilde, rfl, by simp, by simp⟩
        · exact ⟨.pipe, rfl, by simp, by simp⟩
        · exact ⟨.dollar, rfl, by simp, by simp⟩
        · exact ⟨.circumflex, rfl, by simp, by simp⟩
        · exact ⟨.star, rfl, by simp, by simp⟩
      obtain ⟨rc, hr, hr1, hr2⟩ := ho
      rw [hr]
      have hx : isWordChr (.chr rc.toChar) = false := by simp [isWordChr, toChar_punct]
      have n1 : Item.chr rc.toChar ≠ .chr '(' := by
        intro e'; apply hr1; cases rc <;> first | rfl | simp [RChar.toChar] at e'
      have n2 : Item.chr rc.toChar ≠ .chr ')' := by
        intro e'; apply hr2; cases rc <;> first | rfl | simp [RChar.toChar] at e'
      rw [calcState_single alpha (by simp [isWordChr, isPunct]), calcNow_not alpha (calcWord_not alpha (show wordEnd ((e.g, .chr rc.toChar) :: emarks es) = false from hx)),
        calcState_single alpha hx, if_neg n1, if_neg n2]
      simp
    | comment b => rw [ht] at hk; exact hk.elim
    | operator o => rw [ht] at hk; exact hk.elim

theorem inCalc_ecalc {alpha : Char → Bool} {es : List Ent} (h : EsOk alpha es) : inCalc alpha (emarks es) = (ecalc es).1 := by
  unfold inCalc
  rw [(ecalc_marks h).1]
  cases (ecalc es).1 <;> rfl

/-! ## The next token, seen from the marks -/

/-- The first item of a token. -/
def tokFirst (bs : Bool) : Token → Item
  | .char c => .chr c.toChar
  | .other w => if bs then .lit (w.headD ' ') else .chr (w.headD ' ')
  | .sel s => .chr (s.chars.headD ' ')
  | .str b => .str b
  | .license b => .license b
  | .selOp o => .chr (o.display.headD '=')
  | .comment b => .comment b
  | .operator _ => .blank

/-- The marks of a token after the first one, first one first. -/
def tokRest (i : Gap) (bs : Bool) : Token → List Mark
  | .other w => if bs then [] else w.tail.map fun c => (.none, .chr c)
  | .sel s => s.chars.tail.map fun c => (.none, .chr c)
  | .selOp _ => [(i, .chr '=')]
  | _ => []

theorem pushChars_eq (acc : List Mark) (w : List Char) :
    pushChars acc .none w = (w.map fun c => (Gap.none, Item.chr c)).reverse ++ acc := by
  induction w generalizing acc with
  | nil => rfl
  | cons c w ih => rw [pushChars, ih]; simp

theorem pushChars_first (acc : List Mark) (g : Gap) {w : List Char} (hn : w ≠ []) :
    pushChars acc g w = (w.tail.map fun c => (Gap.none, Item.chr c)).reverse ++ (g, .chr (w.headD ' ')) :: acc := by
  cases w with
  | nil => exact absurd rfl hn
  | cons c w => rw [pushChars, pushChars_eq]; rfl

theorem tokMarks_first {alpha : Char → Bool} {acc : List Mark} {g i : Gap} {bs : Bool} {t : Token} (h : KindOk alpha acc g i bs t) :
    tokMarks acc g i bs t = (tokRest i bs t).reverse ++ (g, tokFirst bs t) :: acc := by
  cases t with
  | other w =>
    cases bs with
    | true => obtain ⟨_, c, rfl⟩ := h; rfl
    | false => exact pushChars_first _ _ h.1
  | sel s =>
    have : s.chars ≠ [] := by
      cases s with
      | pseudoClass p => simp [Sel.chars]
      | _ => exact h.2.1
    exact pushChars_first _ _ this
  | comment b => exact h.elim
  | operator o => exact h.elim
  | _ => rfl

/-- What can follow the marks of a token. -/
def RightOk (xs : List Mark) : List Mark → Prop
  | [] => True
  | (g, x) :: _ =>
    (isWordChr x = true → g = .none → wordEnd xs = false ∧ ¬((place xs).sel = true ∧ lastIs ':' xs = true)) ∧
      (x = .chr '=' → attrOp ((g, .chr '=') :: xs) = false)

theorem right_word {xs : List Mark} {g : Gap} {w : List Char} (hw : Word w) (hn : w ≠ [])
    (ha : g = .none → wordEnd xs = false) (hs : ¬(g = .none ∧ (place xs).sel = true ∧ lastIs ':' xs = true)) (r : List Mark) :
    RightOk xs ((g, .chr (w.headD ' ')) :: r) := by
  cases w with
  | nil => exact absurd rfl hn
  | cons c w =>
    refine ⟨fun _ hg => ⟨ha hg, fun h => hs ⟨hg, h⟩⟩, fun e => ?_⟩
    exact absurd e (word_ne hw.head (by decide))

theorem right_ok {alpha : Char → Bool} {es : List Ent} {e : Ent} (h : EOk alpha es e) (r : List Mark) :
    RightOk (emarks es) ((e.g, tokFirst (isBs (lastTok es)) e.t) :: r) := by
  obtain ⟨_, h⟩ := h
  generalize emarks es = acc at h ⊢
  generalize isBs (lastTok es) = bs at h ⊢
  have norm : ∀ s, (∀ p, s ≠ .pseudoClass p) → KindOk alpha acc e.g e.i bs (.sel s) →
      RightOk acc ((e.g, tokFirst bs (.sel s)) :: r) := by
    intro s hp h
    have h : bs = false ∧ s.chars ≠ [] ∧ Word s.chars ∧ (e.g = .none → wordEnd acc = false) ∧ selTok alpha acc e.g s.chars = true ∧
        afterColon e.g acc = false ∧ Sel.ofStr alpha s.chars = some s := by
      cases s <;> first | exact h | exact absurd rfl (hp _)
    obtain ⟨_, hn, hw, ha, hs, hc, ho⟩ := h
    refine right_word hw hn ha ?_ r
    rintro ⟨h1, _, h3⟩
    simp [afterColon, h1, h3] at hc
  cases ht : e.t with
  | char c =>
    rw [ht] at h
    refine ⟨fun hw => ?_, fun he => ?_⟩
    · simp [tokFirst, isWordChr, toChar_punct] at hw
    · have : c = .equalSign := by cases c <;> first | rfl | simp [tokFirst, RChar.toChar] at he
      exact h.2.2.2.2 this
  | other w =>
    rw [ht] at h
    cases bs with
    | true => exact ⟨fun hw => by simp [tokFirst, isWordChr] at hw, fun he => by simp [tokFirst] at he⟩
    | false =>
      obtain ⟨hn, hw, ha, hs⟩ := h
      refine right_word hw hn ha ?_ r
      rintro ⟨h1, h2, h3⟩
      simp [selTok, afterColon, h1, h2, h3] at hs
  | sel s =>
    rw [ht] at h
    cases s with
    | pseudoClass p => exact ⟨fun hw => by simp [tokFirst, isWordChr, Sel.chars, isPunct] at hw, fun he => by simp [tokFirst, Sel.chars] at he⟩
    | _ => exact norm _ (by simp) h
  | str b => exact ⟨fun hw => by simp [tokFirst, isWordChr] at hw, fun he => by simp [tokFirst] at he⟩
  | license b => exact ⟨fun hw => by simp [tokFirst, isWordChr] at hw, fun he => by simp [tokFirst] at he⟩
  | selOp o => cases o <;> exact ⟨fun hw => by simp [tokFirst, isWordChr, SelOp.display, isPunct] at hw, fun he => by simp [tokFirst, SelOp.display] at he⟩
  | comment b => rw [ht] at h; exact h.elim
  | operator o => rw [ht] at h; exact h.elim

theorem attrOp_gap (g a b : Gap) (x y : Item) (xs ys : List Mark) : attrOp ((g, x) :: (a, y) :: xs) = attrOp ((g, x) :: (b, y) :: ys) := rfl

/-- What the marks tell about the next token `n`. -/
structure NProf (alpha : Char → Bool) (xs : List Mark) (x : Item) (r : List Mark) (n : Token) : Prop where
  curly : (x == .chr '{') = (n == .char .openCurly)
  eq : (x == .chr '=') = (n == .char .equalSign)
  paren : (x == .chr '(') = (n == .char .openParen)
  star : (x == .chr '*' && !opAt x r) = (n == .char .star)
  sel : lastIs ':' xs = false → selAt alpha xs x r = n.isSel
  oth : (opens x || pseudoAt xs x r || opAt x r) = !(n.isChar && n != .char .openBracket)

theorem opAt_not {x : Item} (hx : ∀ d, isPunct d = true → x ≠ .chr d) (r : List Mark) : opAt x r = false := by
  cases r with
  | nil => rfl
  | cons m r =>
    obtain ⟨g, y⟩ := m
    simp [opAt, attrOp, hx '~' (by decide), hx '|' (by decide), hx '$' (by decide), hx '^' (by decide), hx '*' (by decide)]

theorem directWord_map {w : List Char} (hw : Word w) (hn : w ≠ []) (r : List Mark) :
    directWord ((w.map fun c => (Gap.none, Item.chr c)) ++ r) = true := by
  cases w with
  | nil => exact absurd rfl hn
  | cons c w => simp [directWord, word_isWordChr hw.head]

theorem directWord_right {xs r : List Mark} (h : RightOk xs r) (hw : wordEnd xs = true) : directWord r = false := by
  cases r with
  | nil => rfl
  | cons m r =>
    obtain ⟨g, x⟩ := m
    rw [Bool.eq_false_iff]
    intro hd
    simp only [directWord, Bool.and_eq_true, beq_iff_eq] at hd
    have := (h.1 hd.2 hd.1).1
    rw [hw] at this; cases this

/-- The first character of a word starts a selector exactly when the word does. -/
theorem starts_first {alpha : Char → Bool} {xs : List Mark} {g : Gap} {c : Char} {w : List Char} {r : List Mark} (hw : Word (c :: w))
    (hr : RightOk (pushChars xs g (c :: w)) r) :
    (if c = '.' ∨ c = '#' ∨ c = '@' then directWord ((w.map fun c => (Gap.none, Item.chr c)) ++ r) else alpha c) =
      startsSel alpha (c :: w) := by
  rw [startsSel]
  by_cases hc : c = '.' ∨ c = '#' ∨ c = '@'
  · rw [if_pos hc, if_pos hc]
    by_cases hn : w = []
    · subst hn
      simp only [List.map_nil, List.nil_append]
      rw [directWord_right hr (pushChars_wordEnd xs g hw (by simp))]; rfl
    · rw [directWord_map hw.tail hn]; simp [hn]
  · rw [if_neg hc, if_neg hc]

theorem nprof_word {alpha : Char → Bool} {xs : List Mark} {g : Gap} {w : List Char} {r : List Mark} {n : Token} (hw : Word w) (hn : w ≠ [])
    (hr : RightOk (pushChars xs g w) r) (hs : selTok alpha xs g w = n.isSel) (hc : n.isChar = false) :
    NProf alpha xs (.chr (w.headD ' ')) ((w.tail.map fun c => (Gap.none, Item.chr c)) ++ r) n := by
  cases w with
  | nil => exact absurd rfl hn
  | cons c w =>
    have ne : ∀ d, RChar.ofChar d ≠ none → (Item.chr c == .chr d) = false := fun d hd => beq_eq_false_iff_ne.2 (word_ne hw.head hd)
    have hp : isPunct c = false := ofChar_none_punct hw.head
    have hch : ∀ d, (n == .char d) = false := by
      intro d; cases n <;> first | rfl | simp [Token.isChar] at hc
    have hps : ∀ xs r, pseudoAt xs (.chr c) r = false := by intro xs r; unfold pseudoAt; rw [ne ':' (by decide)]; rfl
    simp only [List.headD_cons, List.tail_cons]
    constructor
    · rw [ne '{' (by decide), hch]
    · rw [ne '=' (by decide), hch]
    · rw [ne '(' (by decide), hch]
    · rw [ne '*' (by decide), hch]; rfl
    · intro hl
      unfold selAt
      rw [hps]
      simp only [hp, Bool.not_false, Bool.true_and, Bool.or_false]
      rw [starts_first hw hr, ← hs]
      unfold selTok afterColon
      simp [hl]
    · simp [opens, hp, hc]

theorem nprof_single {alpha : Char → Bool} {xs r : List Mark} {x : Item} {n : Token} (hx : ∀ c, x ≠ .chr c) (ho : opens x = true)
    (hc : n.isChar = false) (hs : n.isSel = false) : NProf alpha xs x r n := by
  have ne : ∀ d, (x == .chr d) = false := fun d => beq_eq_false_iff_ne.2 (hx d)
  have hch : ∀ d, (n == .char d) = false := by
    intro d; cases n <;> first | rfl | simp [Token.isChar] at hc
  constructor
  · rw [ne, hch]
  · rw [ne, hch]
  · rw [ne, hch]
  · rw [ne, hch]; rfl
  · intro _
    unfold selAt pseudoAt
    rw [ne, hs]
    cases x <;> first | rfl | exact absurd rfl (hx _)
  · simp [ho, hc]

theorem nprof {alpha : Char → Bool} {es : List Ent} {e : Ent} {r : List Mark} (h : EOk alpha es e) (hg : e.g ≠ .none)
    (hr : RightOk (emarks (e :: es)) r) :
    NProf alpha (emarks es) (tokFirst (isBs (lastTok es)) e.t) (tokRest e.i (isBs (lastTok es)) e.t ++ r) e.t := by
  obtain ⟨_, h⟩ := h
  rw [emarks] at hr
  generalize emarks es = acc at h hr ⊢
  generalize isBs (lastTok es) = bs at h hr ⊢
  have norm : ∀ s, (∀ p, s ≠ .pseudoClass p) → KindOk alpha acc e.g e.i bs (.sel s) →
      RightOk (tokMarks acc e.g e.i bs (.sel s)) r → NProf alpha acc (tokFirst bs (.sel s)) (tokRest e.i bs (.sel s) ++ r) (.sel s) := by
    intro s hp h hr
    have h : bs = false ∧ s.chars ≠ [] ∧ Word s.chars ∧ (e.g = .none → wordEnd acc = false) ∧ selTok alpha acc e.g s.chars = true ∧
        afterColon e.g acc = false ∧ Sel.ofStr alpha s.chars = some s := by
      cases s <;> first | exact h | exact absurd rfl (hp _)
    obtain ⟨_, hn, hw, ha, hs, hc, ho⟩ := h
    exact nprof_word hw hn hr hs rfl
  cases ht : e.t with
  | char c =>
    rw [ht] at h hr
    have hop : opAt (.chr c.toChar) r = false := by
      cases r with
      | nil => rfl
      | cons m r =>
        obtain ⟨g', y⟩ := m
        by_cases hy : y = .chr '='
        · have := hr.2 hy
          subst hy
          rw [opAt, attrOp_gap _ _ e.g _ _ _ acc]; exact this
        · simp [opAt, attrOp, hy]
    have hps : pseudoAt acc (.chr c.toChar) r = false := by
      by_cases hc : c = .colon
      · subst hc
        rw [Bool.eq_false_iff]
        intro hp
        simp only [pseudoAt, Bool.and_eq_true] at hp
        cases r with
        | nil => simp [directWord] at hp
        | cons m r =>
          obtain ⟨g', y⟩ := m
          simp only [directWord, Bool.and_eq_true, beq_iff_eq] at hp
          refine (hr.1 hp.1.2.2 hp.1.2.1).2 ⟨?_, rfl⟩
          show (place ((e.g, .chr ':') :: acc)).sel = true
          rw [place_colon]; exact hp.2
      · unfold pseudoAt
        rw [show (Item.chr c.toChar == .chr ':') = false by cases c <;> first | exact absurd rfl hc | rfl]
        rfl
    simp only [tokFirst, tokRest, List.nil_append]
    constructor
    · cases c <;> rfl
    · cases c <;> rfl
    · cases c <;> rfl
    · rw [hop]; cases c <;> rfl
    · intro _; unfold selAt; rw [hps]; simp [toChar_punct, Token.isSel]
    · rw [hop, hps]; cases c <;> rfl
  | other w =>
    rw [ht] at h hr
    cases bs with
    | true => exact absurd h.1 hg
    | false =>
      obtain ⟨hn, hw, ha, hs⟩ := h
      exact nprof_word hw hn hr hs rfl
  | sel s =>
    rw [ht] at h hr
    cases s with
    | pseudoClass p =>
      obtain ⟨_, hw, hn, hs⟩ := h
      have hps : pseudoAt acc (.chr ':') ((p.map fun c => (Gap.none, Item.chr c)) ++ r) = true := by
        unfold pseudoAt; rw [directWord_map hw hn, hs]; rfl
      show NProf alpha acc (.chr ':') ((p.map fun c => (Gap.none, Item.chr c)) ++ r) _
      constructor
      · rfl
      · rfl
      · rfl
      · rfl
      · intro _; unfold selAt; rw [hps]; simp [Token.isSel]
      · rw [hps]; simp [Token.isChar]
    | _ => exact norm _ (by simp) h hr
  | str b => exact nprof_single (by simp [tokFirst]) rfl rfl rfl
  | license b => exact nprof_single (by simp [tokFirst]) rfl rfl rfl
  | selOp o =>
    rw [ht] at h
    have hop : opAt (.chr (o.display.headD '=')) ((e.i, .chr '=') :: r) = true := by
      rw [opAt, attrOp_gap _ _ e.g _ _ _ acc]; exact h.2
    show NProf alpha acc (.chr (o.display.headD '=')) ((e.i, .chr '=') :: r) _
    constructor
    · cases o <;> rfl
    · cases o <;> rfl
    · cases o <;> rfl
    · rw [hop]; cases o <;> rfl
    · intro _; unfold selAt pseudoAt; cases o <;> rfl
    · rw [hop]; cases o <;> rfl
  | comment b => rw [ht] at h; exact h.elim
  | operator o => rw [ht] at h; exact h.elim

theorem keepRule_eq (alpha : Char → Bool) (xs : List Mark) (x : Item) (r : List Mark) : keepRule alpha xs x r =
    (recorded xs &&
    (if lastIs ']' xs then !(x == .chr '{')
     else if inCalc alpha xs then true
     else if lastIs '*' xs then x == .chr '=' || selAt alpha xs x r
     else if lastIs '/' xs then x == .chr '*' && !opAt x r
     else if lastIs '+' xs || lastLicense xs then false
     else
      (selWord alpha xs && (x == .chr '*' && !opAt x r)) ||
      (!mediaWord xs && (opens x || pseudoAt xs x r || opAt x r)) ||
      (x == .chr '(' && (!selWord alpha xs && (wordEnd xs || lastLit xs))))) := by
  rw [← Bool.and_assoc (selWord alpha xs), ← Bool.and_assoc (x == .chr '(')]
  rfl

/-- The decision of the code is the rule. -/
theorem keep_eq {alpha : Char → Bool} {xs : List Mark} {x : Item} {r : List Mark} {p n : Token} {ic : Bool} (hp : Prof alpha xs p)
    (hn : NProf alpha xs x r n) (hc : inCalc alpha xs = ic) (hu : n.isUseless = false) (hw : wantsSpace (some p) = true) :
    keepBlank ic (some p) (some n) = keepRule alpha xs x r := by
  rw [keepRule_eq, hp.rec_, hw, hp.bracket, hp.star, hp.slash, hp.plus, hp.lic, hc, hp.oth, hp.sel, hp.media, hn.oth, hn.star, hn.curly,
    hn.eq, hn.paren]
  have hsel := hn.sel
  rw [hp.colon] at hsel
  clear hp hn
  unfold keepBlank
  cases p with
  | char c =>
    cases c <;> first
      | exact absurd hw (by decide)
      | (try rw [hsel rfl]
         cases n with
         | char d => cases d <;> first | exact absurd hu (by decide) | (cases ic <;> rfl)
         | _ => cases ic <;> rfl)
  | sel s =>
    cases s <;> (cases n with
      | char d => cases d <;> first | exact absurd hu (by decide) | (cases ic <;> rfl)
      | _ => cases ic <;> rfl)
  | _ =>
    cases n with
      | char d => cases d <;> first | exact absurd hu (by decide) | (cases ic <;> rfl)
      | _ => cases ic <;> rfl

theorem keep_tail_eq {alpha : Char → Bool} {xs : List Mark} {p : Token} {ic : Bool} (hp : Prof alpha xs p)
    (hc : inCalc alpha xs = ic) (hw : wantsSpace (some p) = true) : keepBlank ic (some p) none = tailRule alpha xs := by
  unfold tailRule
  rw [hp.rec_, hw, hp.bracket, hp.star, hp.slash, hp.plus, hp.lic, hc, hp.media]
  clear hp
  unfold keepBlank
  cases p with
  | char c => cases c <;> first | exact absurd hw (by decide) | (cases ic <;> rfl)
  | sel s => cases s <;> cases ic <;> rfl
  | _ => cases ic <;> rfl

/-! ## The loop of `clean_tokens` -/

/-- A blank or a comment. -/
def GapTok (t : Token) : Prop := t = .char .space ∨ t.isComment = true

/-- After `p`, no blank or comment is kept because of a blank or comment behind it. -/
def DeadEnd (ic : Bool) (p : Option Token) : Prop := ∀ t, GapTok t → keepBlank ic p (some t) = false

/-- The gap `L` before `t` is kept. -/
def KeepOk (ic : Bool) (p : Option Token) (t : Option Token) (L : List Token) (k : Bool) : Prop :=
  (L = [] → k = false) ∧ (L = [.char .space] → k = keepBlank ic p t) ∧ (L ≠ [] → keepBlank ic p t = true → k = true) ∧
    (L ≠ [] → DeadEnd ic p → k = keepBlank ic p t)

theorem calcStep_gap {t : Token} (h : GapTok t) (ic : Bool) (n : Int) : calcStep ic n t = (ic, n) := by
  rcases h with rfl | h
  · cases ic <;> rfl
  · cases t <;> simp [Token.isComment] at h
    cases ic <;> rfl

theorem gapTok_drop {t : Token} (h : GapTok t) : (t.isUseless || t.isComment) = true := by
  rcases h with rfl | h
  · rfl
  · simp [h]

theorem gapTok_out {t : Token} (h : GapTok t) : (if t.isComment then Token.char .space else t) = .char .space := by
  rcases h with rfl | h
  · rfl
  · simp [h]

theorem keepBlank_space (ic : Bool) (n : Option Token) : keepBlank ic (some (.char .space)) n = false := by
  cases ic <;> cases n <;> rfl

/-- After a kept blank, the rest of the gap goes. -/
theorem clean_kept {G : List Token} (hG : ∀ t ∈ G, GapTok t) (ic : Bool) (n : Int) (T : List Token) :
    cleanFrom ic n (some (.char .space)) (G ++ T) = cleanFrom ic n (some (.char .space)) T := by
  induction G with
  | nil => rfl
  | cons t G ih =>
    have ht := hG t (by simp)
    rw [List.cons_append, cleanFrom]
    simp only [calcStep_gap ht, gapTok_drop ht, keepBlank_space, if_true, Bool.false_eq_true, if_false]
    exact ih fun t h => hG t (by simp [h])

theorem clean_solid {t : Token} (h : (t.isUseless || t.isComment) = false) (ic : Bool) (n : Int) (p : Option Token) (rest : List Token) :
    cleanFrom ic n p (t :: rest) = t :: cleanFrom (calcStep ic n t).1 (calcStep ic n t).2 (some t) rest := by
  rw [cleanFrom]; simp only [h, Bool.false_eq_true, if_false]

/-- A gap, and the token that follows. -/
theorem clean_gap {G : List Token} (hG : ∀ t ∈ G, GapTok t) (ic : Bool) (n : Int) (p : Option Token) (T : List Token) :
    ∃ k, KeepOk ic p T.head? G k ∧
      cleanFrom ic n p (G ++ T) = (if k then .char .space :: cleanFrom ic n (some (.char .space)) T else cleanFrom ic n p T) := by
  induction G with
  | nil => exact ⟨false, ⟨fun _ => rfl, by simp, by simp, by simp⟩, by simp⟩
  | cons t G ih =>
    have ht := hG t (by simp)
    have hG' : ∀ t ∈ G, GapTok t := fun t h => hG t (by simp [h])
    obtain ⟨k, hk, hc⟩ := ih hG'
    rw [List.cons_append, cleanFrom]
    simp only [calcStep_gap ht, gapTok_drop ht, if_true, gapTok_out ht]
    by_cases hkb : keepBlank ic p (G ++ T).head? = true
    · rw [if_pos hkb, clean_kept hG' ic n T]
      refine ⟨true, ⟨by simp, ?_, fun _ _ => rfl, ?_⟩, by simp⟩
      · intro e
        have : G = [] := (by simpa using e : t = .char .space ∧ G = []).2
        subst this
        exact hkb.symm
      · intro _ hd
        cases G with
        | nil => exact hkb.symm
        | cons u G =>
          rw [List.cons_append, List.head?_cons, hd u (hG' u (by simp))] at hkb
          cases hkb
    · rw [if_neg hkb, hc]
      refine ⟨k, ⟨by simp, ?_, ?_, ?_⟩, rfl⟩
      · intro e
        have : G = [] := (by simpa using e : t = .char .space ∧ G = []).2
        subst this
        simp only [List.nil_append] at hkb
        rw [hk.1 rfl]
        exact (Bool.eq_false_iff.2 hkb).symm
      · intro _ hkt
        by_cases hG0 : G = []
        · subst hG0; exact absurd hkt (by simpa using hkb)
        · exact hk.2.2.1 hG0 hkt
      · intro _ hd
        by_cases hG0 : G = []
        · subst hG0
          simp only [List.nil_append] at hkb
          rw [hk.1 rfl]
          exact (Bool.eq_false_iff.2 hkb).symm
        · exact hk.2.2.2 hG0 hd

theorem clean_gap_next {G : List Token} (hG : ∀ t ∈ G, GapTok t) (ic : Bool) (n : Int) (p : Option Token) {t : Token} (rest : List Token)
    (ht : (t.isUseless || t.isComment) = false) :
    ∃ k, KeepOk ic p (some t) G k ∧ cleanFrom ic n p (G ++ t :: rest) =
      (if k then [.char .space] else []) ++ t :: cleanFrom (calcStep ic n t).1 (calcStep ic n t).2 (some t) rest := by
  obtain ⟨k, hk, hc⟩ := clean_gap hG ic n p (t :: rest)
  refine ⟨k, hk, ?_⟩
  rw [hc, clean_solid ht, clean_solid ht]
  cases k <;> rfl

theorem clean_gap_end {G : List Token} (hG : ∀ t ∈ G, GapTok t) (ic : Bool) (n : Int) (p : Option Token) :
    ∃ k, KeepOk ic p none G k ∧ cleanFrom ic n p G = (if k then [.char .space] else []) := by
  obtain ⟨k, hk, hc⟩ := clean_gap hG ic n p []
  refine ⟨k, hk, ?_⟩
  rw [List.append_nil] at hc
  rw [hc]
  cases k <;> rfl

/-- Which gaps of the entries are kept. -/
def Ks : List Ent → List Bool → Prop
  | [], [] => True
  | e :: es, k :: ks => KeepOk (ecalc es).1 (lastTok es) (some e.t) e.L k ∧ Ks es ks
  | _, _ => False

/-- The tokens that are left, last one first. -/
def outToks : List Ent → List Bool → List Token
  | e :: es, k :: ks => e.t :: ((if k then [.char .space] else []) ++ outToks es ks)
  | _, _ => []

theorem EOk.solid {alpha : Char → Bool} {es : List Ent} {e : Ent} (h : EOk alpha es e) : (e.t.isUseless || e.t.isComment) = false := by
  obtain ⟨_, h⟩ := h
  cases ht : e.t with
  | char c => rw [ht] at h; simp [Token.isUseless, h.2.1, Token.isComment]
  | comment b => rw [ht] at h; exact h.elim
  | _ => rfl

theorem GapOk.gapTok {p : Option Token} {g : Gap} {L : List Token} (h : GapOk p g L) : ∀ t ∈ L, GapTok t := by
  cases g with
  | none => rw [show L = [] from h]; simp
  | blank =>
    rw [show L = if wantsSpace p then [.char .space] else [] from h]
    split
    · intro t ht; left; simpa using ht
    · simp
  | comment => exact h.2

theorem clean_ents (alpha : Char → Bool) (fs : List Ent) : ∀ (es : List Ent) (ks : List Bool) (G : List Token),
    EsOk alpha (fs.reverse ++ es) → Ks es ks → (∀ t ∈ G, GapTok t) →
    ∃ ks' k0, Ks (fs.reverse ++ es) ks' ∧ KeepOk (ecalc (fs.reverse ++ es)).1 (lastTok (fs.reverse ++ es)) none G k0 ∧
      (outToks es ks).reverse ++ cleanFrom (ecalc es).1 (ecalc es).2 (lastTok es) (fs.flatMap (fun e => e.L.reverse ++ [e.t]) ++ G) =
        (outToks (fs.reverse ++ es) ks').reverse ++ (if k0 then [.char .space] else []) := by
  induction fs with
  | nil =>
    intro es ks G _ hk hG
    obtain ⟨k0, h0, hc⟩ := clean_gap_end hG (ecalc es).1 (ecalc es).2 (lastTok es)
    refine ⟨ks, k0, hk, h0, ?_⟩
    show (outToks es ks).reverse ++ cleanFrom _ _ _ G = _
    rw [hc]; rfl
  | cons e fs ih =>
    intro es ks G hes hk hG
    have hes' : EsOk alpha (fs.reverse ++ (e :: es)) := by simpa using hes
    have hee : EsOk alpha (e :: es) := by
      generalize fs.reverse = l at hes'
      induction l with
      | nil => exact hes'
      | cons f l ih => exact ih hes'.2
    obtain ⟨k, hk1, hc⟩ := clean_gap_next (G := e.L.reverse) (t := e.t) (by intro t ht; exact hee.1.1.gapTok t (by simpa using ht))
      (ecalc es).1 (ecalc es).2 (lastTok es) (fs.flatMap (fun e => e.L.reverse ++ [e.t]) ++ G) hee.1.solid
    have hk2 : KeepOk (ecalc es).1 (lastTok es) (some e.t) e.L k := by
      obtain ⟨a, b, c, d⟩ := hk1
      refine ⟨fun h => a (by simp [h]), fun h => b (by simp [h]), fun h => c (by simpa using h), fun h => d (by simpa using h)⟩
    obtain ⟨ks', k0, h1, h2, h3⟩ := ih (e :: es) (k :: ks) G hes' ⟨hk2, hk⟩ hG
    refine ⟨ks', k0, by simpa using h1, by simpa using h2, ?_⟩
    have hl : (e :: fs).reverse ++ es = fs.reverse ++ (e :: es) := by simp
    rw [hl, ← h3]
    have hf : (e :: fs).flatMap (fun e => e.L.reverse ++ [e.t]) ++ G = e.L.reverse ++ e.t :: (fs.flatMap (fun e => e.L.reverse ++ [e.t]) ++ G) := by
      simp
    rw [hf, hc, ecalc, lastTok, outToks]
    cases k <;> simp

theorem clean_toks {alpha : Char → Bool} {es : List Ent} {L : List Token} (h : EsOk alpha es) (hL : ∀ t ∈ L, GapTok t) :
    ∃ ks k0, Ks es ks ∧ KeepOk (ecalc es).1 (lastTok es) none L k0 ∧
      cleanTokens (L ++ toks es).reverse = (outToks es ks).reverse ++ (if k0 then [.char .space] else []) := by
  obtain ⟨ks, k0, h1, h2, h3⟩ := clean_ents alpha es.reverse [] [] L.reverse (by simpa using h) trivial (by simpa using hL)
  simp only [List.reverse_reverse, List.append_nil] at h1 h2 h3
  refine ⟨ks, k0, h1, ?_, ?_⟩
  · obtain ⟨a, b, c, d⟩ := h2
    exact ⟨fun h => a (by simp [h]), fun h => b (by simp [h]), fun h => c (by simpa using h), fun h => d (by simpa using h)⟩
  · rw [← h3]
    have : (L ++ toks es).reverse = es.reverse.flatMap (fun e => e.L.reverse ++ [e.t]) ++ L.reverse := by
      rw [List.reverse_append]
      congr 1
      unfold toks
      clear h1 h2 h3 h hL
      induction es with
      | nil => rfl
      | cons e es ih => simp [ih]
    rw [this]
    rfl

/-! ## The gaps of the source that are kept -/

/-- The gaps of the entries, mark by mark. -/
def markKs : List Ent → List Bool → List Bool
  | e :: es, k :: ks => (tokRest e.i (isBs (lastTok es)) e.t).map (fun _ => false) ++ k :: markKs es ks
  | _, _ => []

theorem cleaned_rest {alpha : Char → Bool} {m : List Mark} {xs : List Mark} {r : List Mark} {ks : List Bool}
    (hm : ∀ a ∈ m, a.1 = .none) (h : Cleaned alpha (m ++ r) xs ks) :
    Cleaned alpha r (m.reverse ++ xs) (m.map (fun _ => false) ++ ks) := by
  induction m generalizing xs ks r with
  | nil => exact h
  | cons a m ih =>
    have : ((a :: m).map (fun _ => false) ++ ks) = m.map (fun _ => false) ++ (false :: ks) := by
      clear ih hm h
      induction m with
      | nil => rfl
      | cons b m ih => simp only [List.map_cons, List.cons_append] at ih ⊢; rw [← ih]
    rw [this]
    simp only [List.reverse_cons, List.append_assoc, List.singleton_append]
    refine ih (fun b hb => hm b (by simp [hb])) ?_
    have ha := hm a (by simp)
    obtain ⟨g, x⟩ := a
    simp only at ha
    subst ha
    exact ⟨fun _ => rfl, by simp, by simp, h⟩

/-- Nothing is kept between the two characters of an attribute operator. -/
theorem keepRule_op {alpha : Char → Bool} {o : SelOp} {g : Gap} {xs r : List Mark} (ho : o ≠ .contains) :
    keepRule alpha ((g, .chr (o.display.headD '=')) :: xs) (.chr '=') r = false := by
  have : recorded ((g, .chr (o.display.headD '=')) :: xs) = false := by
    have hat : attrOp ((g, .chr (o.display.headD '=')) :: xs) = false := attrOp_not (by cases o <;> simp [SelOp.display])
    unfold recorded ending
    simp only [hat]
    cases o <;> first | rfl | exact absurd rfl ho
  rw [keepRule_eq, this]; rfl

/-- The last token is a special character that ends no group. -/
theorem quiet_char {alpha : Char → Bool} {es : List Ent} {e : Ent} (h : EOk alpha es e)
    (hq : (match emarks (e :: es) with
     | (_, .chr c) :: _ => isPunct c && c != ')' && c != ']' && !attrOp (emarks (e :: es))
     | _ => false) = true) :
    e.t.isChar = true ∧ e.t ≠ .char .closeParen ∧ e.t ≠ .char .closeBracket := by
  have hp := prof h
  obtain ⟨_, h⟩ := h
  have word : wordEnd (emarks (e :: es)) = true → False := by
    intro hw
    revert hq hw
    generalize emarks (e :: es) = xs
    cases xs with
    | nil => simp [wordEnd]
    | cons m xs =>
      obtain ⟨g, x⟩ := m
      cases x <;> simp [wordEnd, isWordChr]
      intro a _ _ _
      exact a
  cases ht : e.t with
  | char c =>
    rw [emarks, ht] at hq
    refine ⟨rfl, ?_, ?_⟩
    · rintro e'
      simp only [Token.char.injEq] at e'
      subst e'
      revert hq; simp [tokMarks, RChar.toChar]
    · rintro e'
      simp only [Token.char.injEq] at e'
      subst e'
      revert hq; simp [tokMarks, RChar.toChar]
  | other w =>
    exfalso
    have ho := hp.oth
    rw [ht] at ho
    simp only [Token.isOther, Bool.and_eq_true, Bool.or_eq_true] at ho
    rcases ho.2 with hw | hl
    · exact word hw
    · revert hq hl
      generalize emarks (e :: es) = xs
      cases xs with
      | nil => simp [lastLit]
      | cons m xs => obtain ⟨g, x⟩ := m; cases x <;> simp [lastLit]
  | sel s =>
    exfalso
    have ho := hp.sel
    rw [ht] at ho
    simp only [Token.isSel, selWord, Bool.and_eq_true] at ho
    exact word ho.1
  | str b => rw [emarks, ht] at hq; simp [tokMarks] at hq
  | license b => rw [emarks, ht] at hq; simp [tokMarks] at hq
  | selOp o =>
    exfalso
    rw [ht] at h
    rw [emarks, ht] at hq
    simp only [tokMarks, h.2, Bool.not_true, Bool.and_false, Bool.false_eq_true] at hq
  | comment b => rw [ht] at h; exact h.elim
  | operator o => rw [ht] at h; exact h.elim

/-- In quiet places a gap is judged by what stands around it. -/
theorem quiet_dead {alpha : Char → Bool} {es : List Ent} (h : EsOk alpha es) (hq : quiet alpha (emarks es) = true) :
    (ecalc es).1 = false ∧ DeadEnd (ecalc es).1 (lastTok es) ∧
      ∃ p, lastTok es = some p ∧ ((p.isChar = true ∧ p ≠ .char .closeParen ∧ p ≠ .char .closeBracket) ∨ p.isMedia = true ∨ p.isLicense = true) := by
  simp only [quiet, Bool.and_eq_true, Bool.not_eq_true', inCalc_ecalc h] at hq
  refine ⟨hq.1, ?_⟩
  rw [hq.1]
  cases es with
  | nil => simp [emarks, lastLicense, mediaWord, lastWord] at hq
  | cons e es =>
    have hp := prof h.1
    have hcase : (e.t.isChar = true ∧ e.t ≠ .char .closeParen ∧ e.t ≠ .char .closeBracket) ∨ e.t.isMedia = true ∨ e.t.isLicense = true := by
      have hq2 := hq.2
      rw [hp.lic, hp.media, Bool.or_eq_true, Bool.or_eq_true] at hq2
      rcases hq2 with (hq2 | hq2) | hq2
      · exact .inr (.inr hq2)
      · exact .inr (.inl hq2)
      · exact .inl (quiet_char h.1 hq2)
    refine ⟨?_, e.t, rfl, hcase⟩
    intro t ht
    show keepBlank false (some e.t) (some t) = false
    have h0 : ∀ t, GapTok t → (t.isSel = false ∧ (t == .char .star) = false ∧ (t == .char .equalSign) = false ∧ t.isOther = false ∧
        (t == .char .openParen) = false) := by
      rintro t (rfl | h)
      · exact ⟨rfl, rfl, rfl, rfl, rfl⟩
      · cases t <;> simp [Token.isComment] at h
        exact ⟨rfl, rfl, rfl, rfl, rfl⟩
    rcases ht with rfl | ht
    · rcases hcase with ⟨h1, h2, h3⟩ | h1 | h1
      · cases hx : e.t <;> rw [hx] at h1 h2 h3 <;> simp [Token.isChar] at h1
        rename_i c
        cases c <;> first | rfl | exact absurd rfl h2 | exact absurd rfl h3
      · cases hx : e.t <;> rw [hx] at h1 <;> simp [Token.isMedia] at h1
        rename_i s
        cases s <;> simp at h1 <;> rfl
      · cases hx : e.t <;> rw [hx] at h1 <;> simp [Token.isLicense] at h1
        rfl
    · cases t <;> simp [Token.isComment] at ht
      rcases hcase with ⟨h1, h2, h3⟩ | h1 | h1
      · cases hx : e.t <;> rw [hx] at h1 h2 h3 <;> simp [Token.isChar] at h1
        rename_i c
        cases c <;> first | rfl | exact absurd rfl h2 | exact absurd rfl h3
      · cases hx : e.t <;> rw [hx] at h1 <;> simp [Token.isMedia] at h1
        rename_i s
        cases s <;> simp at h1 <;> rfl
      · cases hx : e.t <;> rw [hx] at h1 <;> simp [Token.isLicense] at h1
        rfl

/-- Where no blank is recorded, a quiet place keeps nothing. -/
theorem quiet_unrecorded {alpha : Char → Bool} {es : List Ent} (h : EsOk alpha es) (hq : quiet alpha (emarks es) = true)
    (hw : wantsSpace (lastTok es) = false) : keepBlank false (lastTok es) none = false ∧
      ∀ {x : Item} {n : Token}, (x == .chr '=') = (n == .char .equalSign) → splitOp (emarks es) x = false →
        keepBlank false (lastTok es) (some n) = false := by
  obtain ⟨_, _, p, hp, hcase⟩ := quiet_dead h hq
  cases es with
  | nil => cases hp
  | cons e es =>
    have hp : e.t = p := by simpa [lastTok] using hp
    subst hp
    have hc : e.t.isChar = true := by
      cases hx : e.t with
      | char c => rfl
      | _ => rw [lastTok, hx] at hw; simp [wantsSpace, Token.isUseless, Token.isChar] at hw
    have h2 : e.t ≠ .char .closeParen ∧ e.t ≠ .char .closeBracket := by
      rcases hcase with h | h | h
      · exact h.2
      · cases hx : e.t <;> rw [hx] at hc h <;> simp [Token.isChar, Token.isMedia] at hc h
      · cases hx : e.t <;> rw [hx] at hc h <;> simp [Token.isChar, Token.isLicense] at hc h
    cases hx : e.t <;> rw [hx] at hc <;> simp [Token.isChar] at hc
    rename_i c
    rw [lastTok, hx] at hw
    rw [hx] at h2
    rw [lastTok, hx]
    refine ⟨?_, ?_⟩
    · cases c <;> first | rfl | exact absurd rfl h2.1 | exact absurd rfl h2.2
    · intro x n hn hs
      have hm : emarks (e :: es) = (e.g, .chr c.toChar) :: emarks es := by rw [emarks, hx]; rfl
      rw [hm] at hs
      simp only [splitOp, lastIs, hn] at hs
      cases c <;> first
        | exact absurd hw (by decide)
        | exact absurd rfl h2.1
        | exact absurd rfl h2.2
        | (cases n with
           | char d => cases d <;> first | rfl | exact absurd hs (by decide)
           | _ => rfl)

theorem cleaned {alpha : Char → Bool} : ∀ {es : List Ent} {ks : List Bool} {r : List Mark}, EsOk alpha es → Ks es ks → RightOk (emarks es) r →
    Cleaned alpha r (emarks es) (markKs es ks) := by
  intro es
  induction es with
  | nil => intro ks r _ hk _; cases ks <;> first | trivial | exact hk.elim
  | cons e es ih =>
    intro ks r h hk hr
    cases ks with
    | nil => exact hk.elim
    | cons k ks =>
      obtain ⟨hk1, hk2⟩ := hk
      have hrest := ih (r := (e.g, tokFirst (isBs (lastTok es)) e.t) :: (tokRest e.i (isBs (lastTok es)) e.t ++ r)) h.2 hk2 (right_ok h.1 _)
      have hfirst : Cleaned alpha (tokRest e.i (isBs (lastTok es)) e.t ++ r) ((e.g, tokFirst (isBs (lastTok es)) e.t) :: emarks es)
          (k :: markKs es ks) := by
        have hgap := h.1.1
        have key : e.g ≠ .none → wantsSpace (lastTok es) = true → keepBlank (ecalc es).1 (lastTok es) (some e.t) =
            keepRule alpha (emarks es) (tokFirst (isBs (lastTok es)) e.t) (tokRest e.i (isBs (lastTok es)) e.t ++ r) := by
          intro hg hw
          have hn := nprof h.1 hg hr
          cases es with
          | nil => simp [lastTok, wantsSpace] at hw
          | cons e' es' =>
            have hs := h.1.solid
            simp only [Bool.or_eq_false_iff] at hs
            exact keep_eq (prof h.2.1) hn (inCalc_ecalc h.2) hs.1 hw
        have hrec : recorded (emarks es) = wantsSpace (lastTok es) := by
          cases es with
          | nil => rfl
          | cons e' es' => exact (prof h.2.1).rec_
        refine ⟨fun hg => ?_, fun hg => ?_, fun hg => ⟨fun hkr => ?_, fun hq hs => ?_⟩, hrest⟩
        · rw [hg] at hgap; exact hk1.1 hgap
        · rw [hg] at hgap
          have hgap : e.L = if wantsSpace (lastTok es) then [.char .space] else [] := hgap
          cases hw : wantsSpace (lastTok es) with
          | true =>
            rw [hw] at hgap
            rw [hk1.2.1 hgap]
            exact key (by simp [hg]) hw
          | false =>
            rw [hw] at hgap
            rw [hk1.1 hgap, keepRule_eq, hrec, hw]; rfl
        · rw [hg] at hgap
          have hw : wantsSpace (lastTok es) = true := by
            rw [← hrec]
            simp only [keepRule, Bool.and_eq_true] at hkr
            exact hkr.1
          exact hk1.2.2.1 hgap.1 (by rw [key (by simp [hg]) hw]; exact hkr)
        · rw [hg] at hgap
          obtain ⟨hic, hd, _⟩ := quiet_dead h.2 hq
          rw [hk1.2.2.2 hgap.1 hd]
          cases hw : wantsSpace (lastTok es) with
          | true => exact key (by simp [hg]) hw
          | false =>
            rw [keepRule_eq, hrec, hw, hic]
            exact (quiet_unrecorded h.2 hq hw).2 (nprof h.1 (by simp [hg]) hr).eq hs
      rw [emarks, tokMarks_first h.1.2, markKs]
      cases ht : e.t with
      | selOp o =>
        rw [ht] at hfirst
        have hkind := h.1.2
        rw [ht] at hkind
        refine ⟨fun _ => rfl, fun hi => ?_, fun hi => ?_, hfirst⟩
        · symm
          apply keepRule_op
          rintro rfl
          have := hkind.2
          rw [hi] at this
          simp [attrOp, SelOp.display] at this
        · have := hkind.2
          rw [hi] at this
          cases o <;> simp [attrOp, SelOp.display] at this
      | other w =>
        rw [ht] at hfirst
        refine cleaned_rest ?_ hfirst
        intro a ha
        simp only [tokRest] at ha
        split at ha
        · simp at ha
        · simp only [List.mem_map] at ha; obtain ⟨c, _, rfl⟩ := ha; rfl
      | sel s =>
        rw [ht] at hfirst
        refine cleaned_rest ?_ hfirst
        intro a ha
        simp only [tokRest, List.mem_map] at ha
        obtain ⟨c, _, rfl⟩ := ha; rfl
      | _ => rw [ht] at hfirst; exact hfirst

theorem cleaned_tail {alpha : Char → Bool} {es : List Ent} {m : Marks} {L : List Token} {k : Bool} (h : EsOk alpha es) (hm : m.acc = emarks es)
    (hL : GapOk (lastTok es) m.gap L) (hk : KeepOk (ecalc es).1 (lastTok es) none L k) : CleanedTail alpha m k := by
  unfold CleanedTail
  rw [hm]
  have key : wantsSpace (lastTok es) = true → keepBlank (ecalc es).1 (lastTok es) none = tailRule alpha (emarks es) := by
    intro hw
    cases es with
    | nil => simp [lastTok, wantsSpace] at hw
    | cons e' es' => exact keep_tail_eq (prof h.1) (inCalc_ecalc h) hw
  have hrec : recorded (emarks es) = wantsSpace (lastTok es) := by
    cases es with
    | nil => rfl
    | cons e' es' => exact (prof h.1).rec_
  refine ⟨fun hg => ?_, fun hg => ?_, fun hg => ⟨fun hkr => ?_, fun hq => ?_⟩⟩
  · rw [hg] at hL; exact hk.1 hL
  · rw [hg] at hL
    have hL : L = if wantsSpace (lastTok es) then [.char .space] else [] := hL
    cases hw : wantsSpace (lastTok es) with
    | true => rw [hw] at hL; rw [hk.2.1 hL]; exact key hw
    | false => rw [hw] at hL; rw [hk.1 hL, tailRule, hrec, hw]; rfl
  · rw [hg] at hL
    have hw : wantsSpace (lastTok es) = true := by
      rw [← hrec]
      simp only [tailRule, Bool.and_eq_true] at hkr
      exact hkr.1
    exact hk.2.2.1 hL.1 (by rw [key hw]; exact hkr)
  · rw [hg] at hL
    obtain ⟨hic, hd, _⟩ := quiet_dead h hq
    rw [hk.2.2.2 hL.1 hd]
    cases hw : wantsSpace (lastTok es) with
    | true => exact key hw
    | false =>
      rw [tailRule, hrec, hw, hic]
      exact (quiet_unrecorded h hq hw).1

end Verif.Css
