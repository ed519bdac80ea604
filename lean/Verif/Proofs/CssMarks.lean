import Verif.Proofs.CssShow
import Verif.Spec.CssBlanks
/-!
# The tokens of a style sheet with the gaps of the source

`Ent`: a token together with what stands before it, in the source (`g`) and in the list of tokens (`L`). The tokenizer is
followed with these (`raw_ents`): its tokens are determined by the marks of the source.
-/
set_option linter.unusedSimpArgs false

namespace Verif.Css
open Spec.Css

/-! ## Words -/

/-- A word, pushed character by character. -/
def pushChars (acc : List Mark) (g : Gap) : List Char → List Mark
  | [] => acc
  | c :: w => pushChars ((g, .chr c) :: acc) .none w

theorem word_isWordChr {c : Char} (h : RChar.ofChar c = none) : isWordChr (.chr c) = true := by
  simp [isWordChr, ofChar_none_punct h]

theorem wordEnd_word {c : Char} (g : Gap) (acc : List Mark) (h : RChar.ofChar c = none) :
    wordEnd ((g, .chr c) :: acc) = true := word_isWordChr h

theorem pushChars_snoc (acc : List Mark) (g : Gap) (w : List Char) (c : Char) :
    pushChars acc g (w ++ [c]) = (if w = [] then g else .none, .chr c) :: pushChars acc g w := by
  induction w generalizing acc g with
  | nil => rfl
  | cons d w ih =>
    rw [List.cons_append, pushChars, ih, pushChars]
    simp

theorem pushChars_wordEnd (acc : List Mark) (g : Gap) {w : List Char} (hw : Word w) (hn : w ≠ []) :
    wordEnd (pushChars acc g w) = true := by
  induction w generalizing acc g with
  | nil => exact absurd rfl hn
  | cons c w ih =>
    cases w with
    | nil => exact word_isWordChr (hw c List.mem_cons_self)
    | cons d w =>
      rw [pushChars]
      exact ih _ _ (fun x hx => hw x (List.mem_cons_of_mem _ hx)) (by simp)

theorem Word.tail {c : Char} {w : List Char} (h : Word (c :: w)) : Word w := fun x hx => h x (List.mem_cons_of_mem _ hx)

theorem Word.head {c : Char} {w : List Char} (h : Word (c :: w)) : RChar.ofChar c = none := h c List.mem_cons_self

theorem word_ne {c d : Char} (h : RChar.ofChar c = none) (hd : RChar.ofChar d ≠ none) : Item.chr c ≠ .chr d := by
  intro e; cases e; exact hd h

/-- The place after a word character. -/
theorem place_word (acc : List Mark) (g : Gap) {c : Char} (h : RChar.ofChar c = none) :
    place ((g, .chr c) :: acc) =
      if g = .none ∧ afterAt acc = true ∧ (place acc).sel = true then { place acc with at_ := true } else place acc := by
  have n := fun d hd => word_ne (c := c) (d := d) h hd
  rw [place]
  simp only [n '{' (by decide), n '}' (by decide), n ';' (by decide), n '[' (by decide), n ']' (by decide), if_false,
    word_isWordChr h, Bool.true_and, Bool.and_eq_true, beq_iff_eq, and_assoc]

theorem afterAt_word {acc : List Mark} {c : Char} (h : wordEnd acc = true) : afterAt ((.none, .chr c) :: acc) = false := by
  simp [afterAt, h]

theorem place_cont {acc : List Mark} {w : List Char} (hw : Word w) (he : wordEnd acc = true) (ha : afterAt acc = false) :
    place (pushChars acc .none w) = place acc := by
  induction w generalizing acc with
  | nil => rfl
  | cons c w ih =>
    rw [pushChars, ih hw.tail (wordEnd_word _ _ hw.head) (afterAt_word he), place_word _ _ hw.head, ha]
    simp

/-- The place after a word. -/
theorem place_push {acc : List Mark} {g : Gap} {c : Char} {w : List Char} (hw : Word (c :: w))
    (ha : g = .none → wordEnd acc = false) :
    place (pushChars acc g (c :: w)) =
      if c = '@' ∧ w ≠ [] ∧ (place acc).sel = true ∧ afterColon g acc = false then { place acc with at_ := true }
      else place acc := by
  have h1 : place ((g, .chr c) :: acc) = place acc := by
    rw [place_word _ _ hw.head, if_neg]
    rintro ⟨hg, h, _⟩
    have := ha hg
    cases acc with
    | nil => simp [afterAt] at h
    | cons m acc =>
      obtain ⟨g', x⟩ := m
      simp only [afterAt, Bool.and_eq_true, beq_iff_eq] at h
      rw [h.1.1] at this
      simp [wordEnd, isWordChr, isPunct] at this
  have h2 : afterAt ((g, .chr c) :: acc) = true ↔ c = '@' ∧ afterColon g acc = false := by
    simp only [afterAt, Bool.and_eq_true, beq_iff_eq, Item.chr.injEq, Bool.or_eq_true, bne_iff_ne, ne_eq, Bool.not_eq_true',
      and_assoc]
    constructor
    · rintro ⟨a, _, b⟩; exact ⟨a, b⟩
    · rintro ⟨a, b⟩
      refine ⟨a, ?_, b⟩
      by_cases hg : g = .none
      · right; exact ha hg
      · left; exact hg
  cases w with
  | nil => simp [pushChars, h1]
  | cons d w =>
    rw [pushChars, pushChars, place_cont hw.tail.tail (wordEnd_word _ _ hw.tail.head) (afterAt_word (wordEnd_word _ _ hw.head)),
      place_word _ _ hw.tail.head, h1]
    by_cases hc : c = '@' ∧ d :: w ≠ [] ∧ (place acc).sel = true ∧ afterColon g acc = false
    · rw [if_pos hc, if_pos ⟨rfl, h2.2 ⟨hc.1, hc.2.2.2⟩, hc.2.2.1⟩]
    · rw [if_neg hc, if_neg]
      rintro ⟨_, a, b⟩
      exact hc ⟨(h2.1 a).1, by simp, b, (h2.1 a).2⟩

theorem lastWord_cont {acc : List Mark} {w : List Char} (hw : Word w) (he : wordEnd acc = true) :
    lastWord (pushChars acc .none w) = ((lastWord acc).1 ++ w, (lastWord acc).2) := by
  induction w generalizing acc with
  | nil => simp [pushChars]
  | cons c w ih =>
    rw [pushChars, ih hw.tail (wordEnd_word _ _ hw.head)]
    simp [lastWord, ofChar_none_punct hw.head, he]

theorem lastWord_push {acc : List Mark} {g : Gap} {w : List Char} (hw : Word w) (hn : w ≠ [])
    (ha : g = .none → wordEnd acc = false) : lastWord (pushChars acc g w) = (w, g, acc) := by
  cases w with
  | nil => exact absurd rfl hn
  | cons c w =>
    rw [pushChars, lastWord_cont hw.tail (wordEnd_word _ _ hw.head)]
    have : ¬ (g = .none ∧ wordEnd acc = true) := by
      rintro ⟨a, b⟩; rw [ha a] at b; cases b
    simp [lastWord, ofChar_none_punct hw.head, this]

theorem lastWord_not {acc : List Mark} (h : wordEnd acc = false) : (lastWord acc).1 = [] := by
  cases acc with
  | nil => rfl
  | cons m acc =>
    obtain ⟨g, x⟩ := m
    cases x with
    | chr c => simp [wordEnd, isWordChr] at h; simp [lastWord, h]
    | _ => rfl

theorem mediaWord_not {acc : List Mark} (h : wordEnd acc = false) : mediaWord acc = false := by
  simp [mediaWord, lastWord_not h]

theorem calcWord_not (alpha : Char → Bool) {acc : List Mark} (h : wordEnd acc = false) : calcWord alpha acc = false := by
  simp [calcWord, lastWord_not h]

theorem selWord_push (alpha : Char → Bool) {acc : List Mark} {g : Gap} {w : List Char} (hw : Word w) (hn : w ≠ [])
    (ha : g = .none → wordEnd acc = false) : selWord alpha (pushChars acc g w) = selTok alpha acc g w := by
  unfold selWord
  rw [pushChars_wordEnd acc g hw hn, lastWord_push hw hn ha]
  simp

/-! ## Entries -/

structure Ent where
  /-- What stands before the token in the source. -/
  g : Gap
  /-- What stands between the two characters of an attribute operator. -/
  i : Gap
  t : Token
  /-- The tokens for what stands before it, last one first. -/
  L : List Token
  deriving Repr

/-- The marks of a token. -/
def tokMarks (acc : List Mark) (g i : Gap) (bs : Bool) : Token → List Mark
  | .char c => (g, .chr c.toChar) :: acc
  | .other w => if bs then w.map (fun c => (g, .lit c)) ++ acc else pushChars acc g w
  | .sel s => pushChars acc g s.chars
  | .str b => (g, .str b) :: acc
  | .license b => (g, .license b) :: acc
  | .selOp o => (i, .chr '=') :: (g, .chr (o.display.headD '=')) :: acc
  | .comment _ => acc
  | .operator _ => acc

/-- The token of the last entry. -/
def lastTok : List Ent → Option Token
  | [] => none
  | e :: _ => some e.t

/-- The marks of entries, last one first. -/
def emarks : List Ent → List Mark
  | [] => []
  | e :: es => tokMarks (emarks es) e.g e.i (isBs (lastTok es)) e.t

/-- The tokens of entries, last one first. -/
def toks (es : List Ent) : List Token := es.flatMap fun e => e.t :: e.L

/-- The tokens that the tokenizer makes of a gap after `p`. -/
def GapOk (p : Option Token) : Gap → List Token → Prop
  | .none, L => L = []
  | .blank, L => L = if wantsSpace p then [.char .space] else []
  | .comment, L => L ≠ [] ∧ ∀ t ∈ L, t = .char .space ∨ t.isComment = true

/-- The token that the tokenizer makes after `acc` and `g`. -/
def KindOk (alpha : Char → Bool) (acc : List Mark) (g i : Gap) (bs : Bool) : Token → Prop
  | .char c => bs = false ∧ c.isUseless = false ∧ c ≠ .quote ∧ c ≠ .doubleQuote ∧
      (c = .equalSign → attrOp ((g, .chr '=') :: acc) = false)
  | .other w => if bs then g = .none ∧ ∃ c, w = [c]
      else w ≠ [] ∧ Word w ∧ (g = .none → wordEnd acc = false) ∧ selTok alpha acc g w = false
  | .sel (.pseudoClass p) => bs = false ∧ Word p ∧ p ≠ [] ∧ (place acc).sel = true
  | .sel s => bs = false ∧ s.chars ≠ [] ∧ Word s.chars ∧ (g = .none → wordEnd acc = false) ∧ selTok alpha acc g s.chars = true ∧
      afterColon g acc = false ∧ Sel.ofStr alpha s.chars = some s
  | .str _ => bs = false
  | .license _ => bs = false
  | .selOp o => bs = false ∧ attrOp ((i, .chr '=') :: (g, .chr (o.display.headD '=')) :: acc) = true
  | .comment _ => False
  | .operator _ => False

def EOk (alpha : Char → Bool) (es : List Ent) (e : Ent) : Prop :=
  GapOk (lastTok es) e.g e.L ∧ KindOk alpha (emarks es) e.g e.i (isBs (lastTok es)) e.t

def EsOk (alpha : Char → Bool) : List Ent → Prop
  | [] => True
  | e :: es => EOk alpha es e ∧ EsOk alpha es

/-! ## The place after an entry -/

def Place.step (p : Place) : Token → Place
  | .char .openCurly => { p with depth := p.depth + 1 }
  | .char .closeCurly => { p with depth := p.depth - 1, at_ := if p.depth - 1 = 0 then false else p.at_ }
  | .char .semiColon => { p with at_ := if p.depth = 0 then false else p.at_ }
  | .char .openBracket => { p with bracket := true }
  | .char .closeBracket => { p with bracket := false }
  | .sel (.media _) => { p with at_ := true }
  | _ => p

theorem place_punct (acc : List Mark) (g : Gap) (c : RChar) (hu : c.isUseless = false) :
    place ((g, .chr c.toChar) :: acc) = Place.step (place acc) (.char c) := by
  have : isWordChr (.chr c.toChar) = false := by simp [isWordChr, toChar_punct]
  rw [place, this]
  cases c <;> first | rfl | (simp [RChar.toChar, Place.step])

theorem place_noWord (acc : List Mark) (g : Gap) {x : Item} (h : ∀ c, x ≠ .chr c) : place ((g, x) :: acc) = place acc := by
  cases x <;> first | rfl | exact absurd rfl (h _)

theorem ofStr_media {alpha : Char → Bool} {w : List Char} {s : Sel} (h : Sel.ofStr alpha w = some s) :
    (Token.sel s).isMedia = true ↔ ∃ c v, w = '@' :: c :: v := by
  unfold Sel.ofStr at h
  split at h
  · split at h <;> simp at h; subst h; simp [Token.isMedia]
  · split at h <;> simp at h; subst h; simp [Token.isMedia]
  · rename_i v
    split at h <;> simp at h; subst h
    cases v with
    | nil => simp at *
    | cons c v => simp [Token.isMedia]
  · split at h <;> simp at h; subst h; simp [Token.isMedia]
  · rename_i c v h1 h2 h3 h4
    split at h <;> simp at h; subst h
    simp only [Token.isMedia, Bool.false_eq_true, List.cons.injEq, false_iff, not_exists]
    rintro d v' ⟨rfl, _⟩
    exact h3 rfl
  · simp at h

theorem place_step {alpha : Char → Bool} {es : List Ent} {e : Ent} (h : EOk alpha es e) :
    place (emarks (e :: es)) = Place.step (place (emarks es)) e.t := by
  obtain ⟨_, h⟩ := h
  rw [emarks]
  generalize emarks es = acc at h ⊢
  generalize isBs (lastTok es) = bs at h ⊢
  cases ht : e.t with
  | char c => rw [ht] at h; exact place_punct _ _ _ h.2.1
  | other w =>
    rw [ht] at h
    cases bs with
    | true =>
      obtain ⟨_, c, rfl⟩ := h
      exact place_noWord _ _ (by simp)
    | false =>
      obtain ⟨hn, hw, ha, hs⟩ := h
      cases w with
      | nil => exact absurd rfl hn
      | cons c w =>
        show place (pushChars acc e.g (c :: w)) = place acc
        rw [place_push hw ha, if_neg]
        rintro ⟨rfl, h1, h2, h3⟩
        simp [selTok, h2, h3, startsSel, h1] at hs
  | sel s =>
    rw [ht] at h
    have norm : ∀ s, (∀ p, s ≠ .pseudoClass p) → KindOk alpha acc e.g e.i bs (.sel s) →
        place (tokMarks acc e.g e.i bs (.sel s)) = Place.step (place acc) (.sel s) := by
      intro s hp h
      have h : bs = false ∧ s.chars ≠ [] ∧ Word s.chars ∧ (e.g = .none → wordEnd acc = false) ∧ selTok alpha acc e.g s.chars = true ∧
          afterColon e.g acc = false ∧ Sel.ofStr alpha s.chars = some s := by
        cases s <;> first | exact h | exact absurd rfl (hp _)
      obtain ⟨_, hn, hw, ha, hs, hc, ho⟩ := h
      show place (pushChars acc e.g s.chars) = _
      have hm := ofStr_media ho
      have hsel : (place acc).sel = true := by
        simp only [selTok, Bool.and_eq_true] at hs; exact hs.1
      cases hw' : s.chars with
      | nil => exact absurd hw' hn
      | cons c w =>
        rw [hw'] at hw hm
        rw [place_push hw ha]
        by_cases hme : (Token.sel s).isMedia = true
        · obtain ⟨d, v, e'⟩ := hm.1 hme
          cases e'
          rw [if_pos ⟨rfl, by simp, hsel, hc⟩]
          cases s <;> simp [Token.isMedia] at hme
          rfl
        · rw [if_neg]
          · cases s <;> first | rfl | simp [Token.isMedia] at hme
          · rintro ⟨rfl, h1, _, _⟩
            cases w with
            | nil => exact h1 rfl
            | cons d v => exact hme (hm.2 ⟨d, v, rfl⟩)
    cases s with
    | pseudoClass p =>
      obtain ⟨_, hw, hn, hs⟩ := h
      show place (pushChars ((e.g, .chr ':') :: acc) .none p) = place acc
      have hc : place ((e.g, .chr ':') :: acc) = place acc := by
        rw [show ':' = RChar.colon.toChar from rfl, place_punct _ _ _ rfl]; rfl
      cases p with
      | nil => exact absurd rfl hn
      | cons c w =>
        rw [place_push hw (by intro _; simp [wordEnd, isWordChr, isPunct]), if_neg, hc]
        rintro ⟨_, _, _, h⟩
        simp [afterColon, lastIs] at h
    | _ => exact norm _ (by simp) h
  | str b => exact place_noWord _ _ (by simp)
  | license b => exact place_noWord _ _ (by simp)
  | selOp o =>
    show place ((e.i, .chr '=') :: (e.g, .chr (o.display.headD '=')) :: acc) = place acc
    rw [show '=' = RChar.equalSign.toChar from rfl, place_punct _ _ _ rfl]
    cases o
    · exact place_punct acc e.g .tilde rfl
    · exact place_punct acc e.g .pipe rfl
    · exact place_punct acc e.g .dollar rfl
    · exact place_punct acc e.g .circumflex rfl
    · exact place_punct acc e.g .star rfl
  | comment b => rw [ht] at h; exact h.elim
  | operator o => rw [ht] at h; exact h.elim

/-! ## The last token and the last mark -/

theorem lastIs_punct {alpha : Char → Bool} {es : List Ent} (h : EsOk alpha es) {c : Char} {rc : RChar}
    (hc : RChar.ofChar c = some rc) (hb : rc.isUseless = false) (he : c ≠ '=') :
    lastIs c (emarks es) = true ↔ lastTok es = some (.char rc) := by
  have hp : isPunct c = true := (ofChar_punct c).2 (by rw [hc]; simp)
  have hcc : rc.toChar = c := by
    rcases ofChar_toChar hc with h | ⟨_, h⟩
    · exact h
    · rw [h] at hb; cases hb
  have words : ∀ acc g w, Word w → w ≠ [] → lastIs c (pushChars acc g w) = false := by
    intro acc g w hw hn
    have := pushChars_wordEnd acc g hw hn
    cases hm : pushChars acc g w with
    | nil => rfl
    | cons m ms =>
      obtain ⟨g', x⟩ := m
      rw [hm] at this
      simp only [lastIs, Bool.eq_false_iff, ne_eq, beq_iff_eq]
      rintro rfl
      simp [wordEnd, isWordChr, hp] at this
  cases es with
  | nil => simp [emarks, lastIs, lastTok]
  | cons e es =>
    obtain ⟨⟨_, h⟩, _⟩ := h
    show lastIs c (tokMarks (emarks es) e.g e.i (isBs (lastTok es)) e.t) = true ↔ some e.t = some (.char rc)
    rw [Option.some.injEq]
    cases ht : e.t with
    | char d =>
      rw [ht] at h
      simp only [tokMarks, lastIs, beq_iff_eq, Item.chr.injEq, Token.char.injEq]
      constructor
      · intro e; rw [← e, toChar_ofChar] at hc; simpa using hc
      · rintro rfl; exact hcc
    | other w =>
      rw [ht] at h
      simp only [reduceCtorEq, iff_false, Bool.not_eq_true]
      cases hbs : isBs (lastTok es) with
      | true =>
        rw [hbs] at h
        obtain ⟨_, d, rfl⟩ := h
        simp [tokMarks, lastIs]
      | false =>
        rw [hbs] at h
        exact words _ _ _ h.2.1 h.1
    | sel s =>
      rw [ht] at h
      simp only [reduceCtorEq, iff_false, Bool.not_eq_true]
      cases s with
      | pseudoClass p => exact words ((e.g, .chr ':') :: _) .none _ h.2.1 h.2.2.1
      | cls w => exact words _ _ _ h.2.2.1 h.2.1
      | id w => exact words _ _ _ h.2.2.1 h.2.1
      | tag w => exact words _ _ _ h.2.2.1 h.2.1
      | media w => exact words _ _ _ h.2.2.1 h.2.1
    | str b => simp [tokMarks, lastIs]
    | license b => simp [tokMarks, lastIs]
    | selOp o =>
      simp only [tokMarks, lastIs, reduceCtorEq, iff_false, beq_iff_eq, Item.chr.injEq]
      exact fun e => he e.symm
    | comment b => rw [ht] at h; exact h.elim
    | operator o => rw [ht] at h; exact h.elim

theorem GapOk.mem {p : Option Token} {g : Gap} {L : List Token} (h : GapOk p g L) :
    ∀ t ∈ L, t = .char .space ∨ t.isComment = true := by
  cases g with
  | none => rw [show L = [] from h]; simp
  | blank =>
    rw [show L = _ from h]
    split
    · intro t ht; left; simpa using ht
    · simp
  | comment => exact h.2

/-- The last token of a list that ends in a gap. -/
theorem head_gap {p : Option Token} {g : Gap} {L : List Token} {es : List Ent} {t : Token} (h : GapOk p g L)
    (ht : (L ++ toks es).head? = some t) (h1 : t ≠ .char .space) (h2 : t.isComment = false) : L = [] ∧ lastTok es = some t := by
  cases L with
  | nil =>
    refine ⟨rfl, ?_⟩
    cases es with
    | nil => simp [toks] at ht
    | cons e es => simpa [toks, lastTok] using ht
  | cons x L =>
    simp only [List.cons_append, List.head?_cons, Option.some.injEq] at ht
    subst ht
    rcases h.mem x List.mem_cons_self with h | h
    · exact absurd h h1
    · rw [h2] at h; cases h

theorem head_toks (es : List Ent) : (toks es).head? = lastTok es := by
  cases es <;> rfl

theorem afterColon_iff {alpha : Char → Bool} {es : List Ent} {g : Gap} {L : List Token} (h : EsOk alpha es)
    (hg : GapOk (lastTok es) g L) : afterColon g (emarks es) = true ↔ (L ++ toks es).head? = some (.char .colon) := by
  have hl := lastIs_punct h (c := ':') (rc := .colon) rfl rfl (by decide)
  simp only [afterColon, Bool.and_eq_true, bne_iff_ne, ne_eq]
  rw [hl]
  constructor
  · rintro ⟨h1, h2⟩
    have : L = [] := by
      cases g with
      | none => exact hg
      | blank =>
        rw [show L = _ from hg, h1]; rfl
      | comment => exact absurd rfl h2
    rw [this, List.nil_append, head_toks, h1]
  · intro h1
    obtain ⟨h2, h3⟩ := head_gap hg h1 (by simp) rfl
    refine ⟨h3, ?_⟩
    rintro rfl
    exact hg.1 h2

theorem ofStr_starts (alpha : Char → Bool) {w : List Char} (hw : Word w) : (Sel.ofStr alpha w).isSome = startsSel alpha w := by
  unfold Sel.ofStr startsSel
  split
  · rename_i v; cases v <;> simp
  · rename_i v; cases v <;> simp
  · rename_i v; cases v <;> simp
  · have := hw ':' List.mem_cons_self; cases this
  · rename_i c v h1 h2 h3 h4
    have : ¬ (c = '.' ∨ c = '#' ∨ c = '@') := by
      rintro (rfl | rfl | rfl)
      · exact h1 rfl
      · exact h2 rfl
      · exact h3 rfl
    simp only [this, if_false]
    split <;> simp_all
  · rfl

/-! ## The machine -/

structure EInv (alpha : Char → Bool) (M : Marks) (es : List Ent) (L : List Token) (g : Gap) (st : IS) : Prop where
  v : st.v = L ++ toks es
  acc : M.acc = pushChars (emarks es) g st.w
  gap : M.gap = if st.w = [] then g else .none
  ok : EsOk alpha es
  gapOk : GapOk (lastTok es) g L
  apart : g = .none → wordEnd (emarks es) = false
  blk : st.blk = (place (emarks es)).depth
  media : st.media = (place (emarks es)).at_
  attr : st.attr = (place (emarks es)).bracket
  flag : L = [] → es ≠ [] → (st.gap = true ↔ g = .blank)
  bs : isBs (lastTok es) = true → g = .none

/-- The same without a word. -/
structure Closed (alpha : Char → Bool) (M : Marks) (es : List Ent) (L : List Token) (g : Gap) (st : IS) : Prop where
  v : st.v = L ++ toks es
  acc : M.acc = emarks es
  gap : M.gap = g
  ok : EsOk alpha es
  gapOk : GapOk (lastTok es) g L
  blk : st.blk = (place (emarks es)).depth
  media : st.media = (place (emarks es)).at_
  attr : st.attr = (place (emarks es)).bracket
  bs : isBs (lastTok es) = false

theorem Place.step_at {p : Place} {t : Token} (h : t.isChar = false) :
    (Place.step p t).at_ = (p.at_ || t.isMedia) ∧ (Place.step p t).depth = p.depth ∧ (Place.step p t).bracket = p.bracket := by
  cases t with
  | char c => cases h
  | sel s => cases s <;> simp [Place.step, Token.isMedia]
  | _ => simp [Place.step, Token.isMedia]

theorem iclose_ents {alpha : Char → Bool} {S : Segs} {f : Flag} {st : IS} {M : Marks} {es : List Ent} {L : List Token} {g : Gap}
    (hi : Inv S f st) (hf : f ≠ .bs) (h : EInv alpha M es L g st) :
    ∃ es' L' g', Closed alpha M es' L' g' (iclose alpha st) := by
  have hbs : isBs (lastTok es) = false := by
    rw [Bool.eq_false_iff]; intro hb
    have hg := h.bs hb
    have hL : L = [] := by have := h.gapOk; rw [hg] at this; exact this
    refine hf (hi.bs.2 ?_)
    rw [h.v, hL, List.nil_append, head_toks]; exact hb
  have hsel : st.inSel = (place (emarks es)).sel := by
    unfold IS.inSel Place.sel; rw [h.blk, h.media, h.attr]
  unfold iclose ifill
  by_cases hn : st.w = []
  · refine ⟨es, L, g, ?_⟩
    simp only [hn, if_true]
    refine ⟨h.v, by rw [h.acc, hn]; rfl, by rw [h.gap, if_pos hn], h.ok, h.gapOk, h.blk, ?_, h.attr, hbs⟩
    simp only
    rw [h.media]
    cases hm : (st.v.head?.getD (.char .space)).isMedia with
    | false => simp
    | true =>
      cases hv : st.v.head? with
      | none => rw [hv] at hm; cases hm
      | some t =>
        rw [hv] at hm
        simp only [Option.getD_some] at hm
        rw [h.v] at hv
        obtain ⟨_, hl⟩ := head_gap h.gapOk hv (by rintro rfl; cases hm) (by cases t <;> simp_all [Token.isMedia, Token.isComment])
        have hok := h.ok
        cases es with
        | nil => simp [lastTok] at hl
        | cons e es =>
          simp only [lastTok, Option.some.injEq] at hl
          have := (Place.step_at (p := place (emarks es)) (t := e.t) (by rw [hl]; cases t <;> simp_all [Token.isMedia, Token.isChar])).1
          rw [place_step hok.1, this, hl, hm]; simp
  · simp only [hn, if_false]
    have new : ∀ t, t.isChar = false → KindOk alpha (emarks es) g .none (isBs (lastTok es)) t → isBs (some t) = false →
        tokMarks (emarks es) g .none (isBs (lastTok es)) t = pushChars (emarks es) g st.w →
        ∃ es' L' g', Closed alpha M es' L' g' { st with v := t :: st.v, w := [], gap := false, media := st.media || (((t :: st.v).head?).getD (.char .space)).isMedia } := by
      intro t hc hk hb he
      have hok : EsOk alpha ({ g := g, i := .none, t := t, L := L } :: es) := ⟨⟨h.gapOk, hk⟩, h.ok⟩
      obtain ⟨p1, p2, p3⟩ := Place.step_at (p := place (emarks es)) hc
      refine ⟨{ g := g, i := .none, t := t, L := L } :: es, [], .none, ?_⟩
      refine ⟨?_, by rw [h.acc, emarks, he], by rw [h.gap, if_neg hn], hok, rfl, ?_, ?_, ?_, hb⟩
      · simp [toks, h.v]
      · rw [place_step hok.1]; simp only; rw [p2, h.blk]
      · rw [place_step hok.1]; simp only [List.head?_cons, Option.getD_some]; rw [p1, h.media]
      · rw [place_step hok.1]; simp only; rw [p3, h.attr]
    have hac := afterColon_iff h.ok h.gapOk
    rw [← h.v] at hac
    by_cases hs : st.inSel = true ∧ st.v.head? = some (.char .colon)
    · rw [if_pos hs]
      have hac' := hac.2 hs.2
      obtain ⟨hL, hlt⟩ : L = [] ∧ lastTok es = some (.char .colon) := by
        have := hs.2; rw [h.v] at this
        exact head_gap h.gapOk this (by simp) rfl
      cases hes : es with
      | nil => rw [hes] at hlt; simp [lastTok] at hlt
      | cons ec es' =>
        have hfl := h.flag hL (by rw [hes]; simp)
        cases hg : st.gap with
        | true =>
          simp only [if_true]
          refine new _ rfl ?_ rfl ?_
          · rw [hbs]
            refine ⟨hn, hi.word, h.apart, ?_⟩
            have e := hfl.1 hg
            unfold selTok
            rw [hac', e]
            simp
          · rw [hbs]; rfl
        | false =>
          simp only [Bool.false_eq_true, if_false]
          have hg0 : g = .none := by
            cases hgg : g with
            | none => rfl
            | blank => rw [hfl.2 hgg] at hg; cases hg
            | comment => have := h.gapOk; rw [hgg] at this; exact absurd hL this.1
          have hok := h.ok
          rw [hes] at hok hlt
          simp only [lastTok, Option.some.injEq] at hlt
          have hvt : st.v.tail = ec.L ++ toks es' := by
            rw [h.v, hL, hes]; simp [toks]
          have hpl : place (emarks (ec :: es')) = place (emarks es') := by
            rw [place_step hok.1, hlt]; rfl
          have hkc := hok.1.2
          rw [hlt] at hkc
          refine ⟨{ g := ec.g, i := .none, t := .sel (.pseudoClass st.w), L := ec.L } :: es', [], .none, ?_⟩
          have hok' : EsOk alpha ({ g := ec.g, i := .none, t := .sel (.pseudoClass st.w), L := ec.L } :: es') := by
            refine ⟨⟨hok.1.1, hkc.1, hi.word, hn, ?_⟩, hok.2⟩
            rw [← hpl, ← hes, ← hsel]; exact hs.1
          have hpl' := place_step hok'.1
          refine ⟨?_, ?_, by rw [h.gap, if_neg hn], hok', rfl, ?_, ?_, ?_, rfl⟩
          · simp only [hvt, toks, List.flatMap_cons, List.nil_append]; rfl
          · rw [h.acc, hes, hg0, emarks, emarks, hlt]; rfl
          · simp only; rw [hpl', h.blk, hes, hpl]; rfl
          · simp only [List.head?_cons, Option.getD_some]; rw [hpl', h.media, hes, hpl]; simp [Place.step, Token.isMedia]
          · simp only; rw [hpl', h.attr, hes, hpl]; rfl
    · rw [if_neg hs]
      have hcol : (place (emarks es)).sel = true → afterColon g (emarks es) = false := by
        intro a
        rw [Bool.eq_false_iff]; intro b
        exact hs ⟨by rw [hsel]; exact a, hac.1 b⟩
      refine new _ (by
          cases hw : wordTok alpha st.inSel st.w with
          | char c => exact absurd hw (wordTok_notChar c)
          | _ => rfl) ?_ ?_ ?_
      · rw [hbs]
        unfold wordTok
        rw [hsel]
        cases hp : (place (emarks es)).sel with
        | false =>
          simp only [Bool.false_eq_true, if_false]
          exact ⟨hn, hi.word, h.apart, by simp [selTok, hp]⟩
        | true =>
          simp only [if_true]
          have hst := ofStr_starts alpha hi.word
          have hse : selTok alpha (emarks es) g st.w = startsSel alpha st.w := by simp [selTok, hp, hcol hp]
          cases ho : Sel.ofStr alpha st.w with
          | none =>
            rw [ho] at hst
            exact ⟨hn, hi.word, h.apart, by rw [hse, ← hst]; rfl⟩
          | some s =>
            rw [ho] at hst
            have hch := Sel.ofStr_chars ho
            have : false = false ∧ s.chars ≠ [] ∧ Word s.chars ∧ (g = .none → wordEnd (emarks es) = false) ∧
                selTok alpha (emarks es) g s.chars = true ∧ afterColon g (emarks es) = false ∧ Sel.ofStr alpha s.chars = some s := by
              rw [hch]
              exact ⟨rfl, hn, hi.word, h.apart, by rw [hse, ← hst]; rfl, hcol hp, ho⟩
            cases s with
            | pseudoClass p =>
              exfalso
              have hw := this.2.2.1
              have := hw ':' List.mem_cons_self
              cases this
            | _ => exact this
      · cases hw : wordTok alpha st.inSel st.w with
        | char c => exact absurd hw (wordTok_notChar c)
        | _ => rfl
      · rw [hbs]
        unfold wordTok
        cases st.inSel with
        | false => rfl
        | true =>
          simp only [if_true]
          cases ho : Sel.ofStr alpha st.w with
          | none => rfl
          | some s => simp only [tokMarks, Sel.ofStr_chars ho]

/-- A solid token after `iclose`. -/
theorem Closed.push {alpha : Char → Bool} {M : Marks} {es : List Ent} {L : List Token} {g : Gap} {st st' : IS} {t : Token} {x : Item}
    (h : Closed alpha M es L g st) (hk : KindOk alpha (emarks es) g .none false t)
    (ht : tokMarks (emarks es) g .none false t = (g, x) :: emarks es) (hm : mark M x = { acc := (M.gap, x) :: M.acc, gap := .none })
    (hx : isWordChr x = false) (hv : st'.v = t :: st.v) (hw : st'.w = []) (hg : st'.gap = false)
    (hp : ({ depth := st'.blk, at_ := st'.media, bracket := st'.attr } : Place) =
      Place.step { depth := st.blk, at_ := st.media, bracket := st.attr } t) :
    ∃ es' L' g', EInv alpha (mark M x) es' L' g' st' := by
  have hok : EsOk alpha ({ g := g, i := .none, t := t, L := L } :: es) := ⟨⟨h.gapOk, by rw [h.bs]; exact hk⟩, h.ok⟩
  have hpl := place_step hok.1
  have hp0 : ({ depth := st.blk, at_ := st.media, bracket := st.attr } : Place) = place (emarks es) := by
    rw [h.blk, h.media, h.attr]
  rw [hp0] at hp
  simp only at hpl
  rw [← hp] at hpl
  refine ⟨{ g := g, i := .none, t := t, L := L } :: es, [], .none, ?_, ?_, ?_, hok, rfl, ?_, by rw [hpl], by rw [hpl], by rw [hpl], ?_, fun _ => rfl⟩
  · rw [hv, h.v]; simp [toks]
  · rw [hm, hw]
    show _ = emarks _
    rw [emarks, h.bs]
    simp only [ht, h.gap, h.acc]
  · rw [hm, if_pos hw]
  · intro _
    rw [emarks, h.bs]
    simp only [ht, wordEnd, hx]
  · intro _ _; simp [hg]

theorem istep_ents {alpha : Char → Bool} {S : Segs} {f : Flag} {st st' : IS} {M : Marks} {es : List Ent} {L : List Token} {g : Gap}
    {i : Item} (hi : Inv S f st) (h : EInv alpha M es L g st) (ho : ItemOk f i) (hs : istep alpha st i = .ok st') :
    ∃ es' L' g', EInv alpha (mark M i) es' L' g' st' := by
  cases i with
  | chr c =>
    rw [istep] at hs
    cases hc : RChar.ofChar c with
    | none =>
      rw [hc] at hs
      simp only [Out.ok.injEq] at hs
      rw [← hs]
      refine ⟨es, L, g, h.v, ?_, ?_, h.ok, h.gapOk, h.apart, h.blk, h.media, h.attr, h.flag, h.bs⟩
      · simp only [mark, pushChars_snoc, h.acc, h.gap]
      · simp [mark]
    | some rc =>
      rw [hc] at hs
      simp only at hs
      obtain ⟨es1, L1, g1, h1⟩ := iclose_ents hi ho.1 h
      have hu : rc.isUseless = false := by
        rw [Bool.eq_false_iff]; intro hu
        have := (ofChar_blank c).2 ⟨rc, hc, hu⟩
        rw [ho.2.2.1] at this; cases this
      have hcc : rc.toChar = c := by
        rcases ofChar_toChar hc with h | ⟨_, h⟩
        · exact h
        · rw [h] at hu; cases hu
      have hq1 : rc ≠ .quote := by intro e; subst e; exact ho.2.2.2.2 hcc.symm
      have hq2 : rc ≠ .doubleQuote := by intro e; subst e; exact ho.2.2.2.1 hcc.symm
      have hx : isWordChr (.chr c) = false := by simp [isWordChr, ← hcc, toChar_punct]
      have hcw : (iclose alpha st).w = [] := rfl
      have hcg : (iclose alpha st).gap = false := rfl
      generalize iclose alpha st = st1 at h1 hs hcw hcg
      have push : (rc = .equalSign → attrOp ((g1, .chr '=') :: emarks es1) = false) → st'.v = .char rc :: st1.v → st'.w = [] →
          st'.gap = false → ({ depth := st'.blk, at_ := st'.media, bracket := st'.attr } : Place) =
          Place.step { depth := st1.blk, at_ := st1.media, bracket := st1.attr } (.char rc) →
          ∃ es' L' g', EInv alpha (mark M (.chr c)) es' L' g' st' := by
        intro he hv hw hg hp
        exact h1.push (t := .char rc) ⟨rfl, hu, hq1, hq2, he⟩ (by simp [tokMarks, hcc]) rfl hx hv hw hg hp
      cases rc
      case openBracket =>
        simp only [ichar] at hs
        split at hs
        · cases hs
        · cases hs; exact push (by simp) rfl hcw hcg rfl
      case closeBracket =>
        simp only [ichar] at hs
        split at hs
        · cases hs
        · cases hs; exact push (by simp) rfl hcw hcg rfl
      case openCurly => simp only [ichar, Out.ok.injEq] at hs; subst hs; exact push (by simp) rfl hcw hcg rfl
      case closeCurly =>
        simp only [ichar] at hs
        split at hs
        · cases hs
        · cases hs; exact push (by simp) rfl hcw hcg rfl
      case semiColon => simp only [ichar, Out.ok.injEq] at hs; subst hs; exact push (by simp) rfl hcw hcg rfl
      case equalSign =>
        have hceq : c = '=' := hcc.symm
        simp only [ichar] at hs
        cases hso : selOpOf st1.v with
        | none =>
          rw [hso] at hs
          simp only [Out.ok.injEq] at hs
          subst hs
          refine push (fun _ => ?_) rfl hcw hcg rfl
          -- no operator
          rw [Bool.eq_false_iff]
          intro hat
          have key : ∀ (d : Char) (rd : RChar), RChar.ofChar d = some rd → rd.isUseless = false → d ≠ '=' → lastIs d (emarks es1) = true →
              g1 ≠ .comment → (g1 = .blank → wantsSpace (some (.char rd)) = false) → selOpOf [.char rd] ≠ none → False := by
            intro d rd hd hdu hde hl hgc hgb hne
            have hlt := (lastIs_punct h1.ok hd hdu hde).1 hl
            have hL : L1 = [] := by
              have := h1.gapOk
              cases hg1 : g1 with
              | none => rw [hg1] at this; exact this
              | blank =>
                rw [hg1] at this
                rw [show L1 = _ from this, hlt, hgb hg1]; rfl
              | comment => exact absurd hg1 hgc
            apply hne
            rw [← hso, h1.v, hL]
            unfold selOpOf
            rw [List.nil_append, head_toks, hlt]; rfl
          cases hm : emarks es1 with
          | nil => rw [hm] at hat; simp [attrOp] at hat
          | cons m ms =>
            obtain ⟨g', y⟩ := m
            rw [hm] at hat key
            simp only [attrOp, beq_self_eq_true, Bool.true_and, Bool.or_eq_true, Bool.and_eq_true, beq_iff_eq, bne_iff_ne, ne_eq] at hat
            rcases hat with ⟨(((hy | hy) | hy) | hy), hg'⟩ | ⟨hy, hg'⟩
            · exact key '~' .tilde rfl rfl (by decide) (by simp [lastIs, hy]) hg' (fun _ => rfl) (by decide)
            · exact key '|' .pipe rfl rfl (by decide) (by simp [lastIs, hy]) hg' (fun _ => rfl) (by decide)
            · exact key '$' .dollar rfl rfl (by decide) (by simp [lastIs, hy]) hg' (fun _ => rfl) (by decide)
            · exact key '^' .circumflex rfl rfl (by decide) (by simp [lastIs, hy]) hg' (fun _ => rfl) (by decide)
            · exact key '*' .star rfl rfl (by decide) (by simp [lastIs, hy]) (by rw [hg']; simp) (by rw [hg']; simp) (by decide)
        | some r =>
          rw [hso] at hs
          simp only [Out.ok.injEq] at hs
          -- the popped character
          obtain ⟨rd, hvd, hrd⟩ : ∃ rd, st1.v.head? = some (.char rd) ∧ r.display = [rd.toChar, '='] ∧ rd.isUseless = false ∧
              ((rd = .tilde ∨ rd = .pipe ∨ rd = .dollar ∨ rd = .circumflex) ∨ rd = .star) := by
            cases hv : st1.v with
            | nil => rw [hv] at hso; simp [selOpOf, Token.getChar] at hso
            | cons t v' =>
              rw [hv] at hso
              cases t with
              | char x => cases x <;> simp [selOpOf, Token.getChar] at hso <;> subst hso <;> exact ⟨_, rfl, by decide⟩
              | _ => simp [selOpOf, Token.getChar] at hso
          have hvd' := hvd
          rw [h1.v] at hvd
          obtain ⟨hL, hlt⟩ := head_gap h1.gapOk hvd (by rintro e; cases e; exact absurd hrd.2.1 (by decide)) rfl
          have hok1 := h1.ok
          cases hes : es1 with
          | nil => rw [hes] at hlt; simp [lastTok] at hlt
          | cons ec es2 =>
            rw [hes] at hok1 hlt
            simp only [lastTok, Option.some.injEq] at hlt
            have hkc := hok1.1.2
            rw [hlt] at hkc
            have hvt : st1.v.tail = ec.L ++ toks es2 := by rw [h1.v, hL, hes]; simp [toks]
            have hem : emarks es1 = (ec.g, .chr rd.toChar) :: emarks es2 := by rw [hes, emarks, hlt]; rfl
            have hhd : r.display.headD '=' = rd.toChar := by rw [hrd.1]; rfl
            have hpl1 : place (emarks es1) = place (emarks es2) := by
              rw [hes, place_step hok1.1, hlt]
              rcases hrd.2.2 with (h | h | h | h) | h <;> rw [h] <;> rfl
            have hgc : g1 ≠ .comment := by
              rintro rfl; exact h1.gapOk.1 hL
            have hgb : rd = .star → g1 = .none := by
              intro e
              cases hg1 : g1 with
              | none => rfl
              | blank =>
                have := h1.gapOk
                rw [hg1, hes] at this
                have : L1 = _ := this
                rw [lastTok, hlt, e, hL] at this
                simp [wantsSpace, Token.isUseless, RChar.isUseless, Token.isChar, Token.isOperator, RChar.isOperator, Operator.ofRChar] at this
              | comment => exact absurd hg1 hgc
            have hat : attrOp ((g1, .chr '=') :: (ec.g, .chr (r.display.headD '=')) :: emarks es2) = true := by
              rw [hhd]
              have hgc' : (g1 != .comment) = true := by simpa using hgc
              rcases hrd.2.2 with (h | h | h | h) | h
              · rw [h]; simp [attrOp, RChar.toChar, hgc']
              · rw [h]; simp [attrOp, RChar.toChar, hgc']
              · rw [h]; simp [attrOp, RChar.toChar, hgc']
              · rw [h]; simp [attrOp, RChar.toChar, hgc']
              · rw [h, hgb h]; simp [attrOp, RChar.toChar]
            have hok' : EsOk alpha ({ g := ec.g, i := g1, t := .selOp r, L := ec.L } :: es2) :=
              ⟨⟨hok1.1.1, hkc.1, hat⟩, hok1.2⟩
            have hpl' : place (emarks ({ g := ec.g, i := g1, t := .selOp r, L := ec.L } :: es2)) = place (emarks es2) := by
              rw [place_step hok'.1]; rfl
            subst hs
            refine ⟨{ g := ec.g, i := g1, t := .selOp r, L := ec.L } :: es2, [], .none, ?_, ?_, ?_, hok', rfl, ?_, ?_, ?_, ?_, ?_, fun _ => rfl⟩
            · simp [hvt, toks]
            · simp only [hcw, hceq, mark, pushChars, h1.gap, h1.acc, hem, emarks, tokMarks, hhd]
            · simp [mark, hcw]
            · intro _; simp [emarks, tokMarks, wordEnd, isWordChr, isPunct]
            · simp only; rw [hpl', ← hpl1]; exact h1.blk
            · simp only; rw [hpl', ← hpl1]; exact h1.media
            · simp only; rw [hpl', ← hpl1]; exact h1.attr
            · intro _ _; simp [hcg]
      all_goals first
        | exact absurd hu (by decide)
        | exact absurd rfl hq1
        | exact absurd rfl hq2
        | (simp only [ichar, Out.ok.injEq] at hs; subst hs; exact push (by simp) rfl hcw hcg rfl)
  | lit c =>
    rw [istep] at hs
    simp only [Out.ok.injEq] at hs
    have hf : f = .bs := ho
    have hb := hi.bs.1 hf
    have hw := hi.bsw hf
    have hhead : st.v.head? = some (.char .backslash) := by simpa [isBs] using hb
    have hhead' := hhead
    rw [h.v] at hhead
    obtain ⟨hL, hlt⟩ := head_gap h.gapOk hhead (by simp) rfl
    have hbs : isBs (lastTok es) = true := by rw [hlt]; rfl
    have hg := h.bs hbs
    have hes : es ≠ [] := by rintro rfl; simp [lastTok] at hlt
    have hgap : st.gap = false := by
      rw [Bool.eq_false_iff]; intro hh
      have := (h.flag hL hes).1 hh
      rw [hg] at this; cases this
    subst hs
    have hok : EsOk alpha ({ g := .none, i := .none, t := .other [c], L := [] } :: es) :=
      ⟨⟨rfl, by show KindOk alpha _ _ _ _ (.other [c]); rw [hbs]; exact ⟨rfl, c, rfl⟩⟩, h.ok⟩
    have hpl : place (emarks ({ g := .none, i := .none, t := .other [c], L := [] } :: es)) = place (emarks es) := by
      rw [place_step hok.1]; rfl
    have hem : emarks ({ g := .none, i := .none, t := .other [c], L := [] } :: es) = (.none, .lit c) :: emarks es := by
      rw [emarks, hbs]; rfl
    refine ⟨_, [], .none, ?_, ?_, ?_, hok, rfl, ?_, ?_, ?_, ?_, ?_, fun _ => rfl⟩
    · simp [toks, h.v, hL]
    · simp only [hw, pushChars]
      have := h.gap
      rw [if_pos hw] at this
      rw [hem]
      simp only [mark, this, hg, h.acc, hw, pushChars]
    · simp [mark, hw]
    · intro _; rw [hem]; rfl
    · rw [hpl]; exact h.blk
    · rw [hpl]; exact h.media
    · rw [hpl]; exact h.attr
    · intro _ _; simp [hgap]
  | blank =>
    rw [istep] at hs
    simp only [Out.ok.injEq] at hs
    obtain ⟨es1, L1, g1, h1⟩ := iclose_ents hi ho h
    have hcw : (iclose alpha st).w = [] := rfl
    generalize iclose alpha st = st1 at h1 hs hcw
    subst hs
    have fin : ∀ L' g', (if wantsSpace st1.v.head? then Token.char .space :: st1.v else st1.v) = L' ++ toks es1 →
        (mark M .blank).gap = g' → GapOk (lastTok es1) g' L' → (L' = [] → g' = .blank) → g' ≠ .none →
        ∃ es' L' g', EInv alpha (mark M .blank) es' L' g'
          { st1 with v := if wantsSpace st1.v.head? then .char .space :: st1.v else st1.v, gap := true } := by
      intro L' g' hv hg hgo hfl hgn
      refine ⟨es1, L', g', hv, ?_, ?_, h1.ok, hgo, fun e => absurd e hgn, h1.blk, h1.media, h1.attr, ?_, ?_⟩
      · simp only [hcw, pushChars]; exact h1.acc
      · simp only [hcw, if_true]; exact hg
      · intro e _; simp [hfl e]
      · intro e; rw [h1.bs] at e; cases e
    have hgo := h1.gapOk
    have hMg : (mark M .blank).gap = if g1 = .comment then .comment else .blank := by simp [mark, h1.gap]
    cases hg1 : g1 with
    | none =>
      rw [hg1] at hgo hMg
      have hL : L1 = [] := hgo
      have hh : st1.v.head? = lastTok es1 := by rw [h1.v, hL, List.nil_append, head_toks]
      refine fin (if wantsSpace (lastTok es1) then [.char .space] else []) .blank ?_ (by simpa using hMg) rfl (fun _ => rfl) (by simp)
      rw [hh, h1.v, hL]
      split <;> simp
    | blank =>
      rw [hg1] at hgo hMg
      have hL : L1 = _ := hgo
      refine fin L1 .blank ?_ (by simpa using hMg) hgo (fun _ => rfl) (by simp)
      rw [h1.v]
      cases hw : wantsSpace (lastTok es1) with
      | true =>
        rw [hw] at hL
        simp only [if_true] at hL
        rw [hL]
        simp [wantsSpace, Token.isUseless, RChar.isUseless]
      | false =>
        rw [hw] at hL
        simp only [Bool.false_eq_true, if_false] at hL
        rw [hL, List.nil_append, head_toks, hw]
        simp
    | comment =>
      rw [hg1] at hgo hMg
      obtain ⟨hn, hm⟩ := hgo
      by_cases hw : wantsSpace st1.v.head? = true
      · refine fin (.char .space :: L1) .comment (by rw [if_pos hw, h1.v]; rfl) (by simpa using hMg) ⟨by simp, ?_⟩ (by simp) (by simp)
        intro t ht
        rcases List.mem_cons.1 ht with e | e
        · exact .inl e
        · exact hm t e
      · exact fin L1 .comment (by rw [if_neg hw, h1.v]) (by simpa using hMg) ⟨hn, hm⟩ (fun e => absurd e hn) (by simp)
  | comment b =>
    rw [istep] at hs
    simp only [Out.ok.injEq] at hs
    obtain ⟨es1, L1, g1, h1⟩ := iclose_ents hi ho h
    have hcw : (iclose alpha st).w = [] := rfl
    generalize iclose alpha st = st1 at h1 hs hcw
    subst hs
    refine ⟨es1, .comment b :: L1, .comment, ?_, ?_, ?_, h1.ok, ⟨by simp, ?_⟩, by simp, h1.blk, h1.media, h1.attr, by simp, ?_⟩
    · simp [h1.v]
    · simp only [hcw, pushChars]; exact h1.acc
    · simp [hcw, mark]
    · intro t ht
      rcases List.mem_cons.1 ht with e | e
      · right; rw [e]; rfl
      · exact h1.gapOk.mem t e
    · intro e; rw [h1.bs] at e; cases e
  | license b =>
    rw [istep] at hs
    simp only [Out.ok.injEq] at hs
    obtain ⟨es1, L1, g1, h1⟩ := iclose_ents hi ho.1 h
    subst hs
    exact h1.push (t := .license b) rfl rfl rfl rfl rfl rfl rfl rfl
  | str b =>
    rw [istep] at hs
    simp only [Out.ok.injEq] at hs
    obtain ⟨es1, L1, g1, h1⟩ := iclose_ents hi ho.1 h
    subst hs
    exact h1.push (t := .str b) rfl rfl rfl rfl rfl rfl rfl rfl
  | openStr => simp [istep] at hs
  | openComment => simp [istep] at hs

theorem irun_ents {alpha : Char → Bool} {S : Segs} {f : Flag} {st : IS} {M : Marks} {es : List Ent} {L : List Token} {g : Gap}
    {is : List Item} {v : List Token} (hi : Inv S f st) (h : EInv alpha M es L g st) (ho : ItemsOk f is)
    (hs : irun alpha st is = .ok v) : ∃ es' L', v = L' ++ toks es' ∧ (is.foldl mark M).acc = emarks es' ∧ EsOk alpha es' ∧
      GapOk (lastTok es') (is.foldl mark M).gap L' := by
  induction is generalizing S f st M es L g with
  | nil =>
    simp only [irun, Out.ok.injEq] at hs
    by_cases hf : f = .bs
    · have hw := hi.bsw hf
      refine ⟨es, L, ?_, ?_, h.ok, ?_⟩
      · rw [← hs]; simp [ifill, hw, h.v]
      · simp [h.acc, hw, pushChars]
      · simp only [List.foldl_nil]; rw [h.gap, if_pos hw]; exact h.gapOk
    · obtain ⟨es1, L1, g1, h1⟩ := iclose_ents hi hf h
      refine ⟨es1, L1, ?_, h1.acc, h1.ok, ?_⟩
      · rw [← hs]; exact h1.v
      · simp only [List.foldl_nil]; rw [h1.gap]; exact h1.gapOk
  | cons i is ih =>
    rw [irun] at hs
    cases he : istep alpha st i with
    | ok st' =>
      rw [he] at hs
      obtain ⟨es1, L1, g1, h1⟩ := istep_ents hi h ho.1 he
      exact ih (istep_inv hi ho.1 he) h1 ho.2 hs
    | err e => rw [he] at hs; simp [Bind.bind, Out.bind] at hs
    | panic e => rw [he] at hs; simp [Bind.bind, Out.bind] at hs

/-- The tokens are determined by the marks of the source. -/
theorem raw_ents {alpha : Char → Bool} (hA : AlphaOk alpha) {s : List Char} {ts : List Token}
    (h : rawTokens alpha s = .ok ts) : ∃ es L, ts.reverse = L ++ toks es ∧ (marks (items s)).acc = emarks es ∧ EsOk alpha es ∧
      GapOk (lastTok es) (marks (items s)).gap L := by
  rw [rawTokens_items hA] at h
  cases hr : irun alpha {} (items s) with
  | ok v =>
    rw [hr] at h
    simp only [Out.bind_ok, Out.ok.injEq] at h
    rw [← h, List.reverse_reverse]
    exact irun_ents (S := {}) (st := {}) (f := .none) (M := {}) (es := []) (L := []) (g := .none)
      ⟨⟨trivial, by simp [isegs, pushChrs, rsegs], by simp [lastKeeps]⟩, trivial,
        by simp [Word], by simp [isBs], by simp, by simp, by simp [Apart, rsegs, endsWord]⟩
      ⟨rfl, rfl, rfl, trivial, rfl, fun _ => rfl, rfl, rfl, rfl, by simp, by simp [lastTok, isBs]⟩ (itemsOk_items s) hr
  | err e => rw [hr] at h; simp [Bind.bind, Out.bind] at h
  | panic e => rw [hr] at h; simp [Bind.bind, Out.bind] at h

end Verif.Css
