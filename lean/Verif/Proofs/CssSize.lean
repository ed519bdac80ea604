import Verif.Proofs.CssShow
/-!
# Errors and sizes
-/
set_option linter.unusedSimpArgs false

namespace Verif.Css
open Spec.Css

/-! ## When the tokenizer fails -/

theorem irun_problem {alpha : Char → Bool} (is : List Item) : ∀ {st : IS} {d : Nat}, st.blk = (d : Int) →
    match problem d st.attr is with
    | some e => irun alpha st is = .err e
    | none => ∃ v, irun alpha st is = .ok v := by
  induction is with
  | nil => intro st d _; exact ⟨_, rfl⟩
  | cons i is ih =>
    intro st d hd
    have next : ∀ {st' : IS} {d' : Nat} {a : Bool}, istep alpha st i = .ok st' → st'.blk = (d' : Int) → st'.attr = a →
        match problem d' a is with
        | some e => irun alpha st (i :: is) = .err e
        | none => ∃ v, irun alpha st (i :: is) = .ok v := by
      intro st' d' a h1 h2 h3
      have := ih h2
      rw [h3] at this
      rw [irun, h1]
      exact this
    have hblk : (iclose alpha st).blk = st.blk := rfl
    have hattr : (iclose alpha st).attr = st.attr := rfl
    cases i with
    | chr c =>
      have words : ∀ st', istep alpha st (.chr c) = .ok st' → c ≠ '{' → c ≠ '}' → c ≠ '[' → c ≠ ']' →
          st'.blk = st.blk → st'.attr = st.attr →
          match problem d st.attr (.chr c :: is) with
          | some e => irun alpha st (.chr c :: is) = .err e
          | none => ∃ v, irun alpha st (.chr c :: is) = .ok v := by
        intro st' h1 c1 c2 c3 c4 h2 h3
        have : problem d st.attr (.chr c :: is) = problem d st.attr is := by
          rw [problem]
          all_goals simp_all
        rw [this]
        exact next h1 (by rw [h2, hd]) h3
      cases hc : RChar.ofChar c with
      | none =>
        have hne : ∀ x, RChar.ofChar x ≠ none → c ≠ x := fun x hx e => hx (e ▸ hc)
        exact words { st with w := st.w ++ [c] } (by simp [istep, hc]) (hne _ (by decide)) (hne _ (by decide))
          (hne _ (by decide)) (hne _ (by decide)) rfl rfl
      | some rc =>
        have hstep : istep alpha st (.chr c) = ichar (iclose alpha st) rc := by simp [istep, hc]
        have hch : ∀ x : RChar, x.isUseless = false → rc = x → c = x.toChar := by
          intro x hx e
          rcases ofChar_toChar hc with h | ⟨_, h⟩
          · rw [← h, e]
          · rw [e] at h; rw [h] at hx; cases hx
        have hne : ∀ x : Char, RChar.ofChar x ≠ some rc → c ≠ x := fun x hx e => hx (e ▸ hc)
        cases rc
        case openCurly =>
          have := hch _ rfl rfl; subst this
          exact next (d' := d + 1) (hstep.trans rfl) (by simp [hblk, hd]) rfl
        case closeCurly =>
          have := hch _ rfl rfl; subst this
          cases d with
          | zero =>
            refine irun_err (hstep.trans ?_)
            simp [ichar, hblk, hd]
          | succ d =>
            refine next (d' := d) (st' := ?_) (hstep.trans ?_) ?_ ?_
            · exact { iclose alpha st with
                blk := (iclose alpha st).blk - 1,
                media := if (iclose alpha st).blk - 1 = 0 then false else (iclose alpha st).media,
                v := .char .closeCurly :: (iclose alpha st).v }
            · have : ¬ ((iclose alpha st).blk - 1 < 0) := by rw [hblk, hd]; omega
              simp only [ichar, this, if_false]
            · simp only [hblk, hd]; omega
            · rfl
        case openBracket =>
          have := hch _ rfl rfl; subst this
          simp only [RChar.toChar, problem]
          cases ha : st.attr with
          | true => exact irun_err (hstep.trans (by simp [ichar, hattr, ha]))
          | false => exact next (hstep.trans (by simp [ichar, hattr, ha]; rfl)) (by simp [hblk, hd]) rfl
        case closeBracket =>
          have := hch _ rfl rfl; subst this
          simp only [RChar.toChar, problem]
          cases ha : st.attr with
          | true => exact next (hstep.trans (by simp [ichar, hattr, ha]; rfl)) (by simp [hblk, hd]) rfl
          | false => exact irun_err (hstep.trans (by simp [ichar, hattr, ha]))
        case equalSign =>
          cases hs : selOpOf (iclose alpha st).v with
          | none =>
            exact words { iclose alpha st with v := .char .equalSign :: (iclose alpha st).v }
              (hstep.trans (by simp [ichar, hs])) (hne _ (by decide)) (hne _ (by decide))
              (hne _ (by decide)) (hne _ (by decide)) rfl rfl
          | some r =>
            exact words { iclose alpha st with v := .selOp r :: (iclose alpha st).v.tail }
              (hstep.trans (by simp [ichar, hs])) (hne _ (by decide)) (hne _ (by decide))
              (hne _ (by decide)) (hne _ (by decide)) rfl rfl
        all_goals
          exact words _ (hstep.trans rfl) (hne _ (by decide)) (hne _ (by decide)) (hne _ (by decide)) (hne _ (by decide))
            rfl rfl
    | lit c => exact next (st' := { st with v := .other [c] :: st.v }) rfl hd rfl
    | blank => exact next rfl hd rfl
    | comment b => exact next rfl hd rfl
    | license b => exact next rfl hd rfl
    | str b => exact next rfl hd rfl
    | openStr => exact irun_err rfl
    | openComment => exact irun_err rfl

/-! ## Sizes -/

/-- The bytes an item takes; one more for a licence and an at sign. -/
def itemSize : Item → Nat
  | .blank => 1
  | .comment b => blen b + 4
  | .license b => blen b + 6
  | .str t => blen t
  | .lit c => c.utf8Size
  | .chr c => c.utf8Size + (if c = '@' then 1 else 0)
  | .openStr => 0
  | .openComment => 0

def itemsSize (is : List Item) : Nat := (is.map itemSize).sum

/-- The bytes that a reading mode has taken but not yet given out. -/
def pending : Mode → Nat
  | .code => 0
  | .esc => 0
  | .slash => 1
  | .str _ acc => blen acc
  | .strEsc _ acc => blen acc
  | .comment acc => blen acc + 2
  | .commentStar acc => blen acc + 3

theorem size_star : Char.utf8Size '*' = 1 := rfl

theorem commentItem_size (acc : List Char) :
    itemSize (commentItem acc) = blen acc + 4 + (licenses [commentItem acc]).length := by
  cases acc with
  | nil => rfl
  | cons c cs =>
    unfold commentItem
    simp only
    by_cases h : c = '!' ∨ c = '*'
    · have : c.utf8Size = 1 := by rcases h with h | h <;> rw [h] <;> rfl
      simp [itemSize, licenses, this, h]; omega
    · simp [itemSize, licenses, h]

theorem itemsFrom_size (m : Mode) (cs : List Char) :
    itemsSize (itemsFrom m cs) ≤ pending m + blen cs + (licenses (itemsFrom m cs)).length + atSigns (itemsFrom m cs) := by
  induction cs generalizing m with
  | nil => cases m <;> simp [itemsFrom, finish, itemsSize, itemSize, pending, licenses, atSigns] <;> decide
  | cons c cs ih =>
    have hstep : itemsSize (step m c).1 + pending (step m c).2 ≤
        pending m + c.utf8Size + (licenses (step m c).1).length + atSigns (step m c).1 := by
      have hcode : itemsSize (stepCode c).1 + pending (stepCode c).2 ≤
          c.utf8Size + (licenses (stepCode c).1).length + atSigns (stepCode c).1 := by
        have hpos := Char.utf8Size_pos c
        unfold stepCode
        split
        · rename_i h; subst h; decide
        · split
          · simp [itemsSize, pending, licenses, atSigns]
          · split
            · simp [itemsSize, pending]; omega
            · split
              · simp [itemsSize, itemSize, pending]; omega
              · simp only [itemsSize, itemSize, List.map_cons, List.map_nil, List.sum_cons, List.sum_nil, pending,
                  licenses, atSigns, List.countP_cons, List.countP_nil, List.filterMap_cons, List.filterMap_nil,
                  List.length_nil]
                by_cases h : c = '@' <;> simp [h]
      cases m with
      | code => simpa [step, pending] using hcode
      | esc => simp [step, pending, itemsSize, itemSize, licenses, atSigns]
      | slash =>
        simp only [step]
        split
        · rename_i h; subst h; decide
        · simp only [itemsSize, licenses, atSigns] at hcode
          simp only [itemsSize, licenses, atSigns, List.map_cons, List.sum_cons, List.filterMap_cons, List.countP_cons]
          have : itemSize (.chr '/') = 1 := by decide
          rw [this]
          have hp : pending .slash = 1 := rfl
          have h2 : ((Item.chr '/' == Item.chr '@') = true) = False := by simp
          simp only [h2, if_false]
          omega
      | str q acc =>
        simp only [step]
        split
        · simp [pending, itemsSize, licenses, atSigns]
        · split <;> simp [pending, itemsSize, itemSize, licenses, atSigns]
      | strEsc q acc => simp [step, pending, itemsSize, licenses, atSigns]
      | comment acc =>
        simp only [step]
        split
        · rename_i h; subst h; simp [pending, itemsSize, licenses, atSigns, size_star]
        · simp [pending, itemsSize, licenses, atSigns]; omega
      | commentStar acc =>
        simp only [step]
        split
        · rename_i h; subst h
          have h1 := commentItem_size acc
          have h2 : Char.utf8Size '/' = 1 := rfl
          simp only [itemsSize, List.map_cons, List.map_nil, List.sum_cons, List.sum_nil, pending, h1, h2]
          omega
        · split
          · rename_i h; subst h; simp [pending, itemsSize, licenses, atSigns, size_star]
          · simp [pending, itemsSize, licenses, atSigns, size_star]; omega
    have := ih (step m c).2
    rw [itemsFrom]
    simp only [itemsSize, licenses, atSigns, List.map_append, List.sum_append, List.filterMap_append, List.length_append,
      List.countP_append, blen_cons] at *
    omega

/-- The bytes of a token before `clean_tokens`, plus what `Display` adds. -/
def tokSize : Token → Nat
  | .comment b => blen b + 4
  | t => blen t.display

def toksSize (v : List Token) : Nat := (v.map tokSize).sum

/-- The size of a word: an at sign counts twice. -/
def wordSize (w : List Char) : Nat := itemsSize (w.map .chr)

theorem blen_le_wordSize (w : List Char) : blen w ≤ wordSize w := by
  induction w with
  | nil => simp
  | cons c w ih =>
    simp only [wordSize, itemsSize, List.map_cons, List.sum_cons, itemSize, blen_cons] at *
    omega

theorem wordTok_size (alpha : Char → Bool) (sel : Bool) (w : List Char) : tokSize (wordTok alpha sel w) ≤ wordSize w := by
  have hb := blen_le_wordSize w
  unfold wordTok
  cases sel
  · exact hb
  · simp only [if_true]
    cases h : Sel.ofStr alpha w with
    | none => exact hb
    | some s =>
      have hc := Sel.ofStr_chars h
      simp only [tokSize, Token.display, Sel.display_chars, hc, blen_append]
      cases s with
      | media m =>
        rw [← hc]
        have := blen_le_wordSize m
        have h1 : Char.utf8Size '@' = 1 := rfl
        have h2 : Char.utf8Size ' ' = 1 := rfl
        simp only [Sel.chars, wordSize, itemsSize, List.map_cons, List.sum_cons, itemSize, if_true, Token.isMedia, blen_cons,
          blen_nil, h1, h2] at *
        omega
      | _ => simpa [Token.isMedia] using hb

theorem ifill_size (alpha : Char → Bool) (st : IS) : toksSize (ifill alpha st) ≤ toksSize st.v + wordSize st.w := by
  unfold ifill
  split
  · omega
  · split
    · rename_i h
      split
      · have := blen_le_wordSize st.w
        simp only [toksSize, List.map_cons, List.sum_cons, tokSize, Token.display] at *
        omega
      · cases hv : st.v with
        | nil => rw [hv] at h; simp at h
        | cons t v =>
          rw [hv] at h; simp at h
          have := blen_le_wordSize st.w
          have h1 : Char.utf8Size ':' = 1 := rfl
          simp only [toksSize, List.map_cons, List.sum_cons, tokSize, Token.display, List.tail_cons, Sel.display, blen_cons,
            h.2, RChar.toChar, h1, blen_nil] at *
          omega
    · have := wordTok_size alpha st.inSel st.w
      simp only [toksSize, List.map_cons, List.sum_cons] at *
      omega

theorem ichar_size {st st' : IS} {c : Char} {rc : RChar} (hc : RChar.ofChar c = some rc) (hw : st.w = [])
    (h : ichar st rc = .ok st') : toksSize st'.v + wordSize st'.w ≤ toksSize st.v + itemSize (.chr c) := by
  have h1 : blen [rc.toChar] ≤ itemSize (.chr c) := by
    have : c.utf8Size = 1 := ofChar_size hc
    have h2 : rc.toChar.utf8Size = 1 := ofChar_size (toChar_ofChar rc)
    simp [itemSize, h2, this]
  have push : ∀ st'' : IS, st''.v = .char rc :: st.v → st''.w = [] →
      toksSize st''.v + wordSize st''.w ≤ toksSize st.v + itemSize (.chr c) := by
    intro st'' h2 h3
    rw [h2, h3]
    have h1 : blen [rc.toChar] ≤ itemSize (.chr c) := h1
    simp only [toksSize, List.map_cons, List.sum_cons, tokSize, Token.display, wordSize, itemsSize, List.map_nil, List.sum_nil]
    omega
  unfold ichar at h
  split at h
  case h_1 => split at h <;> simp at h; exact push _ (by rw [← h]) (by rw [← h]; exact hw)
  case h_2 => split at h <;> simp at h; exact push _ (by rw [← h]) (by rw [← h]; exact hw)
  case h_3 => simp at h; exact push _ (by rw [← h]) (by rw [← h]; exact hw)
  case h_4 => split at h <;> simp at h; exact push _ (by rw [← h]) (by rw [← h]; exact hw)
  case h_5 => simp at h; exact push _ (by rw [← h]) (by rw [← h]; exact hw)
  case h_7 => simp at h; exact push _ (by rw [← h]) (by rw [← h]; exact hw)
  case h_6 =>
    split at h
    · rename_i r hr
      simp only [Out.ok.injEq] at h
      rw [← h]
      cases hv : st.v with
      | nil => rw [hv] at hr; simp [selOpOf, Token.getChar] at hr
      | cons t v' =>
        rw [hv] at hr
        have h2 : c.utf8Size = 1 := ofChar_size hc
        simp only [toksSize, List.map_cons, List.sum_cons, List.tail_cons, hw, wordSize, itemsSize, List.map_nil,
          List.sum_nil, itemSize, h2]
        cases t with
        | char x =>
          have : tokSize (.char x) = 1 := by cases x <;> rfl
          rw [this]
          have : tokSize (.selOp r) = 2 := by cases r <;> rfl
          rw [this]
          omega
        | _ => simp [selOpOf, Token.getChar] at hr
    · simp at h; exact push _ (by rw [← h]) (by rw [← h]; exact hw)

theorem istep_size {alpha : Char → Bool} {st st' : IS} {i : Item} (h : istep alpha st i = .ok st') :
    toksSize st'.v + wordSize st'.w ≤ toksSize st.v + wordSize st.w + itemSize i := by
  have hfill := ifill_size alpha st
  have hcv : (iclose alpha st).v = ifill alpha st := rfl
  have hcw : (iclose alpha st).w = [] := rfl
  have hnil : wordSize [] = 0 := rfl
  cases i with
  | chr c =>
    rw [istep] at h
    cases hc : RChar.ofChar c with
    | none =>
      rw [hc] at h; simp at h; rw [← h]
      simp [wordSize, itemsSize]
      omega
    | some rc =>
      rw [hc] at h
      have := ichar_size hc hcw h
      rw [hcv] at this
      omega
  | lit c =>
    simp [istep] at h; rw [← h]
    simp only [toksSize, List.map_cons, List.sum_cons, tokSize, Token.display, blen_cons, blen_nil, itemSize]
    omega
  | blank =>
    simp [istep] at h; rw [← h]
    simp only [hcw, hnil, itemSize, hcv]
    have : tokSize (.char .space) = 1 := rfl
    split
    · simp only [toksSize, List.map_cons, List.sum_cons, this] at *
      omega
    · omega
  | comment b =>
    simp [istep] at h; rw [← h]
    simp only [hcw, hnil, itemSize, hcv, toksSize, List.map_cons, List.sum_cons, tokSize] at *
    omega
  | license b =>
    simp [istep] at h; rw [← h]
    have h1 : Char.utf8Size '/' = 1 := rfl
    have h2 : Char.utf8Size '*' = 1 := rfl
    have h3 : Char.utf8Size '!' = 1 := rfl
    have h4 : Char.utf8Size '\n' = 1 := rfl
    simp only [hcw, hnil, itemSize, hcv, toksSize, List.map_cons, List.sum_cons, tokSize, Token.display, List.cons_append,
      blen_cons, blen_append, blen_nil, h1, h2, h3, h4] at *
    omega
  | str b =>
    simp [istep] at h; rw [← h]
    simp only [hcw, hnil, itemSize, hcv, toksSize, List.map_cons, List.sum_cons, tokSize, Token.display] at *
    omega
  | openStr => simp [istep] at h
  | openComment => simp [istep] at h

theorem irun_size {alpha : Char → Bool} {st : IS} {is : List Item} {v : List Token} (h : irun alpha st is = .ok v) :
    toksSize v ≤ toksSize st.v + wordSize st.w + itemsSize is := by
  induction is generalizing st with
  | nil =>
    simp only [irun, Out.ok.injEq] at h
    rw [← h]
    have := ifill_size alpha st
    simp only [itemsSize, List.map_nil, List.sum_nil]
    omega
  | cons i is ih =>
    rw [irun] at h
    cases he : istep alpha st i with
    | ok st' =>
      rw [he] at h
      have h1 := ih h
      have h2 := istep_size he
      simp only [itemsSize, List.map_cons, List.sum_cons] at *
      omega
    | err e => rw [he] at h; simp [Bind.bind, Out.bind] at h
    | panic e => rw [he] at h; simp [Bind.bind, Out.bind] at h

theorem clean_size (ic : Bool) (paren : Int) (prev : Option Token) (ts : List Token) :
    blen (display (cleanFrom ic paren prev ts)) ≤ toksSize ts := by
  induction ts generalizing ic paren prev with
  | nil => simp [cleanFrom, display]
  | cons t ts ih =>
    rw [cleanFrom]
    have h1 : blen (Token.char .space).display = 1 := rfl
    have h2 : t.isComment = false → tokSize t = blen t.display := by
      intro h; cases t <;> first | rfl | simp [Token.isComment] at h
    have h3 : t.isComment = true → 4 ≤ tokSize t := by
      intro h; cases t <;> simp [Token.isComment] at h; simp [tokSize]
    have hsum : toksSize (t :: ts) = tokSize t + toksSize ts := by simp [toksSize]
    rw [hsum]
    split
    · split
      · rw [display_cons, blen_append]
        have := ih (calcStep ic paren t).1 (calcStep ic paren t).2 (some (if t.isComment = true then .char .space else t))
        cases hc : t.isComment with
        | true => simp only [hc, if_true] at this ⊢; have := h3 hc; omega
        | false => simp only [hc, Bool.false_eq_true, if_false] at this ⊢; have := h2 hc; omega
      · have := ih (calcStep ic paren t).1 (calcStep ic paren t).2 prev
        omega
    · rename_i hn
      have hc : t.isComment = false := by
        cases h : t.isComment
        · rfl
        · simp [h] at hn
      rw [display_cons, blen_append]
      have := ih (calcStep ic paren t).1 (calcStep ic paren t).2 (some t)
      have := h2 hc
      omega

end Verif.Css
