import Verif.Proofs.CssLex
/-!
# The CSS tokenizer reads items

The tokenizer is a left-to-right machine over the items of the specification: `rawTokens_items`.
-/
set_option linter.unusedSimpArgs false

namespace Verif.Css
open Spec.Css

theorem ofChar_blank (c : Char) : isBlank c = true ↔ ∃ rc, RChar.ofChar c = some rc ∧ rc.isUseless = true := by
  constructor
  · intro h
    simp only [isBlank, Bool.or_eq_true, beq_iff_eq] at h
    rcases h with ((h | h) | h) | h <;> subst h <;> exact ⟨_, rfl, rfl⟩
  · rintro ⟨rc, h, hu⟩
    unfold RChar.ofChar at h
    split at h <;> simp at h <;> subst h <;> revert hu <;> decide

theorem ofChar_special {c : Char} (h : c = '\\' ∨ c = '"' ∨ c = '\'' ∨ c = '/') : RChar.ofChar c ≠ none := by
  rcases h with h | h | h | h <;> subst h <;> decide

theorem stepCode_word {c : Char} (h : RChar.ofChar c = none) : stepCode c = ([.chr c], .code) := by
  have hb : isBlank c = false := by
    rw [Bool.eq_false_iff]; intro hb
    obtain ⟨rc, h1, _⟩ := (ofChar_blank c).1 hb
    rw [h] at h1; simp at h1
  have h1 : c ≠ '\\' := fun e => ofChar_special (.inl e) h
  have h2 : c ≠ '"' := fun e => ofChar_special (.inr (.inl e)) h
  have h3 : c ≠ '\'' := fun e => ofChar_special (.inr (.inr (.inl e))) h
  have h4 : c ≠ '/' := fun e => ofChar_special (.inr (.inr (.inr e))) h
  simp [stepCode, h1, h2, h3, h4, hb]

theorem items_word {c : Char} (cs : List Char) (h : RChar.ofChar c = none) : items (c :: cs) = .chr c :: items cs := by
  unfold items
  rw [itemsFrom, step, stepCode_word h]; rfl

/-- Reserved characters that stand for themselves. -/
def RChar.plain (rc : RChar) : Bool :=
  !(rc.isUseless || rc == .slash || rc == .backslash || rc == .quote || rc == .doubleQuote)

theorem items_plain {c : Char} {rc : RChar} (cs : List Char) (h : RChar.ofChar c = some rc) (hp : rc.plain = true) :
    items (c :: cs) = .chr c :: items cs := by
  unfold items
  rw [itemsFrom, step]
  unfold RChar.ofChar at h
  split at h <;> simp at h <;> subst h <;> first | rfl | (exact absurd hp (by decide))

theorem items_blank {c : Char} {rc : RChar} (cs : List Char) (h : RChar.ofChar c = some rc) (hp : rc.isUseless = true) :
    items (c :: cs) = .blank :: items cs := by
  unfold items
  rw [itemsFrom, step]
  unfold RChar.ofChar at h
  split at h <;> simp at h <;> subst h <;> first | rfl | (exact absurd hp (by decide))

theorem items_slash {cs : List Char} (h : cs.head? ≠ some '*') : items ('/' :: cs) = .chr '/' :: items cs := by
  unfold items
  rw [itemsFrom]
  cases cs with
  | nil => rfl
  | cons c cs =>
    have hc : c ≠ '*' := by simpa using h
    rw [itemsFrom, itemsFrom]
    simp [step, stepCode, hc]

theorem items_esc (c : Char) (cs : List Char) : items ('\\' :: c :: cs) = .chr '\\' :: .lit c :: items cs := rfl

theorem items_esc_nil : items ['\\'] = [.chr '\\'] := rfl

theorem itemsFrom_str {q : RChar} (hq : q = .quote ∨ q = .doubleQuote) (acc cs : List Char) :
    itemsFrom (.str q.toChar acc) cs =
      match takeStr q cs with
      | some (b, r) => .str (acc ++ b) :: items r
      | none => [.openStr] := by
  have hqb : ∀ c, RChar.ofChar c = some q ↔ c = q.toChar := by
    intro c
    constructor
    · intro h
      rcases ofChar_toChar h with h' | ⟨_, h'⟩
      · exact h'.symm
      · rcases hq with e | e <;> rw [e] at h' <;> cases h'
    · intro h; rw [h, toChar_ofChar]
  have hqs : q.toChar ≠ '\\' := by rcases hq with e | e <;> subst e <;> decide
  induction cs using takeStr.induct q generalizing acc with
  | case1 => rfl
  | case2 c h1 =>
    have h1 : c = '\\' := by simpa using h1
    subst h1; simp [takeStr, itemsFrom, step, finish]
  | case3 c h1 h2 =>
    have h1 : c ≠ '\\' := by simpa using h1
    have h2' : c = q.toChar := (hqb c).1 (by simpa using h2)
    simp [takeStr, itemsFrom, step, finish, h1, h2, h2', hqs, items, toChar_ofChar]
  | case4 c h1 h2 =>
    have h1 : c ≠ '\\' := by simpa using h1
    have h2' : c ≠ q.toChar := fun h => h2 (by simpa using (hqb c).2 h)
    simp [takeStr, itemsFrom, step, finish, h1, h2, h2']
  | case5 c d cs hc ih =>
    have hc' : c = '\\' := by simpa using hc
    subst hc'
    rw [takeStr, if_pos hc, itemsFrom, step, itemsFrom]
    simp only [if_true, step, List.nil_append, ih]
    cases takeStr q cs <;> simp
  | case6 c d cs hc hq' =>
    have h1 : c ≠ '\\' := by simpa using hc
    have h2' : c = q.toChar := (hqb c).1 (by simpa using hq')
    rw [takeStr, if_neg hc, if_pos hq', itemsFrom, step]
    simp [h1, h2', hqs, items]
  | case7 c d cs hc hq' ih =>
    have h1 : c ≠ '\\' := by simpa using hc
    have h2' : c ≠ q.toChar := fun h => hq' (by simpa using (hqb c).2 h)
    rw [takeStr, if_neg hc, if_neg hq', itemsFrom, step, if_neg h1, if_neg h2', List.nil_append, ih]
    cases takeStr q (d :: cs) <;> simp

theorem items_str {c : Char} {q : RChar} (hc : RChar.ofChar c = some q) (hq : q = .quote ∨ q = .doubleQuote)
    (cs : List Char) :
    items (c :: cs) =
      match takeStr q cs with
      | some (b, r) => .str (c :: b) :: items r
      | none => [.openStr] := by
  have hcq : q.toChar = c := by
    rcases ofChar_toChar hc with h' | ⟨_, h'⟩
    · exact h'
    · rcases hq with e | e <;> rw [e] at h' <;> cases h'
  have : items (c :: cs) = itemsFrom (.str q.toChar [c]) cs := by
    unfold items
    rw [itemsFrom, step, hcq]
    rcases hq with e | e <;> subst e <;> subst hcq <;> rfl
  rw [this, itemsFrom_str hq]
  rfl

/-- The mode inside a comment. -/
def comMode (star : Bool) (acc : List Char) : Mode := if star then .commentStar acc else .comment acc

theorem itemsFrom_com (star : Bool) (acc cs : List Char) :
    itemsFrom (comMode star acc) cs =
      match takeCom star cs with
      | some (b, r) => commentItem ((acc ++ (if star then ['*'] else []) ++ b).dropLast.dropLast) :: items r
      | none => [.openComment] := by
  induction cs generalizing star acc with
  | nil => cases star <;> rfl
  | cons c cs ih =>
    rw [itemsFrom, takeCom]
    cases star
    · simp only [comMode, Bool.false_eq_true, if_false, step, and_false, List.append_nil]
      by_cases hc : c = '*'
      · subst hc
        have := ih true acc
        simp only [comMode, if_true] at this
        simp only [if_true, List.nil_append, this, beq_self_eq_true]
        cases takeCom true cs <;> simp
      · have := ih false (acc ++ [c])
        simp only [comMode, Bool.false_eq_true, if_false] at this
        have hb : (c == '*') = false := by simpa using hc
        simp only [hc, if_false, List.nil_append, this, hb]
        cases takeCom false cs <;> simp
    · simp only [comMode, if_true, step, and_true]
      by_cases h1 : c = '/'
      · subst h1
        simp only [if_true, items]
        simp [List.dropLast_append_of_ne_nil]
      · by_cases hc : c = '*'
        · subst hc
          have := ih true (acc ++ ['*'])
          simp only [comMode, if_true] at this
          simp only [if_true, List.nil_append, this, beq_self_eq_true, h1, if_false]
          cases takeCom true cs <;> simp
        · have := ih false (acc ++ ['*', c])
          simp only [comMode, Bool.false_eq_true, if_false] at this
          have hb : (c == '*') = false := by simpa using hc
          simp only [hc, if_false, List.nil_append, this, hb, h1]
          cases takeCom false cs <;> simp

/-- The item of a comment token. -/
def comItem : Token → Item
  | .license b => .license b
  | .comment b => .comment b
  | _ => .blank

theorem takeCom_two {cs b r : List Char} (h : takeCom false cs = some (b, r)) : 2 ≤ b.length := by
  cases cs with
  | nil => simp [takeCom] at h
  | cons c cs =>
    simp only [takeCom, Bool.false_eq_true, and_false, if_false, Option.map_eq_some_iff] at h
    obtain ⟨⟨b', r'⟩, h1, h2⟩ := h
    simp only [Prod.mk.injEq] at h2
    rw [← h2.1]
    cases cs with
    | nil => simp [takeCom] at h1
    | cons d cs =>
      simp only [takeCom] at h1
      split at h1
      · simp only [Option.some.injEq, Prod.mk.injEq] at h1; rw [← h1.1]; simp
      · simp only [Option.map_eq_some_iff] at h1
        obtain ⟨⟨b2, r2⟩, _, h3⟩ := h1
        simp only [Prod.mk.injEq] at h3
        rw [← h3.1]; simp

theorem items_comment (cs : List Char) :
    items ('/' :: '*' :: cs) =
      match acomment cs with
      | some (t, r) => comItem t :: items r
      | none => [.openComment] := by
  have h0 : items ('/' :: '*' :: cs) = itemsFrom (comMode false []) cs := rfl
  rw [h0]
  cases cs with
  | nil => rfl
  | cons c cs =>
    rw [acomment]
    by_cases hc : (c == '!' || (c == '*' && cs.head? != some '/')) = true
    · rw [if_pos hc]
      rw [Bool.or_eq_true] at hc
      have hlic : c = '!' ∨ c = '*' := by
        rcases hc with h | h
        · exact .inl (by simpa using h)
        · simp only [Bool.and_eq_true, beq_iff_eq] at h; exact .inr h.1
      have key : itemsFrom (comMode false []) (c :: cs) =
          match takeCom false cs with
          | some (b, r) => commentItem ((c :: b).dropLast.dropLast) :: items r
          | none => [.openComment] := by
        by_cases hs : c = '*'
        · subst hs
          have h2 : cs.head? ≠ some '/' := by
            rcases hc with h | h
            · simp at h
            · simpa using h
          have e : takeCom true cs = takeCom false cs := by
            cases cs with
            | nil => rfl
            | cons d ds =>
              have : d ≠ '/' := by simpa using h2
              simp [takeCom, this]
          have := itemsFrom_com true [] cs
          simp only [comMode, if_true, e] at this
          rw [itemsFrom]
          simp only [comMode, Bool.false_eq_true, if_false, step, if_true, List.nil_append, this]
          rfl
        · have := itemsFrom_com false [c] cs
          simp only [comMode, Bool.false_eq_true, if_false] at this
          rw [itemsFrom]
          simp only [comMode, Bool.false_eq_true, if_false, step, hs, List.nil_append, this, List.append_nil]
          rfl
      rw [key]
      cases ht : takeCom false cs with
      | none => rfl
      | some p =>
        obtain ⟨b, r⟩ := p
        have h2 := takeCom_two ht
        simp only [Option.map_some, comItem]
        match b, h2 with
        | x :: y :: b, _ =>
          cases b <;> simp [commentItem, hlic]
    · rw [if_neg hc]
      have := itemsFrom_com false [] (c :: cs)
      rw [this, takeCom]
      simp only [Bool.false_eq_true, and_false, if_false, List.nil_append, List.append_nil]
      cases ht : takeCom (c == '*') cs with
      | none => rfl
      | some p =>
        obtain ⟨b, r⟩ := p
        simp only [Option.map_some, comItem]
        simp only [Bool.or_eq_true, Bool.and_eq_true, beq_iff_eq, not_or, not_and, bne_iff_ne, ne_eq,
          Decidable.not_not] at hc
        by_cases hs : c = '*'
        · subst hs
          have hh := hc.2 rfl
          cases cs with
          | nil => simp at hh
          | cons d ds =>
            have : d = '/' := by simpa using hh
            subst this
            simp [takeCom] at ht
            rw [← ht.1, ← ht.2]; rfl
        · have hb : (c == '*') = false := by simpa using hs
          rw [hb] at ht
          have h2 := takeCom_two ht
          match b, h2 with
          | x :: y :: b, _ =>
            cases b <;> simp [commentItem, hs, hc.1]

/-- The state of the machine: tokens (last first), the current word, open blocks, whether in an at-rule, whether between
brackets, whether the word (or the place where it would start) follows a blank. -/
structure IS where
  v : List Token := []
  w : List Char := []
  blk : Int := 0
  media : Bool := false
  attr : Bool := false
  gap : Bool := true
  deriving Repr, DecidableEq

/-- `is_alphabetic` is false for blanks. -/
def AlphaOk (alpha : Char → Bool) : Prop := ∀ c, isBlank c = true → alpha c = false

def IS.inSel (st : IS) : Bool := !st.attr && ((st.blk == 0 && !st.media) || (st.media && st.blk == 1))

/-- The token of a word. -/
def wordTok (alpha : Char → Bool) (sel : Bool) (w : List Char) : Token :=
  if sel then
    match Sel.ofStr alpha w with
    | some s => .sel s
    | none => .other w
  else .other w

/-- The tokens after the current word. -/
def ifill (alpha : Char → Bool) (st : IS) : List Token :=
  if st.w = [] then st.v
  else if st.inSel = true ∧ st.v.head? = some (.char .colon) then
    if st.gap then .other st.w :: st.v else .sel (.pseudoClass st.w) :: st.v.tail
  else wordTok alpha st.inSel st.w :: st.v

/-- Ending the current word. -/
def iclose (alpha : Char → Bool) (st : IS) : IS :=
  { st with v := ifill alpha st, w := [], gap := false, media := st.media || ((ifill alpha st).head?.getD (.char .space)).isMedia }

/-- A reserved character that stands for itself. -/
def ichar (st : IS) (rc : RChar) : Out IS :=
  match rc with
  | .openBracket =>
    if st.attr then .err "Already in attribute selector" else .ok { st with attr := true, v := .char rc :: st.v }
  | .closeBracket =>
    if !st.attr then .err "Unexpected ']'" else .ok { st with attr := false, v := .char rc :: st.v }
  | .openCurly => .ok { st with blk := st.blk + 1, v := .char rc :: st.v }
  | .closeCurly =>
    if st.blk - 1 < 0 then .err "Too much '}'"
    else .ok { st with blk := st.blk - 1, media := if st.blk - 1 = 0 then false else st.media, v := .char rc :: st.v }
  | .semiColon => .ok { st with media := if st.blk = 0 then false else st.media, v := .char rc :: st.v }
  | .equalSign =>
    match selOpOf st.v with
    | some r => .ok { st with v := .selOp r :: st.v.tail }
    | none => .ok { st with v := .char rc :: st.v }
  | rc => .ok { st with v := .char rc :: st.v }

/-- One item. -/
def istep (alpha : Char → Bool) (st : IS) : Item → Out IS
  | .chr c =>
    match RChar.ofChar c with
    | none => .ok { st with w := st.w ++ [c] }
    | some rc => ichar (iclose alpha st) rc
  | .lit c => .ok { st with v := .other [c] :: st.v }
  | .blank =>
    let st := iclose alpha st
    .ok { st with v := if wantsSpace st.v.head? then .char .space :: st.v else st.v, gap := true }
  | .comment b => let st := iclose alpha st; .ok { st with v := .comment b :: st.v }
  | .license b => let st := iclose alpha st; .ok { st with v := .license b :: st.v }
  | .str s => let st := iclose alpha st; .ok { st with v := .str s :: st.v }
  | .openStr => .err "Unclosed string"
  | .openComment => .err "Unclosed comment"

/-- All items. -/
def irun (alpha : Char → Bool) : IS → List Item → Out (List Token)
  | st, [] => .ok (ifill alpha st)
  | st, i :: is => istep alpha st i >>= fun st => irun alpha st is

/-- The machine state of a tokenizer state. -/
def AS.toIS (a : AS) : IS := { v := a.v, w := a.w, blk := a.blk, media := a.media, attr := a.attr, gap := isBlank a.pc }

theorem afill_toIS {alpha : Char → Bool} (hA : AlphaOk alpha) {a : AS}
    (h : a.v.head? = some (.char .colon) → a.pc = ':' ∨ isBlank a.pc = true) :
    afill alpha a = ifill alpha a.toIS := by
  unfold afill ifill AS.inSel IS.inSel AS.toIS wordTok
  by_cases hw : a.w = []
  · simp [hw]
  · simp only [hw, if_false]
    by_cases hs : (!a.attr && ((a.blk == 0 && !a.media) || (a.media && a.blk == 1))) = true
    · simp only [hs, if_true, true_and]
      by_cases hc : a.v.head? = some (.char .colon)
      · simp only [hc, if_true]
        rcases h hc with h | h
        · have : isBlank ':' = false := rfl
          simp [hc, h, Sel.ofStr, hw, this]
        · have hn : ∀ x, isBlank x = false → a.pc ≠ x := by
            intro x hx e; rw [e, hx] at h; simp at h
          have : Sel.ofStr alpha (a.pc :: a.w) = none := by
            unfold Sel.ofStr
            split
            all_goals first
              | (rename_i e; simp only [List.cons.injEq] at e; exact absurd e.1 (hn _ rfl))
              | (rename_i e; simp only [List.cons.injEq] at e; rw [← e.1, hA _ h]; rfl)
              | rfl
          simp [this, h]
      · simp only [hc, if_false]
        cases Sel.ofStr alpha a.w <;> rfl
    · simp [hs]

theorem irun_err {alpha : Char → Bool} {st : IS} {i : Item} {is : List Item} {e : String}
    (h : istep alpha st i = .err e) : irun alpha st (i :: is) = .err e := by
  rw [irun, h]; rfl

theorem areserved_items {alpha : Char → Bool} {a : AS} {c : Char} {rc : RChar} {cs : List Char}
    (hc : RChar.ofChar c = some rc) {st : IS} (hv : a.v = (iclose alpha st).v) (hb : a.blk = (iclose alpha st).blk)
    (hm : a.media = (iclose alpha st).media) (ha : a.attr = (iclose alpha st).attr) :
    match areserved a c rc cs with
    | .ok (a', cs') => irun alpha st (items (c :: cs)) = irun alpha a'.toIS (items cs') ∧
        (a'.v.head? = some (.char .colon) → a'.pc = ':' ∨ isBlank a'.pc = true) ∧ cs'.length ≤ cs.length
    | .err e => irun alpha st (items (c :: cs)) = .err e
    | .panic _ => False := by
  have hcl : iclose alpha st = { v := a.v, w := [], blk := a.blk, media := a.media, attr := a.attr, gap := false } := by
    rw [hv, hb, hm, ha]; rfl
  have hnb : rc.isUseless = false → isBlank c = false := by
    intro hu
    rw [Bool.eq_false_iff]; intro h
    obtain ⟨rc', h1, h2⟩ := (ofChar_blank c).1 h
    rw [hc] at h1; simp only [Option.some.injEq] at h1; subst h1
    rw [hu] at h2; simp at h2
  have str : (rc = .quote ∨ rc = .doubleQuote) →
      match (match takeStr rc cs with
        | some (b, cs) => (.ok (({ a with pc := c, w := [], v := .str (c :: b) :: a.v } : AS), cs) : Out (AS × List Char))
        | none => .err "Unclosed string") with
      | .ok (a', cs') => irun alpha st (items (c :: cs)) = irun alpha a'.toIS (items cs') ∧
          (a'.v.head? = some (.char .colon) → a'.pc = ':' ∨ isBlank a'.pc = true) ∧ cs'.length ≤ cs.length
      | .err e => irun alpha st (items (c :: cs)) = .err e
      | .panic _ => False := by
    intro hq
    rw [items_str hc hq]
    cases ht : takeStr rc cs with
    | none => rfl
    | some p =>
      obtain ⟨b, r⟩ := p
      have := takeStr_append ht
      refine ⟨?_, by simp, by rw [this]; simp⟩
      have hnb' := hnb (by rcases hq with h | h <;> subst h <;> rfl)
      simp only [irun, istep, hcl, AS.toIS, hnb']; rfl
  have plain : rc.plain = true → ∀ st', ichar (iclose alpha st) rc = .ok st' →
      irun alpha st (items (c :: cs)) = irun alpha st' (items cs) := by
    intro hp st' h
    rw [items_plain cs hc hp, irun, istep, hc]
    simp only [h]; rfl
  have plainE : rc.plain = true → ∀ e, ichar (iclose alpha st) rc = .err e →
      irun alpha st (items (c :: cs)) = .err e := by
    intro hp e h
    rw [items_plain cs hc hp, irun, istep, hc]
    simp only [h]; rfl
  have blank : rc.isUseless = true →
      irun alpha st (items (c :: cs)) =
        irun alpha { v := if wantsSpace a.v.head? then .char .space :: a.v else a.v, w := [], blk := a.blk,
                     media := a.media, attr := a.attr, gap := true } (items cs) := by
    intro hu
    rw [items_blank cs hc hu, irun, istep, hcl]
    rfl
  cases rc
  case backslash =>
    have : c = '\\' := by rcases ofChar_toChar hc with h | ⟨_, h⟩ <;> first | exact h.symm | cases h
    subst this
    cases cs with
    | nil =>
      refine ⟨?_, by simp, by simp⟩
      rw [items_esc_nil]
      simp only [irun, istep, hc, ichar, hcl]; rfl
    | cons d cs =>
      refine ⟨?_, by simp, by simp⟩
      rw [items_esc]
      simp only [irun, istep, hc, ichar, hcl]; rfl
  case quote => exact str (.inl rfl)
  case doubleQuote => exact str (.inr rfl)
  case slash =>
    have : c = '/' := by rcases ofChar_toChar hc with h | ⟨_, h⟩ <;> first | exact h.symm | cases h
    subst this
    unfold areserved
    by_cases hs : cs.head? = some '*'
    · simp only [hs, if_true]
      obtain ⟨d, rfl⟩ : ∃ d, cs = '*' :: d := by
        cases cs with
        | nil => simp at hs
        | cons x y => exact ⟨y, by simpa using hs⟩
      rw [items_comment, List.tail_cons]
      cases ht : acomment d with
      | none => rfl
      | some p =>
        obtain ⟨t, r⟩ := p
        have key : (∃ b, t = .comment b ∨ t = .license b) ∧ r.length ≤ d.length := by
          cases d with
          | nil => simp [acomment] at ht
          | cons x y =>
            rw [acomment] at ht
            split at ht <;> simp only [Option.map_eq_some_iff, Prod.mk.injEq] at ht <;>
              obtain ⟨⟨b, r'⟩, h1, h2, h3⟩ := ht <;>
              have h4 := takeCom_append h1 <;> simp only at h3 <;> subst h3 <;>
              first
              | exact ⟨⟨_, .inr h2.symm⟩, by rw [h4]; simp; omega⟩
              | exact ⟨⟨_, .inl h2.symm⟩, by rw [h4]; simp; omega⟩
        obtain ⟨⟨b, hb'⟩, hl⟩ := key
        simp only
        refine ⟨?_, by rcases hb' with h | h <;> simp [h], by simp; omega⟩
        rcases hb' with h | h <;> subst h <;> simp only [irun, comItem, istep, hcl] <;> rfl
    · simp only [hs, if_false]
      refine ⟨?_, by simp, by simp⟩
      rw [items_slash hs]
      simp only [irun, istep, hc, ichar, hcl]; rfl
  case openBracket =>
    unfold areserved
    cases h : a.attr
    · refine ⟨plain rfl _ (by simp [ichar, hcl, h, AS.toIS, hnb rfl]), by simp, by simp⟩
    · exact plainE rfl _ (by simp [ichar, hcl, h])
  case closeBracket =>
    unfold areserved
    cases h : a.attr
    · exact plainE rfl _ (by simp [ichar, hcl, h])
    · refine ⟨plain rfl _ (by simp [ichar, hcl, h, AS.toIS, hnb rfl]), by simp, by simp⟩
  case openCurly =>
    exact ⟨plain rfl _ (by simp [ichar, hcl, AS.toIS, hnb rfl]), by simp, by simp⟩
  case closeCurly =>
    unfold areserved
    by_cases h : a.blk - 1 < 0
    · simp only [h, if_true]
      exact plainE rfl _ (by simp [ichar, hcl, h])
    · simp only [h, if_false]
      exact ⟨plain rfl _ (by simp [ichar, hcl, h, AS.toIS, hnb rfl]), by simp, by simp⟩
  case semiColon =>
    exact ⟨plain rfl _ (by simp [ichar, hcl, AS.toIS, hnb rfl]), by simp, by simp⟩
  case equalSign =>
    unfold areserved
    cases h : selOpOf a.v with
    | none => exact ⟨plain rfl _ (by simp [ichar, hcl, h, AS.toIS, hnb rfl]), by simp, by simp⟩
    | some r => exact ⟨plain rfl _ (by simp [ichar, hcl, h, AS.toIS, hnb rfl]), by simp, by simp⟩
  case colon =>
    have : c = ':' := by rcases ofChar_toChar hc with h | ⟨_, h⟩ <;> first | exact h.symm | cases h
    exact ⟨plain rfl _ (by simp [ichar, hcl, AS.toIS, hnb rfl]), fun _ => .inl this, by simp⟩
  all_goals
    unfold areserved
    simp only [RChar.isUseless, reduceCtorEq, beq_iff_eq, decide_false, Bool.or_self, Bool.not_false, if_true, Bool.or_true,
         Bool.true_or, Bool.not_true, Bool.false_eq_true, if_false, beq_self_eq_true]
    first
    | exact ⟨plain rfl _ (by simp [ichar, hcl, AS.toIS, hnb rfl]), by simp, by simp⟩
    | (have hbl := (ofChar_blank c).2 ⟨_, hc, rfl⟩
       rw [blank rfl]
       cases h : wantsSpace a.v.head?
       · simp only [Bool.false_eq_true, if_false]
         exact ⟨by simp only [AS.toIS, hbl], fun _ => .inr hbl, by simp⟩
       · simp only [if_true]
         exact ⟨by simp only [AS.toIS, hbl], by simp, by simp⟩)

theorem aloop_items {alpha : Char → Bool} (hA : AlphaOk alpha) (fuel : Nat) {a : AS} {cs : List Char}
    (h : a.v.head? = some (.char .colon) → a.pc = ':' ∨ isBlank a.pc = true) (hf : cs.length < fuel) :
    aloop alpha fuel a cs = irun alpha a.toIS (items cs) := by
  induction fuel generalizing a cs with
  | zero => omega
  | succ fuel ih =>
    cases cs with
    | nil =>
      rw [aloop, afill_toIS hA h]; rfl
    | cons c cs =>
      rw [aloop]
      simp only [List.length_cons] at hf
      cases hc : RChar.ofChar c with
      | none =>
        rw [items_word cs hc, irun, istep, hc]
        exact ih (a := { a with w := a.w ++ [c] }) h (by omega)
      | some rc =>
        simp only
        rw [afill_toIS hA h]
        have := areserved_items (alpha := alpha) (st := a.toIS) (cs := cs)
          (a := { a with v := ifill alpha a.toIS, media := a.media || ((ifill alpha a.toIS).head?.getD (.char .space)).isMedia })
          hc rfl rfl rfl rfl
        revert this
        cases areserved { a with v := ifill alpha a.toIS, media := a.media || ((ifill alpha a.toIS).head?.getD (.char .space)).isMedia }
            c rc cs with
        | ok p =>
          obtain ⟨a', cs'⟩ := p
          rintro ⟨e1, e2, e3⟩
          rw [e1]
          exact ih e2 (by simp only; omega)
        | err e =>
          intro e1
          rw [e1]; rfl
        | panic w => exact False.elim

/-- The tokenizer is the machine over the items. -/
theorem rawTokens_items {alpha : Char → Bool} (hA : AlphaOk alpha) (s : List Char) :
    rawTokens alpha s = (irun alpha {} (items s) >>= fun v => .ok v.reverse) := by
  rw [(rawTokens_eq alpha s).1, aloop_items hA _ (by simp) (by omega)]
  rfl

end Verif.Css
