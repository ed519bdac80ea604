import Verif.Model.Css
import Verif.Spec.Css
/-!
# The CSS tokenizer without byte offsets

`aloop` does what `loop` does, on characters instead of offsets into the source; `loop_eq` shows that the two agree,
so that no slice is ever out of range or off a character boundary.
-/
set_option linter.unusedSimpArgs false

namespace Verif.Css

theorem ofChar_size {c : Char} {rc : RChar} (h : RChar.ofChar c = some rc) : c.utf8Size = 1 := by
  unfold RChar.ofChar at h
  split at h <;> first | rfl | (simp at h)

theorem ofChar_toChar {c : Char} {rc : RChar} (h : RChar.ofChar c = some rc) :
    rc.toChar = c ∨ (c = '\r' ∧ rc = .backline) := by
  unfold RChar.ofChar at h
  split at h <;> simp at h <;> subst h <;> simp [RChar.toChar]

theorem toChar_ofChar (rc : RChar) : RChar.ofChar rc.toChar = some rc := by
  cases rc <;> rfl

/-- The variables of `tokenize`: `w` is the text since `start`, `pc` the character before it. -/
structure AS where
  v : List Token := []
  pc : Char := ' '
  w : List Char := []
  blk : Int := 0
  media : Bool := false
  attr : Bool := false

/-- Are words selectors here? -/
def AS.inSel (st : AS) : Bool := !st.attr && ((st.blk == 0 && !st.media) || (st.media && st.blk == 1))

/-- `fill_other`. -/
def afill (alpha : Char → Bool) (st : AS) : List Token :=
  if st.w = [] then st.v
  else if st.inSel then
    if st.v.head? = some (.char .colon) then
      match Sel.ofStr alpha (st.pc :: st.w) with
      | some s => .sel s :: st.v.tail
      | none => .other st.w :: st.v
    else
      match Sel.ofStr alpha st.w with
      | some s => .sel s :: st.v
      | none => .other st.w :: st.v
  else .other st.w :: st.v

/-- A string literal up to and with its closing quote, and what follows. -/
def takeStr (q : RChar) : List Char → Option (List Char × List Char)
  | [] => none
  | [c] => if c == '\\' then none else if RChar.ofChar c == some q then some ([c], []) else none
  | c :: d :: cs =>
    if c == '\\' then (takeStr q cs).map fun p => (c :: d :: p.1, p.2)
    else if RChar.ofChar c == some q then some ([c], d :: cs)
    else (takeStr q (d :: cs)).map fun p => (c :: p.1, p.2)

/-- The text up to `*/` (`star`: the character before was a star), and what follows. -/
def takeCom (star : Bool) : List Char → Option (List Char × List Char)
  | [] => none
  | c :: cs =>
    if c = '/' ∧ star = true then some ([c], cs)
    else (takeCom (c == '*') cs).map fun p => (c :: p.1, p.2)

/-- A comment after its opening, as a token. -/
def acomment (cs : List Char) : Option (Token × List Char) :=
  match cs with
  | [] => none
  | c :: cs =>
    if c == '!' || (c == '*' && cs.head? != some '/') then
      (takeCom false cs).map fun p => (.license (p.1.dropLast.dropLast), p.2)
    else
      (takeCom (c == '*') cs).map fun p => (.comment ((c :: p.1).dropLast.dropLast), p.2)

/-- What a reserved character does. -/
def areserved (st : AS) (c : Char) (rc : RChar) (cs : List Char) : Out (AS × List Char) :=
  let st' : AS := { st with pc := c, w := [] }
  match rc with
  | .backslash =>
    match cs with
    | d :: cs => .ok ({ st' with v := .other [d] :: .char .backslash :: st.v }, cs)
    | [] => .ok ({ st' with v := .char .backslash :: st.v }, [])
  | .quote | .doubleQuote =>
    match takeStr rc cs with
    | some (b, cs) => .ok ({ st' with v := .str (c :: b) :: st.v }, cs)
    | none => .err "Unclosed string"
  | .slash =>
    if cs.head? = some '*' then
      match acomment cs.tail with
      | some (t, cs) => .ok ({ st' with v := t :: st.v }, cs)
      | none => .err "Unclosed comment"
    else .ok ({ st' with v := .char rc :: st.v }, cs)
  | .openBracket =>
    if st.attr then .err "Already in attribute selector"
    else .ok ({ st' with attr := true, v := .char rc :: st.v }, cs)
  | .closeBracket =>
    if !st.attr then .err "Unexpected ']'"
    else .ok ({ st' with attr := false, v := .char rc :: st.v }, cs)
  | .openCurly => .ok ({ st' with blk := st.blk + 1, v := .char rc :: st.v }, cs)
  | .closeCurly =>
    if st.blk - 1 < 0 then .err "Too much '}'"
    else .ok ({ st' with blk := st.blk - 1, media := if st.blk - 1 = 0 then false else st.media, v := .char rc :: st.v }, cs)
  | .semiColon =>
    .ok ({ st' with media := if st.blk = 0 then false else st.media, v := .char rc :: st.v }, cs)
  | .equalSign =>
    match selOpOf st.v with
    | some r => .ok ({ st' with v := .selOp r :: st.v.tail }, cs)
    | none => .ok ({ st' with v := .char rc :: st.v }, cs)
  | rc =>
    if !rc.isUseless then .ok ({ st' with v := .char rc :: st.v }, cs)
    else if wantsSpace st.v.head? then .ok ({ st' with v := .char .space :: st.v }, cs)
    else .ok (st', cs)

/-- The loop of `tokenize` on characters. -/
def aloop (alpha : Char → Bool) : Nat → AS → List Char → Out (List Token)
  | 0, _, _ => .panic "out of fuel"
  | _ + 1, st, [] => .ok (afill alpha st)
  | fuel + 1, st, c :: cs =>
    match RChar.ofChar c with
    | none => aloop alpha fuel { st with w := st.w ++ [c] } cs
    | some rc => do
      let v := afill alpha st
      let (st, cs) ← areserved { st with v := v, media := st.media || (v.head?.getD (.char .space)).isMedia } c rc cs
      aloop alpha fuel st cs

/-! ## `loop` and `aloop` agree -/

theorem takeStr_append {q : RChar} {cs b r : List Char} (h : takeStr q cs = some (b, r)) : cs = b ++ r := by
  induction cs using takeStr.induct q generalizing b r with
  | case1 => simp [takeStr] at h
  | case2 c h1 => simp [takeStr, h1] at h
  | case3 c h1 h2 =>
    simp only [takeStr, h1, h2, if_true, Bool.false_eq_true, if_false, Option.some.injEq, Prod.mk.injEq] at h
    obtain ⟨rfl, rfl⟩ := h; rfl
  | case4 c h1 h2 => simp [takeStr, h1, h2] at h
  | case5 c d cs hc ih =>
    simp only [takeStr, hc, if_true, Option.map_eq_some_iff] at h
    obtain ⟨⟨b', r'⟩, h1, h2⟩ := h
    simp only [Prod.mk.injEq] at h2
    rw [← h2.1, ← h2.2, ih h1]; rfl
  | case6 c d cs hc hq =>
    simp only [takeStr, hc, hq, if_true, Bool.false_eq_true, if_false, Option.some.injEq, Prod.mk.injEq] at h
    obtain ⟨rfl, rfl⟩ := h; rfl
  | case7 c d cs hc hq ih =>
    simp only [takeStr, hc, hq, Option.map_eq_some_iff, Bool.false_eq_true, if_false] at h
    obtain ⟨⟨b', r'⟩, h1, h2⟩ := h
    simp only [Prod.mk.injEq] at h2
    rw [← h2.1, ← h2.2, ih h1]; rfl

theorem takeStr_last {q : RChar} {cs b r : List Char} (h : takeStr q cs = some (b, r)) :
    ∃ b' c, b = b' ++ [c] ∧ RChar.ofChar c = some q := by
  induction cs using takeStr.induct q generalizing b r with
  | case1 => simp [takeStr] at h
  | case2 c h1 => simp [takeStr, h1] at h
  | case3 c h1 h2 =>
    simp only [takeStr, h1, h2, if_true, Bool.false_eq_true, if_false, Option.some.injEq, Prod.mk.injEq] at h
    exact ⟨[], c, h.1.symm, by simpa using h2⟩
  | case4 c h1 h2 => simp [takeStr, h1, h2] at h
  | case5 c d cs hc ih =>
    simp only [takeStr, hc, if_true, Option.map_eq_some_iff] at h
    obtain ⟨⟨b', r'⟩, h1, h2⟩ := h
    simp only [Prod.mk.injEq] at h2
    obtain ⟨b'', c', e1, e2⟩ := ih h1
    exact ⟨c :: d :: b'', c', by rw [← h2.1, e1]; rfl, e2⟩
  | case6 c d cs hc hq =>
    simp only [takeStr, hc, hq, if_true, Bool.false_eq_true, if_false, Option.some.injEq, Prod.mk.injEq] at h
    exact ⟨[], c, h.1.symm, by simpa using hq⟩
  | case7 c d cs hc hq ih =>
    simp only [takeStr, hc, hq, Option.map_eq_some_iff, Bool.false_eq_true, if_false] at h
    obtain ⟨⟨b', r'⟩, h1, h2⟩ := h
    simp only [Prod.mk.injEq] at h2
    obtain ⟨b'', c', e1, e2⟩ := ih h1
    exact ⟨c :: b'', c', by rw [← h2.1, e1]; rfl, e2⟩

theorem getString_spec (source p0 m : List Char) (q : RChar) (cs : List Char) (hs : source = p0 ++ (m ++ cs)) :
    getString source (blen p0) q (indicesFrom (blen p0 + blen m) cs) =
      match takeStr q cs with
      | none => .ok none
      | some (b, r) => .ok (some (.str (m ++ b), blen p0 + blen m + blen b - 1,
          indicesFrom (blen p0 + blen m + blen b) r)) := by
  induction cs using takeStr.induct q generalizing m with
  | case1 => rfl
  | case2 c h1 => simp [indicesFrom, getString, takeStr, h1]
  | case3 c h1 h2 =>
    have hsz := ofChar_size (by simpa using h2 : RChar.ofChar c = some q)
    have : slice source (blen p0) (blen p0 + blen m + 1) = some (m ++ [c]) :=
      slice_append' (t := []) (by simpa using hs) rfl (by simp [hsz]; omega)
    simp [indicesFrom, getString, takeStr, h1, h2, sub, this, Out.ofOption, hsz]
  | case4 c h1 h2 => simp [indicesFrom, getString, takeStr, h1, h2]
  | case5 c d cs hc ih =>
    simp only [indicesFrom, getString, takeStr, hc, if_true]
    have := ih (m ++ [c, d]) (by simpa using hs)
    have e1 : blen p0 + blen (m ++ [c, d]) = blen p0 + blen m + c.utf8Size + d.utf8Size := by simp; omega
    rw [e1] at this
    rw [this]
    rcases takeStr q cs with _ | ⟨b, r⟩
    · rfl
    · simp [Nat.add_assoc]
  | case6 c d cs hc hq =>
    have hsz := ofChar_size (by simpa using hq : RChar.ofChar c = some q)
    have : slice source (blen p0) (blen p0 + blen m + 1) = some (m ++ [c]) :=
      slice_append' (t := d :: cs) (by simpa using hs) rfl (by simp [hsz]; omega)
    simp [indicesFrom, getString, takeStr, hc, hq, sub, this, Out.ofOption, hsz]
  | case7 c d cs hc hq ih =>
    simp only [takeStr, hc, hq, Bool.false_eq_true, if_false]
    have := ih (m ++ [c]) (by simpa using hs)
    have e1 : blen p0 + blen (m ++ [c]) = blen p0 + blen m + c.utf8Size := by simp; omega
    rw [e1] at this
    rw [indicesFrom, indicesFrom, getString]
    simp only [hc, hq, Bool.false_eq_true, if_false]
    rw [indicesFrom] at this
    rw [this]
    rcases takeStr q (d :: cs) with _ | ⟨b, r⟩
    · rfl
    · simp [Nat.add_assoc]

theorem takeCom_append {st : Bool} {cs b r : List Char} (h : takeCom st cs = some (b, r)) : cs = b ++ r := by
  induction cs generalizing st b r with
  | nil => simp [takeCom] at h
  | cons c cs ih =>
    simp only [takeCom] at h
    split at h
    · simp at h; obtain ⟨rfl, rfl⟩ := h; rfl
    · rw [Option.map_eq_some_iff] at h
      obtain ⟨⟨b', r'⟩, h1, h2⟩ := h
      simp only [Prod.mk.injEq] at h2
      rw [← h2.1, ← h2.2, ih h1]; rfl

theorem takeCom_last {st : Bool} {cs b r : List Char} (h : takeCom st cs = some (b, r)) :
    (∃ b', b = b' ++ ['*', '/']) ∨ (st = true ∧ b = ['/']) := by
  induction cs generalizing st b r with
  | nil => simp [takeCom] at h
  | cons c cs ih =>
    simp only [takeCom] at h
    split at h
    · rename_i hc
      simp at h; obtain ⟨rfl, rfl⟩ := h
      right; simp [hc]
    · rw [Option.map_eq_some_iff] at h
      obtain ⟨⟨b', r'⟩, h1, h2⟩ := h
      simp only [Prod.mk.injEq] at h2
      rcases ih h1 with ⟨b'', e⟩ | ⟨e1, e2⟩
      · left; exact ⟨c :: b'', by rw [← h2.1, e]; rfl⟩
      · left; refine ⟨[], ?_⟩
        rw [← h2.1, e2]
        simpa using e1

theorem ofChar_slash (c : Char) : (RChar.ofChar c = some .slash) ↔ c = '/' := by
  constructor
  · intro h; rcases ofChar_toChar h with h | h
    · exact h.symm
    · simp at h
  · rintro rfl; rfl

theorem ofChar_star (c : Char) : (RChar.ofChar c = some .star) ↔ c = '*' := by
  constructor
  · intro h; rcases ofChar_toChar h with h | h
    · exact h.symm
    · simp at h
  · rintro rfl; rfl

/-- `m` is the text since the start of the body; `prev` is a star exactly when `m` ends in one. -/
theorem commentLoop_spec (source p0 m : List Char) (lic : Bool) (prev : RChar) (cs : List Char)
    (hs : source = p0 ++ (m ++ cs)) (hm : prev = .star → ∃ m', m = m' ++ ['*']) :
    commentLoop source lic (blen p0) prev (indicesFrom (blen p0 + blen m) cs) =
      match takeCom (prev == .star) cs with
      | none => .ok none
      | some (b, r) => .ok (some (if lic then .license (m ++ b).dropLast.dropLast else .comment (m ++ b).dropLast.dropLast,
          blen p0 + blen m + blen b - 1, indicesFrom (blen p0 + blen m + blen b) r)) := by
  induction cs generalizing m prev with
  | nil => rfl
  | cons c cs ih =>
    rw [indicesFrom, commentLoop, takeCom]
    have step : ∀ prev' : RChar, (prev' = .star ↔ c = '*') →
        commentLoop source lic (blen p0) prev' (indicesFrom (blen p0 + blen m + c.utf8Size) cs) =
        match (takeCom (c == '*') cs).map (fun p => (c :: p.1, p.2)) with
        | none => .ok none
        | some (b, r) => .ok (some (if lic then .license (m ++ b).dropLast.dropLast else .comment (m ++ b).dropLast.dropLast,
            blen p0 + blen m + blen b - 1, indicesFrom (blen p0 + blen m + blen b) r)) := by
      intro prev' hp
      have := ih (m ++ [c]) prev' (by simpa using hs) (fun h => ⟨m, by rw [hp.1 h]⟩)
      have e1 : blen p0 + blen (m ++ [c]) = blen p0 + blen m + c.utf8Size := by simp; omega
      have e2 : (prev' == .star) = (c == '*') := by
        rw [Bool.eq_iff_iff]; simpa using hp
      rw [e1, e2] at this
      rw [this]
      rcases takeCom (c == '*') cs with _ | ⟨b, r⟩
      · rfl
      · simp [Nat.add_assoc]
    cases hc : RChar.ofChar c with
    | none =>
      have h1 : c ≠ '/' := by rintro rfl; simp [RChar.ofChar] at hc
      have h2 : c ≠ '*' := by rintro rfl; simp [RChar.ofChar] at hc
      simp only
      rw [step .space (by simp [h2])]
      simp [h1]
    | some rc =>
      simp only
      have hsl := ofChar_slash c
      have hst := ofChar_star c
      rw [hc] at hsl hst
      simp only [Option.some.injEq] at hsl hst
      by_cases hk : c = '/' ∧ (prev == .star) = true
      · obtain ⟨m', rfl⟩ := hm (by simpa using hk.2)
        have hsz : c.utf8Size = 1 := ofChar_size hc
        have hpos : blen p0 + blen (m' ++ ['*']) ≠ 0 := by
          have : Char.utf8Size '*' = 1 := rfl
          simp [this]
        have hsub : slice source (blen p0) (blen p0 + blen (m' ++ ['*']) - 1) = some m' := by
          refine slice_append' (t := '*' :: c :: cs) (by simpa using hs) rfl ?_
          have : Char.utf8Size '*' = 1 := rfl
          simp [this]
        have hcond : (rc == .slash && prev == .star) = true := by simp [hsl.2 hk.1, hk.2]
        rw [if_pos hcond, if_pos hk]
        simp only [hpos, if_false, sub, hsub, Out.ofOption, Out.bind_ok, Out.pure_eq]
        have e3 : (m' ++ ['*'] ++ [c]).dropLast.dropLast = m' := by simp
        rw [e3]
        cases lic <;> simp [hsz]
      · have hcond : ¬ (rc == .slash && prev == .star) = true := by
          simp only [Bool.and_eq_true, beq_iff_eq]
          intro h; exact hk ⟨hsl.1 h.1, by simpa using h.2⟩
        rw [if_neg hcond, if_neg hk]
        exact step rc hst

theorem getComment_spec (source p0 : List Char) (cs : List Char) (hs : source = p0 ++ ('*' :: cs)) :
    getComment source (indicesFrom (blen p0 + 1) cs) (blen p0) =
      match acomment cs with
      | none => .ok none
      | some (t, r) => .ok (some (t, blen source - blen r - 1, indicesFrom (blen source - blen r) r)) := by
  have hstar : Char.utf8Size '*' = 1 := rfl
  cases cs with
  | nil => rfl
  | cons c cs =>
    rw [indicesFrom, getComment, acomment]
    have hhead : ((indicesFrom (blen p0 + 1 + c.utf8Size) cs).head?.map Prod.snd) = cs.head? := by
      cases cs <;> rfl
    simp only [hhead]
    split
    · rename_i hc
      have hsz : c.utf8Size = 1 := by
        rw [Bool.or_eq_true] at hc
        rcases hc with h | h
        · simp at h; subst h; rfl
        · simp at h; rw [h.1]; rfl
      have := commentLoop_spec source (p0 ++ ['*', c]) [] true .quote cs (by simpa using hs) (by simp)
      simp only [blen_append, blen_cons, blen_nil, hstar, hsz, Nat.add_zero, List.nil_append] at this
      rw [hsz, show blen p0 + 1 + 1 = blen p0 + (1 + 1) by omega, this]
      rw [show (RChar.quote == RChar.star) = false from rfl]
      cases ht : takeCom false cs with
      | none => rfl
      | some p =>
        obtain ⟨b, r⟩ := p
        have happ := takeCom_append ht
        simp only [Option.map_some]
        have e : blen source - blen r = blen p0 + (1 + 1) + blen b := by
          rw [hs, happ]; simp [hstar, hsz]; omega
        rw [e]; simp
    · rename_i hc
      have hgen : ∀ prev : RChar, (prev = .star ↔ c = '*') →
          commentLoop source false (blen p0 + 1) prev (indicesFrom (blen p0 + 1 + c.utf8Size) cs) =
          match (takeCom (c == '*') cs).map (fun p => (Token.comment ((c :: p.1).dropLast.dropLast), p.2)) with
          | none => .ok none
          | some (t, r) => .ok (some (t, blen source - blen r - 1, indicesFrom (blen source - blen r) r)) := by
        intro prev hp
        have := commentLoop_spec source (p0 ++ ['*']) [c] false prev cs (by simpa using hs)
          (fun h => ⟨[], by rw [hp.1 h]; rfl⟩)
        simp only [blen_append, blen_cons, blen_nil, hstar, Nat.add_zero] at this
        rw [this]
        have e2 : (prev == .star) = (c == '*') := by
          rw [Bool.eq_iff_iff]; simpa using hp
        rw [e2]
        cases ht : takeCom (c == '*') cs with
        | none => rfl
        | some p =>
          obtain ⟨b, r⟩ := p
          have happ := takeCom_append ht
          simp only [Option.map_some]
          have e : blen source - blen r = blen p0 + 1 + c.utf8Size + blen b := by
            rw [hs, happ]; simp [hstar]; omega
          rw [e]; simp
      refine hgen _ ?_
      have hst := ofChar_star c
      cases ho : RChar.ofChar c with
      | none => rw [ho] at hst; simp at hst ⊢; exact hst
      | some rc => rw [ho] at hst; simpa using hst

/-- How the two states correspond when the characters `cs` are left. -/
structure Corr (source : List Char) (st : TS) (a : AS) (p0 cs : List Char) : Prop where
  src : source = p0 ++ (a.w ++ cs)
  start : st.start = blen p0
  v : st.v = a.v
  blk : st.isInBlock = a.blk
  media : st.isInMedia = a.media
  attr : st.isInAttr = a.attr
  colon : a.v.head? = some (.char .colon) → ∃ q, p0 = q ++ [a.pc] ∧ a.pc.utf8Size = 1

theorem fillOther_spec {alpha : Char → Bool} {source : List Char} {st : TS} {a : AS} {p0 cs : List Char}
    (h : Corr source st a p0 cs) : fillOther alpha source st (blen p0 + blen a.w) = .ok (afill alpha a) := by
  obtain ⟨h1, h2, h3, h4, h5, h6, h7⟩ := h
  unfold fillOther afill AS.inSel
  have hs1 : slice source (blen p0) (blen p0 + blen a.w) = some a.w := slice_append' h1 rfl rfl
  by_cases hw : a.w = []
  · rw [if_pos hw, if_neg (by rw [h2, hw]; simp), h3]
  · have hl := length_le_blen a.w
    have hl2 := List.length_pos_iff.2 hw
    rw [if_neg hw, if_pos (by rw [h2]; omega), h3, h4, h5, h6]
    split
    · by_cases hc : a.v.head? = some (.char .colon)
      · obtain ⟨q, hq, hsz⟩ := h7 hc
        have e1 : blen p0 = blen q + 1 := by rw [hq]; simp [hsz]
        have hs2 : slice source (blen p0 - 1) (blen p0 + blen a.w) = some (a.pc :: a.w) := by
          refine slice_append' (t := cs) (p := q) ?_ (by omega) (by simp [hsz]; omega)
          rw [h1, hq]; simp
        have hb : (a.v.head? == some (.char .colon)) = true := by rw [hc]; rfl
        have hn : ¬ blen p0 < 1 := by omega
        simp only [hb, if_true, h2, hn, if_false, sub, hs2, Out.ofOption, Out.bind_ok, hs1]
        split <;> simp_all [Out.ofOption]
      · have hb : (a.v.head? == some (.char .colon)) = false := by simpa using hc
        simp only [hb, Bool.false_eq_true, if_false, h2, sub, hs1, Out.ofOption, Out.bind_ok, Nat.sub_zero,
          Nat.not_lt_zero, hc]
        split <;> simp_all [Out.ofOption]
    · simp [h2, sub, hs1, Out.ofOption]

theorem afill_colon {alpha : Char → Bool} {a : AS} (h : (afill alpha a).head? = some (.char .colon)) :
    a.w = [] ∧ afill alpha a = a.v := by
  unfold afill at h ⊢
  by_cases hw : a.w = []
  · simp [hw]
  · simp only [hw, if_false] at h
    repeat' split at h
    all_goals simp at h

/-- The state after a token has been pushed that is not a colon. -/
theorem Corr.of_push {source : List Char} {st : TS} {a : AS} {p0 cs : List Char} (h1 : source = p0 ++ cs) (hw : a.w = [])
    (h2 : st.start = blen p0) (h3 : st.v = a.v) (h4 : st.isInBlock = a.blk) (h5 : st.isInMedia = a.media)
    (h6 : st.isInAttr = a.attr) (h7 : a.v.head? = some (.char .colon) → ∃ q, p0 = q ++ [a.pc] ∧ a.pc.utf8Size = 1) :
    Corr source st a p0 cs := ⟨by rw [hw]; simpa using h1, h2, h3, h4, h5, h6, h7⟩

theorem reserved_spec {source : List Char} {st : TS} {a : AS} {p0 : List Char} {c : Char} {rc : RChar} {cs : List Char}
    (hc : RChar.ofChar c = some rc) (hsrc : source = p0 ++ (c :: cs)) (h3 : st.v = a.v) (h4 : st.isInBlock = a.blk)
    (h5 : st.isInMedia = a.media) (h6 : st.isInAttr = a.attr) :
    match areserved a c rc cs with
    | .ok (a', cs') => ∃ st' p', reserved source st (blen p0) rc (indicesFrom (blen p0 + 1) cs) =
          .ok (st', indicesFrom (blen p' + blen a'.w) cs') ∧ Corr source st' a' p' cs' ∧ cs'.length ≤ cs.length
    | .err e => reserved source st (blen p0) rc (indicesFrom (blen p0 + 1) cs) = .err e
    | .panic _ => False := by
  have hsz : c.utf8Size = 1 := ofChar_size hc
  have hs1 : source = (p0 ++ [c]) ++ cs := by simpa using hsrc
  have hb1 : blen (p0 ++ [c]) = blen p0 + 1 := by simp [hsz]
  have colon1 : ∀ q, p0 ++ [c] = q → ∃ q', q = q' ++ [c] ∧ c.utf8Size = 1 := fun q hq => ⟨p0, hq.symm, hsz⟩
  -- the common case: push a token and go on after `c`
  have common : ∀ (st' : TS) (a' : AS), a'.w = [] → a'.pc = c → st'.start = blen p0 + 1 → st'.v = a'.v →
      st'.isInBlock = a'.blk → st'.isInMedia = a'.media → st'.isInAttr = a'.attr →
      ∃ st'' p', (Out.ok (st', indicesFrom (blen p0 + 1) cs) : Out (TS × Iter)) =
        .ok (st'', indicesFrom (blen p' + blen a'.w) cs) ∧ Corr source st'' a' p' cs ∧ cs.length ≤ cs.length := by
    intro st' a' e1 e2 e3 e4 e5 e6 e7
    refine ⟨st', p0 ++ [c], ?_, ?_, Nat.le_refl _⟩
    · rw [e1, hb1]; rfl
    · exact .of_push hs1 e1 (by rw [hb1, e3]) e4 e5 e6 e7 (fun _ => ⟨p0, by rw [e2], by rw [e2]; exact hsz⟩)
  have strings : ∀ q : RChar, RChar.ofChar c = some q → (q = .quote ∨ q = .doubleQuote) →
      match (match takeStr q cs with
        | some (b, cs) => (.ok (({ a with pc := c, w := [], v := .str (c :: b) :: a.v } : AS), cs) : Out (AS × List Char))
        | none => .err "Unclosed string") with
      | .ok (a', cs') => ∃ st' p', (do
          match ← getString source (blen p0) q (indicesFrom (blen p0 + 1) cs) with
          | some (s, pos, it) => return ({ st with v := s :: st.v, start := pos + 1 }, it)
          | none => .err "Unclosed string" : Out (TS × Iter)) =
            .ok (st', indicesFrom (blen p' + blen a'.w) cs') ∧ Corr source st' a' p' cs' ∧ cs'.length ≤ cs.length
      | .err e => (do
          match ← getString source (blen p0) q (indicesFrom (blen p0 + 1) cs) with
          | some (s, pos, it) => return ({ st with v := s :: st.v, start := pos + 1 }, it)
          | none => .err "Unclosed string" : Out (TS × Iter)) = .err e
      | .panic _ => False := by
    intro q hq _
    have := getString_spec source p0 [c] q cs (by simpa using hsrc)
    simp only [blen_cons, blen_nil, hsz, Nat.add_zero] at this
    rw [this]
    cases ht : takeStr q cs with
    | none => simp
    | some p =>
      obtain ⟨b, r⟩ := p
      have happ := takeStr_append ht
      obtain ⟨b', d, hb', hd⟩ := takeStr_last ht
      have hbl : 1 ≤ blen b := by rw [hb']; simp [ofChar_size hd]
      simp only [Out.bind_ok, Out.pure_eq]
      refine ⟨{ st with v := .str ([c] ++ b) :: st.v, start := blen p0 + 1 + blen b - 1 + 1 }, p0 ++ (c :: b), ?_, ?_,
        by rw [happ]; simp⟩
      · simp only [blen_append, blen_cons, hsz, blen_nil, Nat.add_zero]
        rw [show blen p0 + (1 + blen b) = blen p0 + 1 + blen b by omega]
      · refine .of_push (by rw [hsrc, happ]; simp) rfl ?_ (by simp [h3]) h4 h5 h6 (by simp)
        simp [hsz]; omega
  cases rc
  case backslash =>
    unfold areserved reserved
    cases cs with
    | nil =>
      simp only [indicesFrom]
      (show ∃ _ _, _ ∧ _ ∧ _; exact common _ _ (by rfl) (by rfl) (by rfl) (by simp [h3]) h4 h5 h6)
    | cons d cs =>
      simp only [indicesFrom]
      have hsub : slice source (blen p0 + 1) (blen p0 + 1 + d.utf8Size) = some [d] :=
        slice_append' (p := p0 ++ [c]) (t := cs) (by simpa using hsrc) (by rw [hb1]) (by rw [hb1]; simp)
      simp only [sub, hsub, Out.ofOption, Out.bind_ok, Out.pure_eq]
      refine ⟨{ st with v := .other [d] :: .char .backslash :: st.v, start := blen p0 + d.utf8Size + 1 }, p0 ++ [c, d], ?_, ?_,
        by simp⟩
      · simp [hsz, Nat.add_assoc]
      · refine .of_push (by simpa using hsrc) rfl ?_ (by simp [h3]) h4 h5 h6 (by simp)
        simp [hsz]; omega
  case quote =>
    have := strings .quote hc (.inl rfl)
    unfold areserved reserved
    exact this
  case doubleQuote =>
    have := strings .doubleQuote hc (.inr rfl)
    unfold areserved reserved
    exact this
  case slash =>
    unfold areserved reserved
    have hhead : ((indicesFrom (blen p0 + 1) cs).head?.map Prod.snd) = cs.head? := by
      cases cs <;> rfl
    simp only [hhead]
    by_cases hst : cs.head? = some '*'
    · obtain ⟨cs', rfl⟩ : ∃ cs', cs = '*' :: cs' := by
        cases cs with
        | nil => simp at hst
        | cons x xs => simp at hst; exact ⟨xs, by rw [hst]⟩
      have hstar : Char.utf8Size '*' = 1 := rfl
      have := getComment_spec source (p0 ++ [c]) cs' (by simpa using hsrc)
      rw [hb1] at this
      have hb : (('*' :: cs').head? == some '*') = true := by simp
      simp only [hb, if_true, hst, List.tail_cons, indicesFrom, hstar]
      rw [this]
      cases ht : acomment cs' with
      | none => simp
      | some p =>
        obtain ⟨t, r⟩ := p
        have happ : ∃ b, cs' = b ++ r ∧ t ≠ .char .colon := by
          unfold acomment at ht
          cases cs' with
          | nil => simp at ht
          | cons x xs =>
            simp only at ht
            split at ht
            · rw [Option.map_eq_some_iff] at ht
              obtain ⟨⟨b, r'⟩, e1, e2⟩ := ht
              simp only [Prod.mk.injEq] at e2
              refine ⟨x :: b, by rw [takeCom_append e1, e2.2]; rfl, by rw [← e2.1]; simp⟩
            · rw [Option.map_eq_some_iff] at ht
              obtain ⟨⟨b, r'⟩, e1, e2⟩ := ht
              simp only [Prod.mk.injEq] at e2
              refine ⟨x :: b, by rw [takeCom_append e1, e2.2]; rfl, by rw [← e2.1]; simp⟩
        obtain ⟨b, rfl, hne⟩ := happ
        simp only [Out.bind_ok, Out.pure_eq]
        have hbl : blen source - blen r = blen p0 + 1 + 1 + blen b := by
          rw [hsrc]; simp [hsz, hstar]; omega
        refine ⟨{ st with v := t :: st.v, start := blen source - blen r - 1 + 1 }, p0 ++ (c :: '*' :: b), ?_, ?_,
          by simp; omega⟩
        · rw [hbl]; simp only [blen_append, blen_cons, blen_nil, hsz, hstar, Nat.add_zero, List.head?_cons, beq_self_eq_true, if_true]
          rw [show blen p0 + (1 + (1 + blen b)) = blen p0 + 1 + 1 + blen b by omega]
        · refine .of_push (by rw [hsrc]; simp) rfl ?_ (by simp [h3]) h4 h5 h6 (by simp [hne])
          simp [hbl, hsz, hstar]; omega
    · have hb : (cs.head? == some '*') = false := by simpa using hst
      simp only [hb, Bool.false_eq_true, if_false, hst]
      simp only [Out.pure_eq]
      exact common { st with v := .char .slash :: st.v, start := blen p0 + 1 } { a with pc := c, w := [], v := .char .slash :: a.v } rfl rfl rfl (by simp [h3]) h4 h5 h6
  case openBracket =>
    unfold areserved reserved
    simp only [h6]
    cases a.attr
    · (show ∃ _ _, _ ∧ _ ∧ _; exact common _ _ (by rfl) (by rfl) (by rfl) (by simp [h3]) h4 h5 rfl)
    · simp
  case closeBracket =>
    unfold areserved reserved
    simp only [h6]
    cases a.attr
    · simp
    · (show ∃ _ _, _ ∧ _ ∧ _; exact common _ _ (by rfl) (by rfl) (by rfl) (by simp [h3]) h4 h5 rfl)
  case openCurly =>
    unfold areserved reserved
    (show ∃ _ _, _ ∧ _ ∧ _; exact common _ _ (by rfl) (by rfl) (by rfl) (by simp [h3]) (by simp [h4]) h5 h6)
  case closeCurly =>
    unfold areserved reserved
    simp only [h4]
    by_cases hb : a.blk - 1 < 0
    · simp [hb]
    · simp only [hb, if_false]
      exact common { st with isInBlock := a.blk - 1, isInMedia := if a.blk - 1 = 0 then false else st.isInMedia, v := .char .closeCurly :: st.v, start := blen p0 + 1 } { a with pc := c, w := [], blk := a.blk - 1, media := if a.blk - 1 = 0 then false else a.media, v := .char .closeCurly :: a.v } rfl rfl rfl (by simp [h3]) rfl (by simp [h5]) h6
  case semiColon =>
    unfold areserved reserved
    (show ∃ _ _, _ ∧ _ ∧ _; exact common _ _ (by rfl) (by rfl) (by rfl) (by simp [h3]) h4 (by simp [h4, h5]) h6)
  case equalSign =>
    unfold areserved reserved
    simp only [h3]
    cases selOpOf a.v with
    | none => (show ∃ _ _, _ ∧ _ ∧ _; exact common _ _ (by rfl) (by rfl) (by rfl) (by simp [h3]) h4 h5 h6)
    | some r => (show ∃ _ _, _ ∧ _ ∧ _; exact common _ _ (by rfl) (by rfl) (by rfl) (by simp [h3]) h4 h5 h6)
  all_goals
    unfold areserved reserved
    simp only [RChar.isUseless, h3, Operator.ofRChar]
    first
    | (show ∃ _ _, _ ∧ _ ∧ _; exact common _ _ (by rfl) (by rfl) (by rfl) (by simp [h3]) h4 h5 h6)
    | (simp only [reduceCtorEq, beq_iff_eq, decide_false, Bool.or_self, Bool.not_false, if_true, Bool.or_true,
         Bool.true_or, Bool.not_true, Bool.false_eq_true, if_false, beq_self_eq_true]
       cases wantsSpace a.v.head?
       · (show ∃ _ _, _ ∧ _ ∧ _; exact common _ _ (by rfl) (by rfl) (by rfl) rfl h4 h5 h6)
       · (show ∃ _ _, _ ∧ _ ∧ _; exact common _ _ (by rfl) (by rfl) (by rfl) (by simp [h3]) h4 h5 h6))

theorem loop_eq {alpha : Char → Bool} {source : List Char} (fuel : Nat) {st : TS} {a : AS} {p0 cs : List Char}
    (h : Corr source st a p0 cs) (hf : cs.length < fuel) :
    loop alpha source fuel st (indicesFrom (blen p0 + blen a.w) cs) = aloop alpha fuel a cs ∧
      (aloop alpha fuel a cs).isPanic = false := by
  induction fuel generalizing st a p0 cs with
  | zero => omega
  | succ fuel ih =>
    cases cs with
    | nil =>
      have hs : blen source = blen p0 + blen a.w := by rw [h.src]; simp
      rw [indicesFrom, loop, aloop, hs, fillOther_spec h]
      exact ⟨rfl, rfl⟩
    | cons c cs =>
      rw [indicesFrom, loop, aloop]
      simp only [List.length_cons] at hf
      cases hc : RChar.ofChar c with
      | none =>
        simp only
        have h' : Corr source st { a with w := a.w ++ [c] } p0 cs :=
          ⟨by simpa using h.src, h.start, h.v, h.blk, h.media, h.attr, h.colon⟩
        have := ih h' (by omega)
        have e : blen p0 + blen (a.w ++ [c]) = blen p0 + blen a.w + c.utf8Size := by simp; omega
        rw [← e]
        exact this
      | some rc =>
        simp only
        rw [fillOther_spec h]
        simp only [Out.bind_ok]
        have hsz : c.utf8Size = 1 := ofChar_size hc
        have := reserved_spec (source := source) (p0 := p0 ++ a.w) (c := c) (cs := cs)
          (st := { st with v := afill alpha a, isInMedia := st.isInMedia || ((afill alpha a).head?.getD (.char .space)).isMedia })
          (a := { a with v := afill alpha a, media := a.media || ((afill alpha a).head?.getD (.char .space)).isMedia })
          hc (by rw [h.src]; simp) rfl h.blk (by simp [h.media]) h.attr
        rw [blen_append] at this
        rw [hsz]
        revert this
        cases areserved { a with v := afill alpha a, media := a.media || ((afill alpha a).head?.getD (.char .space)).isMedia }
            c rc cs with
        | ok p =>
          obtain ⟨a', cs'⟩ := p
          rintro ⟨st', p', e1, e2, e3⟩
          rw [e1]
          simp only [Out.bind_ok]
          exact ih e2 (by omega)
        | err e =>
          intro e1
          rw [e1]
          exact ⟨rfl, rfl⟩
        | panic w => exact False.elim

theorem rawTokens_eq (alpha : Char → Bool) (s : List Char) :
    rawTokens alpha s = (aloop alpha (s.length + 1) {} s >>= fun v => .ok v.reverse) ∧
      (aloop alpha (s.length + 1) {} s).isPanic = false := by
  have h : Corr s {} {} [] s := ⟨rfl, rfl, rfl, rfl, rfl, rfl, by simp⟩
  have := loop_eq (alpha := alpha) (s.length + 1) h (by omega)
  refine ⟨?_, this.2⟩
  unfold rawTokens indices
  rw [← this.1]
  rfl

end Verif.Css
