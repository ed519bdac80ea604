import Verif.Proofs.JsBig
/-!
# Scripts that grow

An unfinished regular expression is put back character by character, but looking ahead after a dot goes on behind it: the dots behind
the line are read before the end of the line, and once more as a part of what follows it.
-/
set_option linter.unusedSimpArgs false

namespace Verif.Js

/-- A slash, a dot, a line feed and `m` dots. -/
def dots (m : Nat) : List Char := '/' :: '.' :: '\n' :: List.replicate m '.'

theorem sub_empty {source p t : List Char} {q : Nat} (hs : source = p ++ t) (hq : q = blen p) : sub source q q = .ok [] :=
  sub_eq (m := []) (by simpa using hs) hq (by simpa using hq)

theorem blen_dots (m : Nat) : blen (List.replicate m '.') = m := by
  induction m with
  | zero => rfl
  | succ m ih => rw [List.replicate_succ, blen_cons, ih]; rw [show ('.' : Char).utf8Size = 1 from rfl]; omega

theorem fill_none (source : List Char) (v : List Token) {start pos : Nat} (h : pos ≤ start) : fillOther source v start pos = .ok v := by
  unfold fillOther; rw [if_neg (by omega)]

/-- A dot that does not belong to a number, with `start` at `a`. -/
theorem dot_step {source w : List Char} {v v1 : List Token} {a q fuel : Nat} {it : Peek} (hsub : sub source a q = .ok w) (hw : w.contains '.' = false)
    (hn : parseU64 w = none) (hp : ∀ x, it.peek.1 = some x → lowByteIsDigit x.2 = false) (hf : fillOther source v a q = .ok v1)
    (hpk : it.peeked = none) :
    tokLoop source (fuel + 1) v a { it with peeked := some (q, '.') } = tokLoop source fuel (.char .dot :: v1) (q + 1) it.peek.2 := by
  have hnext : Peek.next { it with peeked := some (q, '.') } = (some (q, '.'), it) := by
    obtain ⟨i, s, p, b⟩ := it; cases hpk; rfl
  have hchk : checkIfNumber source it a q = .ok (false, it.peek.2) := by
    unfold checkIfNumber
    rw [hsub]
    simp only [Out.bind_ok, hw, hn, Bool.false_eq_true, if_false, Option.isSome]
    rcases he : it.peek with ⟨_ | x, it'⟩
    · rfl
    · have := hp x (by rw [he])
      simp only [this]
  have hdot : dotStep source v a q it .dot = .ok (some (v, a), it.peek.2) := by
    unfold dotStep dotCheck
    rw [if_pos (by rfl), hchk]; rfl
  have hofd : RChar.ofChar '.' = some .dot := rfl
  have hdef : defaultArm v1 .dot = .char .dot :: v1 := rfl
  rw [tokLoop, hnext]
  simp only [hofd, hdot, Out.bind_ok, hf]
  rfl

/-- The dots behind the line. -/
theorem dots_run (source P : List Char) (S : List (Nat × Char)) (j : Nat) : ∀ (fuel : Nat) (v : List Token) (i q : Nat),
    source = P ++ List.replicate (i + (j + 1)) '.' → q = blen P + i →
    tokLoop source (fuel + (j + 1)) v q ⟨indicesFrom (q + 1) (List.replicate j '.'), S, some (q, '.'), false⟩ =
      tokLoop source fuel (List.replicate (j + 1) (.char .dot) ++ v) (q + j + 1) ⟨[], S, none, false⟩ := by
  induction j with
  | zero =>
    intro fuel v i q hs hq
    have hsub : sub source q q = .ok [] :=
      sub_empty (p := P ++ List.replicate i '.') (t := ['.']) (by rw [hs, ← List.replicate_append_replicate]; simp) (by rw [hq, blen_append, blen_dots])
    have := dot_step (source := source) (v := v) (v1 := v) (a := q) (q := q) (fuel := fuel) (it := ⟨[], S, none, false⟩) hsub rfl rfl
      (by intro x hx; cases hx) (fill_none _ _ (Nat.le_refl _)) rfl
    exact this
  | succ j ih =>
    intro fuel v i q hs hq
    have hsub : sub source q q = .ok [] :=
      sub_empty (p := P ++ List.replicate i '.') (t := List.replicate (j + 1 + 1) '.') (by rw [hs, ← List.replicate_append_replicate]; simp) (by rw [hq, blen_append, blen_dots])
    have := dot_step (source := source) (v := v) (v1 := v) (a := q) (q := q) (fuel := fuel + (j + 1))
      (it := ⟨indicesFrom (q + 1) (List.replicate (j + 1) '.'), S, none, false⟩) hsub rfl rfl
      (by intro x hx; cases hx; exact (by decide : lowByteIsDigit '.' = false)) (fill_none _ _ (Nat.le_refl _)) rfl
    rw [show fuel + (j + 1 + 1) = fuel + (j + 1) + 1 by omega]
    refine Eq.trans this ?_
    have hpk : (Peek.peek ⟨indicesFrom (q + 1) (List.replicate (j + 1) '.'), S, none, false⟩).2 =
        ⟨indicesFrom (q + 1 + 1) (List.replicate j '.'), S, some (q + 1, '.'), false⟩ := rfl
    rw [hpk, ih fuel _ (i + 1) (q + 1) (by rw [hs]; congr 2; omega) (by omega)]
    rw [show q + 1 + j + 1 = q + (j + 1) + 1 by omega]
    congr 1
    rw [List.replicate_succ' (n := j + 1)]
    simp

theorem wordToken_dots (m : Nat) : wordToken (List.replicate (m + 1) '.') = .other (List.replicate (m + 1) '.') := by
  unfold wordToken
  have h1 : Keyword.ofStr (List.replicate (m + 1) '.') = none := by
    rw [List.replicate_succ]
    simp [Keyword.ofStr, keywordTable, List.lookup]
  have h2 : parseU64 (List.replicate (m + 1) '.') = none := by
    rw [List.replicate_succ]
    simp [parseU64, dropPlus, isDigit]
  have h3 : isF64 (List.replicate (m + 1) '.') = false := by
    rw [List.replicate_succ]
    have : ∀ l : List Char, dropSign ('.' :: l) = '.' :: l := fun _ => rfl
    simp [isF64, this, isDigit, lowerAscii]
  rw [h1, h2]; simp only [h3]; rfl

/-- All tokens. -/
theorem dots_tokens (m : Nat) : tokenize (dots (m + 1)) =
    .ok ([.op .divide, .char .dot, .other ['\n']] ++ List.replicate (m + 1) (.char .dot) ++ [.char .backline, .other (List.replicate (m + 1) '.')]) := by
  have hb : blen (dots (m + 1)) = m + 4 := by
    rw [dots, blen_cons, blen_cons, blen_cons, blen_dots]
    rw [show ('.' : Char).utf8Size = 1 from rfl, show ('/' : Char).utf8Size = 1 from rfl, show ('\n' : Char).utf8Size = 1 from rfl]; omega
  have e1 : ∀ fuel, tokLoop (dots (m + 1)) (fuel + 1) [] 0 { inner := indices (dots (m + 1)) } =
      tokLoop (dots (m + 1)) fuel [.op .divide] 1 ⟨indicesFrom 3 (List.replicate (m + 1) '.'), [(1, '.'), (2, '\n')], none, false⟩ := fun _ => rfl
  have hs : dots (m + 1) = ['/', '.', '\n'] ++ List.replicate (0 + (m + 1)) '.' := by simp [dots]
  have e2 : ∀ fuel, tokLoop (dots (m + 1)) (fuel + 1) [.op .divide] 1 ⟨indicesFrom 3 (List.replicate (m + 1) '.'), [(1, '.'), (2, '\n')], none, false⟩ =
      tokLoop (dots (m + 1)) fuel [.char .dot, .op .divide] 2 ⟨indicesFrom 4 (List.replicate m '.'), [(2, '\n')], some (3, '.'), false⟩ := fun _ => rfl
  have e3 : ∀ fuel, tokLoop (dots (m + 1)) (fuel + (m + 1)) [.char .dot, .op .divide] 2 ⟨indicesFrom 4 (List.replicate m '.'), [(2, '\n')], some (3, '.'), false⟩ =
      tokLoop (dots (m + 1)) fuel (List.replicate (m + 1) (.char .dot) ++ [.other ['\n'], .char .dot, .op .divide]) (m + 4) ⟨[], [(2, '\n')], none, false⟩ := by
    intro fuel
    have hsub : sub (dots (m + 1)) 2 3 = .ok ['\n'] := sub_eq (p := ['/', '.']) (t := List.replicate (m + 1) '.') rfl rfl rfl
    have hf : fillOther (dots (m + 1)) [.char .dot, .op .divide] 2 3 = .ok [.other ['\n'], .char .dot, .op .divide] := by
      unfold fillOther
      rw [if_pos (by decide), hsub]; rfl
    have hp : ∀ x, (Peek.peek ⟨indicesFrom 4 (List.replicate m '.'), [(2, '\n')], none, false⟩).1 = some x → lowByteIsDigit x.2 = false := by
      intro x hx
      cases m with
      | zero => cases hx
      | succ m => cases hx; exact (by decide : lowByteIsDigit '.' = false)
    have := dot_step (fuel := fuel + m) (it := ⟨indicesFrom 4 (List.replicate m '.'), [(2, '\n')], none, false⟩) hsub rfl rfl hp hf rfl
    refine Eq.trans this ?_
    cases m with
    | zero => rfl
    | succ m =>
      refine Eq.trans (dots_run (dots (m + 1 + 1)) ['/', '.', '\n'] [(2, '\n')] m fuel _ 1 4 (by rw [hs]; congr 2; omega) rfl) ?_
      rw [show 4 + m + 1 = m + 1 + 4 by omega]
      congr 1
      rw [List.replicate_succ' (n := m + 1)]
      simp
  have e4 : ∀ fuel v, tokLoop (dots (m + 1)) (fuel + 1) v (m + 4) ⟨[], [(2, '\n')], none, false⟩ =
      tokLoop (dots (m + 1)) fuel (.char .backline :: v) 3 ⟨[], [], none, false⟩ := by
    intro fuel v
    have hn : Peek.next ⟨[], [(2, '\n')], none, false⟩ = (some (2, '\n'), ⟨[], [], none, false⟩) := rfl
    have ho : RChar.ofChar '\n' = some .backline := rfl
    have hd : ∀ it, dotStep (dots (m + 1)) v (m + 4) 2 it .backline = .ok (some (v, m + 4), it) := fun _ => rfl
    rw [tokLoop, hn]
    simp only [ho, hd, Out.bind_ok, fill_none (dots (m + 1)) v (show 2 ≤ m + 4 by omega)]
    rfl
  have e5 : ∀ fuel v, tokLoop (dots (m + 1)) (fuel + 1) v 3 ⟨[], [], none, false⟩ = .ok (.other (List.replicate (m + 1) '.') :: v) := by
    intro fuel v
    have hn : Peek.next ⟨[], [], none, false⟩ = (none, ⟨[], [], none, false⟩) := rfl
    have hsub : sub (dots (m + 1)) 3 (blen (dots (m + 1))) = .ok (List.replicate (m + 1) '.') :=
      sub_eq (p := ['/', '.', '\n']) (t := []) (by simp [dots]) rfl (by rw [hb, blen_dots]; simp [blen, show '/'.utf8Size = 1 from rfl, show '.'.utf8Size = 1 from rfl, show '\n'.utf8Size = 1 from rfl]; omega)
    rw [tokLoop, hn]
    simp only [fillOther, hb]
    rw [if_pos (by omega), ← hb, hsub]
    simp only [Out.bind_ok, wordToken_dots]
  unfold tokenize
  dsimp only
  have hw : ({ inner := indices (dots (m + 1)) } : Peek).weight + 1 = (m + 4 + 1 + 1) + (m + 1) + 1 + 1 := by
    have : ∀ (s : List Char) n, (indicesFrom n s).length = s.length := by
      intro s
      induction s with
      | nil => intro n; rfl
      | cons c s ih => intro n; simp [indicesFrom, ih]
    simp [Peek.weight, indices, this, dots]; omega
  rw [hw, e1, e2, e3, e4, e5]
  simp

theorem display_dots (w : List Char) : ∀ k, displayFrom (some (.char .dot)) (List.replicate k (.char .dot) ++ [.other w]) = List.replicate k '.' ++ w := by
  intro k
  induction k with
  | zero => simp [displayFrom, spaceBefore, spaceAfter, Token.display, Token.isChar]
  | succ k ih =>
    have h : displayFrom (some (.char .dot)) (.char .dot :: (List.replicate k (.char .dot) ++ [.other w])) =
        '.' :: displayFrom (some (.char .dot)) (List.replicate k (.char .dot) ++ [.other w]) := by
      cases k <;> rfl
    rw [List.replicate_succ, List.cons_append, h, ih]; rfl

/-- The slash, the dot and the line feed stay, the dots behind it are doubled. -/
theorem dots_double (m : Nat) : minify (dots (m + 1)) = .ok (dots (2 * (m + 1))) := by
  unfold minify minifyTokens
  rw [dots_tokens]
  simp only [Out.bind_ok]
  congr 1
  have hf : ([Token.op Op.divide, .char .dot, .other ['\n']] ++ List.replicate (m + 1) (Token.char RChar.dot) ++ [Token.char RChar.backline, Token.other (List.replicate (m + 1) '.')] : List Token).filter keepTok
      = [Token.op Op.divide, .char .dot, .other ['\n']] ++ (List.replicate (m + 1) (Token.char .dot) ++ [Token.other (List.replicate (m + 1) '.')]) := by
    have h1 : (List.replicate (m + 1) (Token.char .dot)).filter keepTok = List.replicate (m + 1) (.char .dot) :=
      List.filter_eq_self.2 fun t ht => by rw [(List.mem_replicate.1 ht).2]; rfl
    rw [List.filter_append, List.filter_append, h1]; rfl
  rw [cleanTokens_eq, hf]
  have hd : ∀ ts, display (([Token.op Op.divide, Token.char .dot, Token.other ['\n']] ++ (List.replicate (m + 1) (Token.char .dot) ++ ts)).dropWhile (· == .char .semiColon)) =
      '/' :: '.' :: '\n' :: '.' :: displayFrom (some (.char .dot)) (List.replicate m (.char .dot) ++ ts) := by
    intro ts
    cases m with
    | zero => cases ts <;> rfl
    | succ m => rfl
  rw [hd, display_dots, List.replicate_append_replicate, dots, show 2 * (m + 1) = (m + (m + 1)) + 1 by omega]
  rfl

end Verif.Js
