import Verif.Proofs.JsGrow
/-!
# Scripts whose results are as large as their squares

Every dot of the line that was put back makes the reader look at one more parenthesis behind the line, and everything between the two
becomes a word.
-/
set_option linter.unusedSimpArgs false

namespace Verif.Js

/-- `).` again and again. -/
def stairs : Nat → List Char
  | 0 => []
  | k + 1 => ')' :: '.' :: stairs k

/-- A slash, `k` times `).`, a line feed and `k` parentheses. -/
def square (k : Nat) : List Char := '/' :: (stairs k ++ '\n' :: List.replicate k ')')

theorem size_paren : (')' : Char).utf8Size = 1 := rfl
theorem size_dot : ('.' : Char).utf8Size = 1 := rfl
theorem size_line : ('\n' : Char).utf8Size = 1 := rfl
theorem size_slash : ('/' : Char).utf8Size = 1 := rfl

theorem blen_parens (m : Nat) : blen (List.replicate m ')') = m := by
  induction m with
  | zero => rfl
  | succ m ih => rw [List.replicate_succ, blen_cons, ih, size_paren]; omega

theorem blen_stairs (m : Nat) : blen (stairs m) = 2 * m := by
  induction m with
  | zero => rfl
  | succ m ih => rw [stairs, blen_cons, blen_cons, ih, size_paren, size_dot]; omega

theorem stairs_append (i j : Nat) : stairs (i + j) = stairs i ++ stairs j := by
  induction i with
  | zero => simp [stairs]
  | succ i ih => rw [show i + 1 + j = (i + j) + 1 by omega, stairs, stairs, ih]; rfl

theorem blen_square (k : Nat) : blen (square k) = 3 * k + 2 := by
  rw [square, blen_cons, blen_append, blen_cons, blen_stairs, blen_parens, size_slash, size_line]; omega

/-- A word that begins with a parenthesis or a line feed is nothing special. -/
theorem wordToken_paren {c : Char} (hc : c = ')' ∨ c = '\n') (w : List Char) : wordToken (c :: w) = .other (c :: w) := by
  unfold wordToken
  have h1 : Keyword.ofStr (c :: w) = none := by
    rcases hc with rfl | rfl <;> simp [Keyword.ofStr, keywordTable, List.lookup]
  have h2 : parseU64 (c :: w) = none := by
    rcases hc with rfl | rfl <;> simp [parseU64, dropPlus, isDigit]
  have h3 : isF64 (c :: w) = false := by
    have h : ∀ l : List Char, dropSign (')' :: l) = ')' :: l := fun _ => rfl
    have h' : ∀ l : List Char, dropSign ('\n' :: l) = '\n' :: l := fun _ => rfl
    rcases hc with rfl | rfl <;> simp [isF64, h, h', isDigit, lowerAscii]
  rw [h1, h2]; simp only [h3]; rfl

/-- The sizes of the tokens that are printed. -/
def sizes (ts : List Token) : Nat := ((ts.filter keepTok).map fun t => blen t.display).sum

theorem sizes_append (a b : List Token) : sizes (a ++ b) = sizes a + sizes b := by
  simp [sizes]

theorem sizes_reverse (a : List Token) : sizes a.reverse = sizes a := by
  induction a with
  | nil => rfl
  | cons t a ih =>
    rw [List.reverse_cons, sizes_append, ih, show t :: a = [t] ++ a from rfl, sizes_append]; omega

/-- A closing parenthesis. -/
theorem paren_step {source : List Char} {v v1 : List Token} {a q fuel : Nat} {it it' : Peek} (hn : it.next = (some (q, ')'), it'))
    (hf : fillOther source v a q = .ok v1) :
    tokLoop source (fuel + 1) v a it = tokLoop source fuel (.char .closeParen :: v1) (q + 1) it' := by
  have ho : RChar.ofChar ')' = some .closeParen := rfl
  have hd : dotStep source v a q it' .closeParen = .ok (some (v, a), it') := rfl
  have hr : reserved source v1 it' q .closeParen = .ok (.char .closeParen :: v1, it', q) := rfl
  rw [tokLoop, hn]
  simp only [ho, hd, Out.bind_ok, hf, hr]

/-- A line feed. -/
theorem line_step {source : List Char} {v v1 : List Token} {a q fuel : Nat} {it it' : Peek} (hn : it.next = (some (q, '\n'), it'))
    (hf : fillOther source v a q = .ok v1) :
    tokLoop source (fuel + 1) v a it = tokLoop source fuel (.char .backline :: v1) (q + 1) it' := by
  have ho : RChar.ofChar '\n' = some .backline := rfl
  have hd : dotStep source v a q it' .backline = .ok (some (v, a), it') := rfl
  have hr : reserved source v1 it' q .backline = .ok (.char .backline :: v1, it', q) := rfl
  rw [tokLoop, hn]
  simp only [ho, hd, Out.bind_ok, hf, hr]

/-- A dot that begins where the last token ended. -/
theorem saved_dot {source : List Char} {v : List Token} {q fuel : Nat} {it it' : Peek} (hn : it.next = (some (q, '.'), it'))
    (hsub : sub source q q = .ok []) (hp : ∀ x, it'.peek.1 = some x → lowByteIsDigit x.2 = false) :
    tokLoop source (fuel + 1) v q it = tokLoop source fuel (.char .dot :: v) (q + 1) it'.peek.2 := by
  have hchk : checkIfNumber source it' q q = .ok (false, it'.peek.2) := by
    unfold checkIfNumber
    rw [hsub]
    have h1 : ([] : List Char).contains '.' = false := rfl
    have h2 : parseU64 [] = none := rfl
    simp only [Out.bind_ok, h1, h2, Bool.false_eq_true, if_false, Option.isSome]
    rcases he : it'.peek with ⟨_ | x, it''⟩
    · rfl
    · have := hp x (by rw [he])
      simp only [this]
  have hdot : dotStep source v q q it' .dot = .ok (some (v, q), it'.peek.2) := by
    unfold dotStep dotCheck
    rw [if_pos (by rfl), hchk]; rfl
  have hofd : RChar.ofChar '.' = some .dot := rfl
  have hr : reserved source v it'.peek.2 q .dot = .ok (.char .dot :: v, it'.peek.2, q) := rfl
  rw [tokLoop, hn]
  simp only [hofd, hdot, Out.bind_ok, fill_none source v (Nat.le_refl q), hr]

/-- The pairs and the parentheses are read in turns. -/
theorem stairs_run (k j : Nat) : ∀ (i fuel : Nat) (v : List Token) (st : Nat), i + j = k → 1 + 2 * i ≤ st →
    ∃ v' st', tokLoop (square k) (fuel + 3 * j) v st
        ⟨indicesFrom (2 * k + 2 + i) (List.replicate j ')'), indicesFrom (1 + 2 * i) (stairs j ++ ['\n']), none, false⟩ =
      tokLoop (square k) fuel (v' ++ v) st' ⟨[], [(2 * k + 1, '\n')], none, false⟩ ∧ 2 * k + 1 ≤ st' ∧ j * k ≤ sizes v' := by
  induction j with
  | zero =>
    intro i fuel v st hk hst
    obtain rfl : i = k := by omega
    exact ⟨[], st, by rw [show 2 * i + 1 = 1 + 2 * i by omega]; rfl, by omega, by simp⟩
  | succ j ih =>
    intro i fuel v st hk hst
    have hsq : square k = ('/' :: stairs i) ++ (')' :: '.' :: (stairs j ++ '\n' :: (List.replicate i ')' ++ List.replicate (j + 1) ')'))) := by
      rw [square, List.replicate_append_replicate, hk, ← hk, stairs_append, stairs]; simp
    have hA : blen ('/' :: stairs i) = 1 + 2 * i := by rw [blen_cons, blen_stairs, size_slash]
    -- the word between the dot and the parenthesis
    have hB : blen (stairs j ++ '\n' :: List.replicate i ')') = 2 * j + 1 + i := by
      rw [blen_append, blen_cons, blen_stairs, blen_parens, size_line]; omega
    obtain ⟨c, w, hc, hw⟩ : ∃ c w, (c = ')' ∨ c = '\n') ∧ stairs j ++ '\n' :: List.replicate i ')' = c :: w := by
      cases j with
      | zero => exact ⟨_, _, .inr rfl, rfl⟩
      | succ j => exact ⟨_, _, .inl rfl, rfl⟩
    have hsub : sub (square k) (1 + 2 * i + 2) (2 * k + 2 + i) = .ok (stairs j ++ '\n' :: List.replicate i ')') :=
      sub_eq (p := ('/' :: stairs i) ++ [')', '.']) (t := List.replicate (j + 1) ')') (by rw [hsq]; simp)
        (by rw [blen_append, hA]; rfl) (by rw [blen_append, hA, hB]; simp [blen, size_paren, size_dot]; omega)
    have hsub1 : sub (square k) (1 + 2 * i + 1) (1 + 2 * i + 1) = .ok [] :=
      sub_empty (p := ('/' :: stairs i) ++ [')']) (by rw [hsq]; simp; rfl) (by rw [blen_append, hA]; rfl)
    have hfill : ∀ v, fillOther (square k) v (1 + 2 * i + 2) (2 * k + 2 + i) = .ok (.other (c :: w) :: v) := by
      intro v
      unfold fillOther
      rw [if_pos (by omega), hsub]
      simp only [Out.bind_ok, hw, wordToken_paren hc]
    have e1 := paren_step (source := square k) (v := v) (a := st) (fuel := fuel + 3 * j + 1 + 1) (it :=
        ⟨indicesFrom (2 * k + 2 + i) (List.replicate (j + 1) ')'), indicesFrom (1 + 2 * i) (stairs (j + 1) ++ ['\n']), none, false⟩) rfl
        (fill_none _ _ hst)
    have e2 := saved_dot (source := square k) (v := .char .closeParen :: v) (q := 1 + 2 * i + 1) (fuel := fuel + 3 * j + 1) (it :=
        ⟨indicesFrom (2 * k + 2 + i) (List.replicate (j + 1) ')'), indicesFrom (1 + 2 * i + 1) ('.' :: (stairs j ++ ['\n'])), none, false⟩) rfl
        hsub1 (by intro x hx; cases hx; exact (by decide : lowByteIsDigit ')' = false))
    have e3 := paren_step (source := square k) (v := .char .dot :: .char .closeParen :: v) (a := 1 + 2 * i + 2) (fuel := fuel + 3 * j) (it :=
        ⟨indicesFrom (2 * k + 2 + i + 1) (List.replicate j ')'), indicesFrom (1 + 2 * i + 2) (stairs j ++ ['\n']), some (2 * k + 2 + i, ')'), false⟩) rfl
        (hfill _)
    obtain ⟨v', st', h1, h2, h3⟩ := ih (i + 1) fuel (.char .closeParen :: .other (c :: w) :: .char .dot :: .char .closeParen :: v)
      (2 * k + 2 + i + 1) (by omega) (by omega)
    refine ⟨v' ++ [.char .closeParen, .other (c :: w), .char .dot, .char .closeParen], st', ?_, h2, ?_⟩
    · rw [show fuel + 3 * (j + 1) = fuel + 3 * j + 1 + 1 + 1 by omega]
      refine Eq.trans e1 (Eq.trans e2 (Eq.trans e3 ?_))
      rw [List.append_assoc]
      exact h1
    · have : sizes [.char .closeParen, .other (c :: w), .char .dot, .char .closeParen] = 1 + (blen (c :: w) + 2) := by
        show 1 + (blen (c :: w) + (1 + (1 + 0))) = _
        omega
      rw [sizes_append, this, ← hw, hB, Nat.add_mul]; omega

/-- The search for the end of a regular expression puts the line aside. -/
theorem regex_line (source : List Char) (sp : Nat) (t cs : List Char) : ∀ (fuel n : Nat) (S : Iter), (∀ c ∈ cs, c = ')' ∨ c = '.') →
    cs.length < fuel →
    regexLoop source sp fuel ⟨indicesFrom n (cs ++ '\n' :: t), S, none, true⟩ =
      .ok (none, ⟨indicesFrom (n + blen cs + 1) t, S ++ indicesFrom n (cs ++ ['\n']), none, false⟩) := by
  induction cs with
  | nil =>
    intro fuel n S _ hf
    cases fuel with
    | zero => simp at hf
    | succ fuel => rfl
  | cons c cs ih =>
    intro fuel n S hc hf
    cases fuel with
    | zero => simp at hf
    | succ fuel =>
      have h1 : regexLoop source sp (fuel + 1) ⟨indicesFrom n (c :: cs ++ '\n' :: t), S, none, true⟩ =
          regexLoop source sp fuel ⟨indicesFrom (n + c.utf8Size) (cs ++ '\n' :: t), S ++ [(n, c)], none, true⟩ := by
        rcases hc c (by simp) with rfl | rfl <;> rfl
      rw [h1, ih fuel _ _ (fun d hd => hc d (by simp [hd])) (by simpa using hf)]
      simp [indicesFrom, Nat.add_assoc]

theorem stairs_mem (k : Nat) : ∀ c ∈ stairs k, c = ')' ∨ c = '.' := by
  induction k with
  | zero => intro c hc; simp [stairs] at hc
  | succ k ih =>
    intro c hc
    simp only [stairs, List.mem_cons] at hc
    rcases hc with rfl | rfl | hc
    · exact .inl rfl
    · exact .inr rfl
    · exact ih c hc

/-- The slash: the line behind it is put aside. -/
theorem square_first (k fuel : Nat) : tokLoop (square (k + 1)) (fuel + 1) [] 0 { inner := indices (square (k + 1)) } =
    tokLoop (square (k + 1)) fuel [.op .divide] 1
      ⟨indicesFrom (2 * (k + 1) + 2) (List.replicate (k + 1) ')'), indicesFrom 1 (stairs (k + 1) ++ ['\n']), none, false⟩ := by
  have hn : Peek.next { inner := indices (square (k + 1)) } =
      (some (0, '/'), ⟨indicesFrom 1 (stairs (k + 1) ++ '\n' :: List.replicate (k + 1) ')'), [], none, false⟩) := rfl
  have ho : RChar.ofChar '/' = some .slash := rfl
  have hd : ∀ it, dotStep (square (k + 1)) [] 0 0 it .slash = .ok (some ([], 0), it) := fun _ => rfl
  have hg : regexGuard ⟨indicesFrom 1 (stairs (k + 1) ++ '\n' :: List.replicate (k + 1) ')'), [], none, false⟩ [] =
      (true, ⟨indicesFrom 2 ('.' :: stairs k ++ '\n' :: List.replicate (k + 1) ')'), [], some (1, ')'), false⟩) := rfl
  have hl : (lastToken []).eqOp .divide = false := rfl
  have hr : getRegex (square (k + 1)) ⟨indicesFrom 2 ('.' :: stairs k ++ '\n' :: List.replicate (k + 1) ')'), [], some (1, ')'), false⟩ 0 [] =
      .ok (none, ⟨indicesFrom (2 * (k + 1) + 2) (List.replicate (k + 1) ')'), indicesFrom 1 (stairs (k + 1) ++ ['\n']), none, false⟩, 0) := by
    unfold getRegex
    have ha : regexAllowed [] = true := rfl
    rw [ha]
    simp only [Bool.not_true, Bool.false_eq_true, if_false]
    have hst : ∀ n, regexLoop (square (k + 1)) 0 (n + 1) (Peek.startSave ⟨indicesFrom 2 ('.' :: stairs k ++ '\n' :: List.replicate (k + 1) ')'), [], some (1, ')'), false⟩) =
        regexLoop (square (k + 1)) 0 n ⟨indicesFrom 2 ('.' :: stairs k ++ '\n' :: List.replicate (k + 1) ')'), [(1, ')')], none, true⟩ := fun _ => rfl
    rw [hst, regex_line _ _ _ ('.' :: stairs k) _ _ _ (fun c hc => stairs_mem (k + 1) c (by simp [stairs] at hc ⊢; exact .inr hc))
      (by simp [Peek.weight, Peek.startSave]; omega)]
    simp only [Out.bind_ok]
    rw [blen_cons, blen_stairs, size_dot, show 2 + (1 + 2 * k) + 1 = 2 * (k + 1) + 2 by omega]
    rfl
  rw [tokLoop, hn]
  simp only [ho, hd, Out.bind_ok, fill_none _ _ (Nat.le_refl 0), reserved, hl, Bool.false_eq_true, if_false, hg, if_true, hr]

/-- The tokens of such a script: their sizes add up to the square of `k` at least. -/
theorem square_tokens (k : Nat) : ∃ ts, tokenize (square (k + 1)) = .ok (.op .divide :: ts) ∧ (k + 1) * (k + 1) ≤ sizes ts := by
  have hw : ({ inner := indices (square (k + 1)) } : Peek).weight + 1 = (3 * k + 5 + 1 + 1) + 3 * (k + 1) + 1 := by
    have : ∀ k, (stairs k).length = 2 * k := by
      intro k
      induction k with
      | zero => rfl
      | succ k ih => simp [stairs, ih]; omega
    simp [Peek.weight, indices, this, square]; omega
  obtain ⟨v', st', h1, h2, h3⟩ := stairs_run (k + 1) (k + 1) 0 (3 * k + 5 + 1 + 1) [.op .divide] 1 (by omega) (by omega)
  have e3 := line_step (source := square (k + 1)) (v := v' ++ [.op .divide]) (a := st') (fuel := 3 * k + 5 + 1)
    (it := ⟨[], [(2 * (k + 1) + 1, '\n')], none, false⟩) rfl (fill_none _ _ h2)
  have e4 : ∀ fuel v, tokLoop (square (k + 1)) (fuel + 1) v (2 * (k + 1) + 1 + 1) ⟨[], [], none, false⟩ =
      .ok (wordToken (List.replicate (k + 1) ')') :: v) := by
    intro fuel v
    have hn : Peek.next ⟨[], [], none, false⟩ = (none, ⟨[], [], none, false⟩) := rfl
    have hsub : sub (square (k + 1)) (2 * (k + 1) + 1 + 1) (blen (square (k + 1))) = .ok (List.replicate (k + 1) ')') :=
      sub_eq (p := '/' :: (stairs (k + 1) ++ ['\n'])) (t := []) (by simp [square])
        (by rw [blen_cons, blen_append, blen_stairs, size_slash, blen_cons, size_line]; simp; omega)
        (by rw [blen_square, blen_cons, blen_append, blen_stairs, size_slash, blen_cons, size_line, blen_parens]; simp; omega)
    rw [tokLoop, hn]
    simp only [fillOther]
    rw [if_pos (by rw [blen_square]; omega), hsub]
    rfl
  refine ⟨v'.reverse ++ [.char .backline, wordToken (List.replicate (k + 1) ')')], ?_, ?_⟩
  · unfold tokenize
    dsimp only
    rw [hw, square_first]
    refine Eq.trans (congrArg (fun x => Out.bind x fun v => Out.ok v.reverse) (Eq.trans h1 (Eq.trans e3 (e4 _ _)))) ?_
    simp [Out.bind]
  · rw [sizes_append, sizes_reverse]; omega

theorem display_sizes (ts : List Token) : ∀ prev, (ts.map fun t => blen t.display).sum ≤ blen (displayFrom prev ts) := by
  induction ts with
  | nil => intro prev; simp [displayFrom]
  | cons t ts ih =>
    intro prev
    have := ih (some t)
    rw [displayFrom]
    simp only [blen_append, List.map_cons, List.sum_cons]
    omega

/-- The result is larger than the square of `k`. -/
theorem square_big (k : Nat) : ∃ out, minify (square (k + 1)) = .ok out ∧ (k + 1) * (k + 1) ≤ blen out := by
  obtain ⟨ts, h1, h2⟩ := square_tokens k
  refine ⟨display (cleanTokens (.op .divide :: ts)), by unfold minify minifyTokens; rw [h1]; rfl, ?_⟩
  rw [cleanTokens_eq]
  have : ((Token.op .divide :: ts).filter keepTok).dropWhile (· == .char .semiColon) = .op .divide :: ts.filter keepTok := rfl
  rw [this]
  refine Nat.le_trans h2 (Nat.le_trans ?_ (display_sizes _ none))
  rw [List.map_cons, List.sum_cons, sizes]
  exact Nat.le_add_left _ _

end Verif.Js
