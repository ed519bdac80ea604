import Verif.Proofs.JsOut
/-!
# Properties of the functions on token lists (C28, C29, C42, C43)
-/
set_option linter.unusedSimpArgs false
namespace Verif.Js

/-- Comments and blanks. -/
def useless : Token → Bool
  | .comment _ => true
  | .char .space => true
  | .char .tab => true
  | .char .backline => true
  | _ => false

theorem useless_eq (t : Token) : useless t = (t.isComment || t.isWhite) := by
  cases t with
  | char c => cases c <;> rfl
  | _ => rfl

theorem keepTok_useless (t : Token) : keepTok t = !useless t := by rw [useless_eq]; rfl

/-! ## C28 -/

/-- C28: `clean_tokens` removes the comments and blanks and the semicolons that are then first, and nothing else. -/
theorem C28_clean (ts : List Token) :
    cleanTokens ts = (ts.filter (fun t => !useless t)).dropWhile (· == .char .semiColon) := by
  rw [cleanTokens_eq]
  congr 1
  exact List.filter_congr fun t _ => keepTok_useless t

private theorem dropWhile_filter_of {α : Type} {p q : α → Bool} (l : List α) (h : ∀ t ∈ l, q t = true) :
    (l.dropWhile p).filter q = l.dropWhile p :=
  List.filter_eq_self.2 fun t ht => h t ((List.dropWhile_suffix p).subset ht)

private theorem dropWhile_dropWhile {α : Type} {p : α → Bool} (l : List α) : (l.dropWhile p).dropWhile p = l.dropWhile p := by
  induction l with
  | nil => rfl
  | cons x l ih =>
    rw [List.dropWhile_cons]
    split
    · exact ih
    · rename_i h; rw [List.dropWhile_cons, if_neg h]

/-- C28: cleaning twice changes nothing more. -/
theorem C28_idempotent (ts : List Token) : cleanTokens (cleanTokens ts) = cleanTokens ts := by
  rw [C28_clean, C28_clean, dropWhile_filter_of _ fun t ht => (List.mem_filter.1 ht).2, dropWhile_dropWhile]

/-- Not vacuous. -/
example : cleanTokens [.char .space, .char .semiColon, .comment ['x'], .char .semiColon, .other ['a'], .char .tab, .char .semiColon,
    .license ['l'], .char .semiColon, .char .backline] = [.other ['a'], .char .semiColon, .license ['l'], .char .semiColon] := by decide

/-! ## C29 -/

/-- Semicolons are read with the token behind them: one before a closing brace and one at the end are dropped; the token
behind it is kept whatever it is. -/
def pairs : List Token → List Token
  | [] => []
  | [.char .semiColon] => []
  | .char .semiColon :: n :: r => if n == .char .closeCurly then n :: pairs r else .char .semiColon :: n :: pairs r
  | t :: r => t :: pairs r

private theorem pairs_cons {t : Token} (r : List Token) (h : t ≠ .char .semiColon) : pairs (t :: r) = t :: pairs r := by
  rw [pairs]
  · rintro rfl; exact absurd rfl h
  · intro n r' h'; exact absurd h' h

private def keepF (f : Token → Bool) (t : Token) : Bool := !(useless t && f t)

private theorem getNextExcept_eq (f : Token → Bool) (ts : List Token) : getNextExcept f ts =
    match ts.dropWhile (fun t => !keepF f t) with
    | [] => none
    | t :: ts => some (t, ts) := by
  induction ts with
  | nil => rfl
  | cons t ts ih =>
    rw [getNextExcept, List.dropWhile_cons, ← useless_eq]
    have hk : keepF f t = !(useless t && f t) := rfl
    rw [hk]
    cases h : (useless t && f t) with
    | true => simpa using ih
    | false => simp

private theorem filter_dropWhileF (f : Token → Bool) (ts : List Token) :
    (ts.dropWhile (fun t => !keepF f t)).filter (keepF f) = ts.filter (keepF f) := by
  induction ts with
  | nil => rfl
  | cons t ts ih =>
    rw [List.dropWhile_cons]
    cases h : keepF f t with
    | true => simp [h]
    | false => simpa [h] using ih

private theorem dropWhile_head (f : Token → Bool) {t : Token} {us : List Token} : ∀ ts : List Token,
    ts.dropWhile (fun t => !keepF f t) = t :: us → keepF f t = true := by
  intro ts
  induction ts with
  | nil => intro h; cases h
  | cons x ts ih =>
    intro h
    rw [List.dropWhile_cons] at h
    cases hx : keepF f x with
    | true => simp [hx] at h; rw [← h.1, hx]
    | false => simp [hx] at h; exact ih h

/-- What comes out of the kept tokens `us` after the tokens `v`. -/
private def outF (f : Token → Bool) (v us : List Token) : List Token :=
  if f (.char .semiColon) then pairs (if v.isEmpty then us.dropWhile (· == .char .semiColon) else us) else us

private theorem outF_cons (f : Token → Bool) (v us : List Token) {t : Token} (h : t ≠ .char .semiColon) :
    outF f v (t :: us) = t :: outF f (t :: v) us := by
  unfold outF
  split
  · simp only [List.isEmpty_cons, Bool.false_eq_true, if_false]
    have : (t == Token.char .semiColon) = false := by simpa using h
    split
    · rw [List.dropWhile_cons, this]; simp only [Bool.false_eq_true, if_false]; exact pairs_cons _ h
    · exact pairs_cons _ h
  · rfl

private theorem cleanExceptLoop_eq (f : Token → Bool) : ∀ (n : Nat) (v ts : List Token), ts.length < n →
    (cleanExceptLoop f n v ts).reverse = v.reverse ++ outF f v (ts.filter (keepF f)) := by
  intro n
  induction n with
  | zero => intro v ts h; omega
  | succ n ih =>
    intro v ts hl
    rw [cleanExceptLoop, getNextExcept_eq, ← filter_dropWhileF]
    have hle : (ts.dropWhile (fun t => !keepF f t)).length ≤ ts.length := (List.dropWhile_suffix _).length_le
    have hk := fun t us => dropWhile_head f (t := t) (us := us) ts
    generalize ts.dropWhile (fun t => !keepF f t) = ds at hle hk
    cases ds with
    | nil => simp [outF, pairs]
    | cons t us =>
      have ht := hk t us rfl
      have hus : us.length < n := by simp at hle; omega
      simp only
      rw [List.filter_cons_of_pos ht]
      by_cases hw : t.isWhite = true
      · rw [if_pos hw]
        have hf : f t = false := by
          unfold keepF at ht
          rw [useless_eq, hw] at ht
          simpa using ht
        rw [hf]
        simp only [Bool.false_eq_true, if_false]
        rw [ih (t :: v) us hus, outF_cons]
        · simp
        · rintro rfl; cases hw
      · rw [if_neg hw]
        by_cases hs : (t.getChar == some .semiColon) = true
        · rw [if_pos hs]
          have he : t = .char .semiColon := by
            cases t with
            | char c => simp [Token.getChar] at hs; rw [hs]
            | _ => exact absurd hs (by simp [Token.getChar])
          subst he
          by_cases hv : v.isEmpty = true
          · rw [if_pos hv]
            cases hf : f (.char .semiColon) with
            | true =>
              simp only [Bool.not_true, Bool.false_eq_true, if_false]
              rw [ih v us hus]
              congr 1
              unfold outF
              rw [hf, hv]
              simp [List.dropWhile_cons]
            | false =>
              simp only [Bool.not_false, if_true]
              rw [ih _ us hus]
              unfold outF
              rw [hf]
              simp
          · rw [if_neg hv, getNextExcept_eq, ← filter_dropWhileF]
            have hle' : (us.dropWhile (fun t => !keepF f t)).length ≤ us.length := (List.dropWhile_suffix _).length_le
            have hk' := fun t us' => dropWhile_head f (t := t) (us := us') us
            generalize us.dropWhile (fun t => !keepF f t) = ds' at hle' hk'
            cases ds' with
            | nil =>
              simp only
              rw [ih _ [] (by simp at hle ⊢; omega)]
              unfold outF
              cases hf : f (.char .semiColon) <;> simp [hv, pairs]
            | cons nx us' =>
              simp only
              have hus' : us'.length < n := by simp at hle'; omega
              rw [ih _ us' hus', List.filter_cons_of_pos (hk' nx us' rfl)]
              unfold outF
              cases hf : f (.char .semiColon) with
              | false => simp
              | true =>
                simp only [List.isEmpty_cons, Bool.false_eq_true, if_false, hv, if_true, Bool.not_true, Bool.or_false, pairs]
                by_cases hn : nx = .char .closeCurly
                · subst hn; simp
                · have : (nx == Token.char .closeCurly) = false := by simpa using hn
                  simp [bne, this]
        · rw [if_neg hs, ih (t :: v) us hus, outF_cons]
          · simp
          · rintro rfl; exact hs rfl

/-- C29, exactly what `clean_tokens_except` does for every callback: a comment or blank is removed if the callback agrees.
If the callback does not agree to remove semicolons they are all kept; otherwise the first ones are removed and the others
are treated by `pairs`. -/
theorem C29_exact (f : Token → Bool) (ts : List Token) :
    cleanTokensExcept f ts =
      (let us := ts.filter (fun t => !(useless t && f t))
       if f (.char .semiColon) then pairs (us.dropWhile (· == .char .semiColon)) else us) := by
  unfold cleanTokensExcept
  rw [cleanExceptLoop_eq _ _ _ _ (Nat.lt_succ_self _)]
  have hk : keepF f = fun t => !(useless t && f t) := rfl
  simp only [outF, hk, List.reverse_nil, List.nil_append, List.isEmpty_nil, if_true]

/-- Not vacuous: every case of `pairs`. -/
example : cleanTokensExcept (fun t => t != .char .backline) [.char .semiColon, .char .backline, .char .semiColon, .char .closeCurly,
    .char .semiColon, .char .space, .char .semiColon, .char .closeCurly, .char .semiColon] =
    [.char .backline, .char .closeCurly, .char .semiColon, .char .semiColon, .char .closeCurly] := by decide

private theorem filter_pairs {q : Token → Bool} (hq : q (.char .semiColon) = false) (l : List Token) :
    (pairs l).filter q = l.filter q := by
  induction l using pairs.induct with
  | case1 => rfl
  | case2 => simp [pairs, hq]
  | case3 n r h ih => rw [pairs, if_pos h, List.filter_cons, List.filter_cons, List.filter_cons, ih]; simp [hq]
  | case4 n r h ih => rw [pairs, if_neg h]; simp only [List.filter_cons, ih, hq]
  | case5 t r h1 h2 ih =>
    rw [pairs, List.filter_cons, List.filter_cons, ih]
    · exact h1
    · exact h2

private theorem filter_dropWhile_of {q p : Token → Bool} (hq : ∀ t, p t = true → q t = false) (l : List Token) :
    (l.dropWhile p).filter q = l.filter q := by
  induction l with
  | nil => rfl
  | cons x l ih =>
    rw [List.dropWhile_cons]
    split
    · rename_i h; rw [ih, List.filter_cons, hq x h]; simp
    · rfl

/-- C29: the tokens that the callback wants, and those that are neither comments nor blanks nor semicolons, are all kept, in
order. -/
theorem C29_kept (f : Token → Bool) (ts : List Token) :
    let q := fun t => !f t || !(useless t || t == .char .semiColon)
    (cleanTokensExcept f ts).filter q = ts.filter q := by
  intro q
  have hus : (ts.filter (fun t => !(useless t && f t))).filter q = ts.filter q := by
    rw [List.filter_filter]
    refine List.filter_congr fun t _ => ?_
    simp only [q]
    cases f t <;> cases useless t <;> simp
  rw [C29_exact]
  simp only
  split
  · rename_i hf
    have hq : q (.char .semiColon) = false := by simp [q, hf]
    rw [filter_pairs hq, filter_dropWhile_of, hus]
    intro t ht
    rw [beq_iff_eq] at ht
    rw [ht, hq]
  · exact hus

private theorem pairs_sublist (l : List Token) : (pairs l).Sublist l := by
  induction l using pairs.induct with
  | case1 => exact .slnil
  | case2 => exact List.nil_sublist _
  | case3 n r h ih => rw [pairs, if_pos h]; exact .cons _ (.cons_cons _ ih)
  | case4 n r h ih => rw [pairs, if_neg h]; exact .cons_cons _ (.cons_cons _ ih)
  | case5 t r h1 h2 ih => rw [pairs.eq_4 t r h1 h2]; exact .cons_cons _ ih

/-- C29: nothing is added or moved. -/
theorem C29_sublist (f : Token → Bool) (ts : List Token) : (cleanTokensExcept f ts).Sublist ts := by
  rw [C29_exact]
  simp only
  split
  · exact (pairs_sublist _).trans ((List.dropWhile_sublist _).trans List.filter_sublist)
  · exact List.filter_sublist

def C29_full : Prop := ∀ ts, cleanTokensExcept (fun _ => true) ts = cleanTokens ts

/-- C29 does not hold: with a callback that never objects, the semicolons before a closing brace and at the end are removed
too. -/
theorem C29_full_false : ¬C29_full := fun h => absurd (h [.other ['a'], .char .semiColon]) (by decide)

/-- No semicolon is last or before a closing brace. -/
def innerSemis : List Token → Bool
  | [] => true
  | [t] => t != .char .semiColon
  | t :: n :: r => (t != .char .semiColon || n != .char .closeCurly) && innerSemis (n :: r)

private theorem innerSemis_tail {t : Token} {r : List Token} (h : innerSemis (t :: r) = true) : innerSemis r = true := by
  cases r with
  | nil => rfl
  | cons n r => rw [innerSemis, Bool.and_eq_true] at h; exact h.2

private theorem pairs_id (l : List Token) (h : innerSemis l = true) : pairs l = l := by
  induction l using pairs.induct with
  | case1 => rfl
  | case2 => cases h
  | case3 n r hn ih =>
    rw [beq_iff_eq] at hn
    subst hn
    simp [innerSemis] at h
  | case4 n r hn ih => rw [pairs, if_neg hn, ih (innerSemis_tail (innerSemis_tail h))]
  | case5 t r h1 h2 ih => rw [pairs.eq_4 t r h1 h2, ih (innerSemis_tail h)]

/-- C29, partial: if the callback never objects and no semicolon of the cleaned list is last or before a closing brace,
both functions agree. Missing are the lists with such a semicolon: they refute the full statement. -/
theorem C29_agree_partial (ts : List Token) (h : innerSemis (cleanTokens ts) = true) :
    cleanTokensExcept (fun _ => true) ts = cleanTokens ts := by
  rw [C28_clean] at *
  rw [C29_exact]
  simp only [Bool.and_true, if_true]
  exact pairs_id _ h

/-- The hypothesis can hold with semicolons in the list. -/
example : innerSemis (cleanTokens [.char .semiColon, .other ['a'], .char .space, .char .semiColon, .comment ['c'], .other ['b']]) = true ∧
    cleanTokens [.char .semiColon, .other ['a'], .char .space, .char .semiColon, .comment ['c'], .other ['b']] =
      [.other ['a'], .char .semiColon, .other ['b']] := by decide

/-- C29 for single tokens: `clean_token_except` keeps what `clean_token` keeps and what the callback wants. -/
theorem C29_single (f : Token → Bool) (t : Token) (next : Option Token) :
    cleanTokenExcept f t next = (!f t || !(useless t || (t == .char .semiColon && next == some (.char .closeCurly)))) := by
  have h : cleanToken t next = !(useless t || (t == .char .semiColon && next == some (.char .closeCurly))) := by
    unfold cleanToken
    cases t with
    | char c =>
      generalize hn : (next == some (.char .closeCurly)) = b
      have hn' : (next != some (.char .closeCurly)) = !b := by rw [bne, hn]
      simp only [Token.getChar, Token.isComment, hn']
      cases c <;> cases b <;> decide
    | _ => simp [Token.getChar, useless, Token.isComment]
  unfold cleanTokenExcept
  rw [h]
  cases f t <;> cases (useless t || (t == .char .semiColon && next == some (.char .closeCurly))) <;> rfl

example : cleanTokenExcept (fun _ => true) (.char .semiColon) (some (.char .closeCurly)) = false ∧
    cleanTokenExcept (fun _ => true) (.char .semiColon) none = true := by decide

/-! ## C42 -/

/-- What may stand between a name and its `=`, `,` or `;`: comments, spaces and tabs. -/
def gapToken : Token → Bool
  | .comment _ => true
  | .char .space => true
  | .char .tab => true
  | _ => false

/-- What `get_variable_name_and_value_positions` takes for a value. -/
def valueToken : Token → Bool
  | .str _ => true
  | .other _ => true
  | .regex _ _ _ => true
  | .number _ => true
  | .float _ => true
  | _ => false

/-- The tokens at positions `i ≤ k < j` exist and satisfy `p`. -/
def All (p : Token → Bool) (ts : List Token) (i j : Nat) : Prop := ∀ k, i ≤ k → k < j → ∃ t, ts[k]? = some t ∧ p t = true

/-- At position `n` stands a name that is assigned the value at position `v` (`some v`), or followed by a comma or semicolon
(`none`). -/
def Declares (ts : List Token) (n : Nat) (r : Option Nat) : Prop :=
  (∃ name, ts[n]? = some (.other name)) ∧
  ∃ e, n < e ∧ All gapToken ts (n + 1) e ∧
    match r with
    | some v => ts[e]? = some (.op .equal) ∧ e < v ∧ All useless ts (e + 1) v ∧ ∃ t, ts[v]? = some t ∧ valueToken t = true
    | none => ts[e]? = some (.char .comma) ∨ ts[e]? = some (.char .semiColon)

/-- The position from which names are looked for: after `var` or `let`, or at a name that is preceded (but for comments and
blanks) by a comma, `let`, `var`, or by nothing but the first token. -/
def StartsAt (ts : List Token) (pos start : Nat) : Prop :=
  ((ts[pos]? = some (.keyword .kLet) ∨ ts[pos]? = some (.keyword .kVar)) ∧ start = pos + 1) ∨
  ((∃ name, ts[pos]? = some (.other name)) ∧ start = pos ∧
    ∃ j, j < pos ∧ All useless ts (j + 1) pos ∧
      (j = 0 ∨ ts[j]? = some (.char .comma) ∨ ts[j]? = some (.keyword .kLet) ∨ ts[j]? = some (.keyword .kVar)))

private theorem All.cons {p : Token → Bool} {ts : List Token} {i j : Nat} {t : Token} (h : ts[i]? = some t) (hp : p t = true) :
    All p ts i j ↔ All p ts (i + 1) j := by
  constructor
  · intro ha k h1 h2; exact ha k (by omega) h2
  · intro ha k h1 h2
    by_cases hk : k = i
    · subst hk; exact ⟨t, h, hp⟩
    · exact ha k (by omega) h2

private theorem drop_cases {ts us : List Token} {i : Nat} (h : ts.drop i = us) :
    (us = [] ∧ ∀ k, i ≤ k → ts[k]? = none) ∨ ∃ t, us = t :: ts.drop (i + 1) ∧ ts[i]? = some t := by
  cases us with
  | nil =>
    left
    rw [List.drop_eq_nil_iff] at h
    exact ⟨rfl, fun k hk => List.getElem?_eq_none (by omega)⟩
  | cons t us =>
    right
    have hlt : i < ts.length := by
      refine Nat.lt_of_not_le fun hle => ?_
      rw [List.drop_eq_nil_of_le hle] at h; cases h
    rw [List.drop_eq_getElem_cons hlt] at h
    cases h
    exact ⟨_, rfl, List.getElem?_eq_getElem hlt⟩

private theorem valueScan_iff (ts : List Token) : ∀ (us : List Token) (i v : Nat), ts.drop i = us →
    (valueScan i us = some v ↔ i ≤ v ∧ All useless ts i v ∧ ∃ t, ts[v]? = some t ∧ valueToken t = true) := by
  intro us
  induction us with
  | nil =>
    intro i v h
    rcases drop_cases h with ⟨-, hn⟩ | ⟨t, ht, -⟩
    · rw [valueScan]
      constructor
      · intro h; cases h
      · rintro ⟨h1, -, t, h2, -⟩; rw [hn v h1] at h2; cases h2
    · cases ht
  | cons t us ih =>
    intro i v h
    rcases drop_cases h with ⟨h', -⟩ | ⟨t', ht, hi⟩
    · cases h'
    · cases ht
      have hv : (t.isStr || t.isOther || t.isRegex || t.isNumber || t.isFloat) = valueToken t := by cases t <;> rfl
      have hu : (!t.isComment && !t.isWhite) = !useless t := by rw [useless_eq]; simp
      have hx : ¬(valueToken t = true ∧ useless t = true) := by cases t <;> simp [valueToken, useless]
      rw [valueScan, hv, hu]
      by_cases h1 : valueToken t = true
      · rw [if_pos h1]
        constructor
        · intro h; cases h; exact ⟨Nat.le_refl _, by intro k; omega, t, hi, h1⟩
        · rintro ⟨h2, h3, -⟩
          by_cases h4 : i = v
          · rw [h4]
          · obtain ⟨t', h5, h6⟩ := h3 i (Nat.le_refl _) (by omega)
            rw [hi] at h5; cases h5
            exact absurd ⟨h1, h6⟩ hx
      · rw [if_neg h1]
        by_cases h2 : useless t = true
        · rw [h2]
          simp only [Bool.not_true, Bool.false_eq_true, if_false]
          rw [ih (i + 1) v rfl, ← All.cons hi h2]
          constructor
          · rintro ⟨h3, h4⟩; exact ⟨by omega, h4⟩
          · rintro ⟨h3, h4, t', h5, h6⟩
            refine ⟨?_, h4, t', h5, h6⟩
            by_cases h7 : i = v
            · subst h7; rw [hi] at h5; cases h5; exact absurd h6 h1
            · omega
        · have h2' : useless t = false := by simpa using h2
          rw [h2']
          simp only [Bool.not_false, if_true]
          constructor
          · intro h; cases h
          · rintro ⟨h3, h4, t', h5, h6⟩
            exfalso
            by_cases h7 : i = v
            · subst h7; rw [hi] at h5; cases h5; exact h1 h6
            · obtain ⟨t', h8, h9⟩ := h4 i (Nat.le_refl _) (by omega)
              rw [hi] at h8; cases h8
              exact h2 h9

/-- The condition of `Declares` on what follows the name. -/
private def After (ts : List Token) (i : Nat) (r : Option Nat) : Prop :=
  ∃ e, i ≤ e ∧ All gapToken ts i e ∧
    match r with
    | some v => ts[e]? = some (.op .equal) ∧ e < v ∧ All useless ts (e + 1) v ∧ ∃ t, ts[v]? = some t ∧ valueToken t = true
    | none => ts[e]? = some (.char .comma) ∨ ts[e]? = some (.char .semiColon)

private theorem after_end {ts : List Token} {i : Nat} {r : Option Nat} (h : After ts i r) {t : Token} (hi : ts[i]? = some t)
    (hg : gapToken t = false) :
    match r with
    | some v => t = .op .equal ∧ i + 1 ≤ v ∧ All useless ts (i + 1) v ∧ ∃ t, ts[v]? = some t ∧ valueToken t = true
    | none => t = .char .comma ∨ t = .char .semiColon := by
  obtain ⟨e, h1, h2, h3⟩ := h
  have he : e = i := by
    by_cases he : e = i
    · exact he
    · obtain ⟨t', h4, h5⟩ := h2 i (Nat.le_refl _) (by omega)
      rw [hi] at h4; cases h4
      rw [hg] at h5; cases h5
  subst he
  cases r with
  | none =>
    simp only at h3 ⊢
    rw [hi] at h3
    simpa using h3
  | some v =>
    simp only at h3 ⊢
    rw [hi] at h3
    exact ⟨by simpa using h3.1, h3.2⟩

private theorem nameScan_iff (ts : List Token) : ∀ (us : List Token) (i : Nat) (r : Option Nat), ts.drop i = us →
    (nameScan i us = some r ↔ After ts i r) := by
  intro us
  induction us with
  | nil =>
    intro i r h
    rcases drop_cases h with ⟨-, hn⟩ | ⟨t, ht, -⟩
    · rw [nameScan]
      constructor
      · intro h; cases h
      · rintro ⟨e, h1, -, h3⟩
        have := hn e h1
        cases r with
        | none => simp only [this] at h3; rcases h3 with h3 | h3 <;> cases h3
        | some v => simp only [this] at h3; cases h3.1
    · cases ht
  | cons t us ih =>
    intro i r h
    rcases drop_cases h with ⟨h', -⟩ | ⟨t', ht, hi⟩
    · cases h'
    · cases ht
      rw [nameScan]
      by_cases h1 : t = .op .equal
      · subst h1
        rw [if_pos (show ((Token.op .equal) == .op .equal) = true by decide)]
        have key : ∀ v, valueScan (i + 1) (ts.drop (i + 1)) = some v ↔ After ts i (some v) := by
          intro v
          rw [valueScan_iff ts _ (i + 1) v rfl]
          constructor
          · rintro ⟨h2, h3, h4⟩
            exact ⟨i, Nat.le_refl _, by intro k; omega, hi, h2, h3, h4⟩
          · intro h2
            exact (after_end h2 hi rfl).2
        cases hv : valueScan (i + 1) (ts.drop (i + 1)) with
        | some v =>
          constructor
          · intro h; cases h; exact (key v).1 hv
          · intro ha
            cases r with
            | none => rcases after_end ha hi rfl with h | h <;> cases h
            | some v' => rw [(key v').2 ha] at hv; cases hv; rfl
        | none =>
          constructor
          · intro h; cases h
          · intro ha
            cases r with
            | none => rcases after_end ha hi rfl with h | h <;> cases h
            | some v' => rw [(key v').2 ha] at hv; cases hv
      · rw [if_neg (by simpa using h1)]
        by_cases h2 : t = .char .comma ∨ t = .char .semiColon
        · rw [if_pos (by rcases h2 with rfl | rfl <;> decide)]
          constructor
          · intro h
            cases h
            refine ⟨i, Nat.le_refl _, by intro k; omega, ?_⟩
            rcases h2 with rfl | rfl
            · exact .inl hi
            · exact .inr hi
          · intro ha
            have hg : gapToken t = false := by rcases h2 with rfl | rfl <;> rfl
            cases r with
            | none => rfl
            | some v => exact absurd (after_end ha hi hg).1 h1
        · have h3 : ¬((t.getChar == some .comma || t.getChar == some .semiColon) = true) := by
            intro h3
            apply h2
            cases t with
            | char c => simpa [Token.getChar] using h3
            | _ => exact absurd h3 (by simp [Token.getChar])
          rw [if_neg h3]
          have hg : (!(t.isComment || (t.isWhite && t.getChar != some .backline))) = !gapToken t := by
            cases t with
            | char c => cases c <;> rfl
            | _ => rfl
          rw [hg]
          by_cases h4 : gapToken t = true
          · rw [h4]
            simp only [Bool.not_true, Bool.false_eq_true, if_false]
            rw [ih (i + 1) r rfl]
            constructor
            · rintro ⟨e, h5, h6, h7⟩
              exact ⟨e, by omega, (All.cons hi h4).2 h6, h7⟩
            · rintro ⟨e, h5, h6, h7⟩
              refine ⟨e, ?_, (All.cons hi h4).1 h6, h7⟩
              by_cases he : i = e
              · exfalso
                subst he
                cases r with
                | none =>
                  simp only [hi, Option.some.injEq] at h7
                  exact h2 h7
                | some v =>
                  simp only [hi, Option.some.injEq] at h7
                  exact h1 h7.1
              · omega
          · have h4' : gapToken t = false := by simpa using h4
            rw [h4']
            simp only [Bool.not_false, if_true]
            constructor
            · intro h; cases h
            · intro ha
              exfalso
              have := after_end ha hi h4'
              cases r with
              | none => exact h2 this
              | some v => exact h1 this.1

private theorem varScan_iff (ts : List Token) : ∀ (us : List Token) (i n : Nat) (r : Option Nat), ts.drop i = us →
    (varScan i us = some (n, r) ↔ i ≤ n ∧ Declares ts n r ∧ ∀ m, i ≤ m → m < n → ∀ r', ¬Declares ts m r') := by
  have hd : ∀ n r, Declares ts n r ↔ (∃ name, ts[n]? = some (.other name)) ∧ After ts (n + 1) r := by
    intro n r; rfl
  intro us
  induction us with
  | nil =>
    intro i n r h
    rcases drop_cases h with ⟨-, hn⟩ | ⟨t, ht, -⟩
    · rw [varScan]
      constructor
      · intro h; cases h
      · rintro ⟨h1, ⟨⟨name, h2⟩, -⟩, -⟩; rw [hn n h1] at h2; cases h2
    · cases ht
  | cons t us ih =>
    intro i n r h
    rcases drop_cases h with ⟨h', -⟩ | ⟨t', ht, hi⟩
    · cases h'
    · cases ht
      -- the rest, if nothing is declared here
      have step : (∀ r', ¬Declares ts i r') → (varScan (i + 1) (ts.drop (i + 1)) = some (n, r) ↔
          i ≤ n ∧ Declares ts n r ∧ ∀ m, i ≤ m → m < n → ∀ r', ¬Declares ts m r') := by
        intro hno
        rw [ih (i + 1) n r rfl]
        constructor
        · rintro ⟨h1, h2, h3⟩
          refine ⟨by omega, h2, fun m h4 h5 => ?_⟩
          by_cases hm : m = i
          · rw [hm]; exact hno
          · exact h3 m (by omega) h5
        · rintro ⟨h1, h2, h3⟩
          refine ⟨?_, h2, fun m h4 h5 => h3 m (by omega) h5⟩
          by_cases hm : i = n
          · subst hm; exact absurd h2 (hno r)
          · omega
      rw [varScan]
      cases ho : t.isOther with
      | false =>
        simp only [Bool.false_eq_true, if_false]
        refine step ?_
        rintro r' ⟨⟨name, h1⟩, -⟩
        rw [hi] at h1
        cases h1
        cases ho
      | true =>
        simp only [if_true]
        have hname : ∃ name, ts[i]? = some (.other name) := by
          cases t with
          | other s => exact ⟨s, hi⟩
          | _ => cases ho
        cases hn : nameScan (i + 1) (ts.drop (i + 1)) with
        | none =>
          simp only
          refine step ?_
          rintro r' h1
          rw [(nameScan_iff ts _ (i + 1) r' rfl).2 h1.2] at hn
          cases hn
        | some r0 =>
          simp only
          have hdec : Declares ts i r0 := ⟨hname, (nameScan_iff ts _ (i + 1) r0 rfl).1 hn⟩
          constructor
          · intro h
            cases h
            exact ⟨Nat.le_refl _, hdec, by intro m; omega⟩
          · rintro ⟨h1, h2, h3⟩
            have hin : i = n := by
              by_cases hin : i = n
              · exact hin
              · exact absurd hdec (h3 i (Nat.le_refl _) (by omega) r0)
            subst hin
            have := (nameScan_iff ts _ (i + 1) r rfl).2 h2.2
            rw [hn] at this
            cases this
            rfl

private theorem backScan_iff (ts : List Token) : ∀ p, p < ts.length → (backScan ts p = true ↔
    ∃ j, j ≤ p ∧ All useless ts (j + 1) (p + 1) ∧
      (j = 0 ∨ ts[j]? = some (.char .comma) ∨ ts[j]? = some (.keyword .kLet) ∨ ts[j]? = some (.keyword .kVar))) := by
  intro p
  induction p with
  | zero => intro _; rw [backScan]; simp only [true_iff]; exact ⟨0, Nat.le_refl _, by intro k; omega, .inl rfl⟩
  | succ p ih =>
    intro hp
    have hg := List.getElem?_eq_getElem hp
    rw [backScan, hg]
    simp only
    generalize ts[p + 1] = t at hg
    rw [← useless_eq]
    by_cases hu : useless t = true
    · rw [if_pos hu, ih (by omega)]
      constructor
      · rintro ⟨j, h1, h2, h3⟩
        refine ⟨j, by omega, fun k h4 h5 => ?_, h3⟩
        by_cases hk : k = p + 1
        · rw [hk]; exact ⟨t, hg, hu⟩
        · exact h2 k h4 (by omega)
      · rintro ⟨j, h1, h2, h3⟩
        refine ⟨j, ?_, fun k h4 h5 => h2 k h4 (by omega), h3⟩
        by_cases hj : j = p + 1
        · exfalso
          subst hj
          rw [hg] at h3
          rcases h3 with h3 | h3 | h3 | h3 <;> cases h3 <;> cases hu
        · omega
    · rw [if_neg hu]
      constructor
      · intro h
        refine ⟨p + 1, Nat.le_refl _, by intro k; omega, .inr ?_⟩
        rw [hg]
        simp only [Bool.or_eq_true, beq_iff_eq] at h
        rcases h with (h | h) | h
        · exact .inl (by rw [h])
        · exact .inr (.inl (by rw [h]))
        · exact .inr (.inr (by rw [h]))
      · rintro ⟨j, h1, h2, h3⟩
        have hj : j = p + 1 := by
          by_cases hj : j = p + 1
          · exact hj
          · obtain ⟨t', h4, h5⟩ := h2 (p + 1) (by omega) (Nat.lt_succ_self _)
            rw [hg] at h4; cases h4
            exact absurd h5 hu
        subst hj
        rw [hg] at h3
        rcases h3 with h3 | h3 | h3 | h3
        · cases h3
        all_goals cases h3; rfl

/-- C42: `get_variable_name_and_value_positions` answers exactly the first declaration from the starting point on, and
nothing if there is none. -/
theorem C42_positions (ts : List Token) (pos n : Nat) (r : Option Nat) :
    getVarPositions ts pos = some (n, r) ↔
      ∃ start, StartsAt ts pos start ∧ start ≤ n ∧ Declares ts n r ∧ ∀ m, start ≤ m → m < n → ∀ r', ¬Declares ts m r' := by
  unfold getVarPositions
  cases hp : ts[pos]? with
  | none =>
    simp only
    constructor
    · intro h; cases h
    · rintro ⟨start, (⟨h | h, -⟩ | ⟨⟨name, h⟩, -⟩), -⟩ <;> rw [hp] at h <;> cases h
  | some t =>
    have hlt : pos < ts.length := by
      refine Nat.lt_of_not_le fun hle => ?_
      rw [List.getElem?_eq_none hle] at hp; cases hp
    have kw : (t = .keyword .kLet ∨ t = .keyword .kVar) →
        (varScan (pos + 1) (ts.drop (pos + 1)) = some (n, r) ↔
          ∃ start, StartsAt ts pos start ∧ start ≤ n ∧ Declares ts n r ∧ ∀ m, start ≤ m → m < n → ∀ r', ¬Declares ts m r') := by
      intro ht
      rw [varScan_iff ts _ (pos + 1) n r rfl]
      constructor
      · intro h
        exact ⟨pos + 1, .inl ⟨by rw [hp]; simpa using ht, rfl⟩, h⟩
      · rintro ⟨start, (⟨-, rfl⟩ | ⟨⟨name, h⟩, -⟩), h'⟩
        · exact h'
        · rw [hp] at h; cases h; rcases ht with h | h <;> cases h
    have none_ : (∀ s, t ≠ .other s) → t ≠ .keyword .kLet → t ≠ .keyword .kVar → (none = some (n, r) ↔
          ∃ start, StartsAt ts pos start ∧ start ≤ n ∧ Declares ts n r ∧ ∀ m, start ≤ m → m < n → ∀ r', ¬Declares ts m r') := by
      intro h1 h2 h3
      constructor
      · intro h; cases h
      · rintro ⟨start, (⟨h | h, -⟩ | ⟨⟨name, h⟩, -⟩), -⟩ <;> rw [hp] at h <;> cases h
        · exact absurd rfl h2
        · exact absurd rfl h3
        · exact absurd rfl (h1 _)
    cases t with
    | keyword k =>
      cases k with
      | kLet => exact kw (.inl rfl)
      | kVar => exact kw (.inr rfl)
      | _ => exact none_ (by intro s h; cases h) (by intro h; cases h) (by intro h; cases h)
    | other s =>
      simp only
      by_cases h0 : 0 < pos
      · rw [if_pos h0]
        have hb := backScan_iff ts (pos - 1) (by omega)
        rw [Nat.sub_add_cancel h0] at hb
        by_cases hbs : backScan ts (pos - 1) = true
        · rw [if_pos hbs, varScan_iff ts _ pos n r rfl]
          obtain ⟨j, h1, h2, h3⟩ := hb.1 hbs
          constructor
          · intro h
            exact ⟨pos, .inr ⟨⟨s, hp⟩, rfl, j, by omega, h2, h3⟩, h⟩
          · rintro ⟨start, (⟨h | h, -⟩ | ⟨-, rfl, -⟩), h'⟩
            · rw [hp] at h; cases h
            · rw [hp] at h; cases h
            · exact h'
        · rw [if_neg hbs]
          constructor
          · intro h; cases h
          · rintro ⟨start, (⟨h | h, -⟩ | ⟨-, rfl, j, h1, h2, h3⟩), -⟩
            · rw [hp] at h; cases h
            · rw [hp] at h; cases h
            · exact absurd (hb.2 ⟨j, by omega, h2, h3⟩) hbs
      · rw [if_neg h0]
        constructor
        · intro h; cases h
        · rintro ⟨start, (⟨h | h, -⟩ | ⟨-, rfl, j, h1, -⟩), -⟩
          · rw [hp] at h; cases h
          · rw [hp] at h; cases h
          · omega
    | _ => exact none_ (by intro s h; cases h) (by intro h; cases h) (by intro h; cases h)

/-- Not vacuous: the second variable of `var x /*c*/ = 1, y = "2"` and one without value. -/
example : getVarPositions [.keyword .kVar, .char .space, .other ['x'], .comment ['c'], .op .equal, .char .space, .number 1,
      .char .comma, .char .space, .other ['y'], .op .equal, .str ['"', '2', '"']] 9 = some (9, some 11) ∧
    getVarPositions [.keyword .kVar, .other ['z'], .char .semiColon] 0 = some (1, none) := by decide +kernel

/-! ## C43 -/

/-- C43: `replace_tokens_with` replaces the tokens one by one. -/
theorem C43_replace (f : Token → Option Token) (ts : List Token) :
    (replaceTokensWith f ts).length = ts.length ∧
    ∀ (i : Nat) (t : Token), ts[i]? = some t → (replaceTokensWith f ts)[i]? = some ((f t).getD t) := by
  induction ts with
  | nil => exact ⟨rfl, fun i t h => by simp at h⟩
  | cons x ts ih =>
    refine ⟨by simp [replaceTokensWith, ih.1], ?_⟩
    intro i t h
    cases i with
    | zero =>
      simp only [List.getElem?_cons_zero, Option.some.injEq] at h
      subst h
      simp only [replaceTokensWith, List.getElem?_cons_zero, Option.some.injEq]
      cases f x <;> rfl
    | succ i =>
      rw [List.getElem?_cons_succ] at h
      simp only [replaceTokensWith, List.getElem?_cons_succ]
      exact ih.2 i t h

/-- C43: `replace_token_with` does the same to one token. -/
theorem C43_single (f : Token → Option Token) (t : Token) : replaceTokensWith f [t] = [replaceTokenWith f t] := by
  simp only [replaceTokensWith, replaceTokenWith]

/-- Not vacuous. -/
example : replaceTokensWith (fun t => if t == .keyword .kNull then some (.other ['N']) else none)
    [.keyword .kNull, .char .comma, .keyword .kNull] = [.other ['N'], .char .comma, .other ['N']] := by decide

end Verif.Js
