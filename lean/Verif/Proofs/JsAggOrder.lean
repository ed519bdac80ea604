import Verif.Proofs.JsAggReread
/-!
# Aggregating strings before and after cleaning
-/
set_option linter.unusedSimpArgs false

namespace Verif.Js
open Spec.Js Spec.JsAgg

/-! ## Positions -/

/-- The position of a token among the tokens that are kept. -/
def rk (ts : List Token) (i : Nat) : Nat := ((ts.take i).filter keepTok).length

theorem rk_zero (ts : List Token) : rk ts 0 = 0 := rfl

theorem rk_succ {ts : List Token} {i : Nat} {t : Token} (h : ts[i]? = some t) : rk ts (i + 1) = rk ts i + if keepTok t then 1 else 0 := by
  unfold rk
  rw [List.take_add_one, h, List.filter_append, List.length_append]
  cases hk : keepTok t <;> simp [hk]

theorem rk_skip {ts : List Token} {i : Nat} {t : Token} (h : ts[i]? = some t) (hk : keepTok t = false) : rk ts (i + 1) = rk ts i := by
  rw [rk_succ h, hk]; rfl

theorem rk_next {ts : List Token} {i : Nat} {t : Token} (h : ts[i]? = some t) (hk : keepTok t = true) : rk ts (i + 1) = rk ts i + 1 := by
  rw [rk_succ h, hk]; rfl

theorem rk_le (ts : List Token) {i j : Nat} (h : i ≤ j) : rk ts i ≤ rk ts j := by
  unfold rk
  have : ts.take i = (ts.take j).take i := by rw [List.take_take, Nat.min_eq_left h]
  rw [this]
  exact ((List.take_sublist i (ts.take j)).filter keepTok).length_le

theorem rk_lt {ts : List Token} {i j : Nat} {t : Token} (h : ts[i]? = some t) (hk : keepTok t = true) (hij : i < j) : rk ts i < rk ts j := by
  have h1 := rk_next h hk
  have h2 := rk_le ts (i := i + 1) (j := j) hij
  omega

theorem rk_inj {ts : List Token} {i j : Nat} {t u : Token} (hi : ts[i]? = some t) (hj : ts[j]? = some u) (ht : keepTok t = true)
    (hu : keepTok u = true) : rk ts i = rk ts j ↔ i = j := by
  refine ⟨fun h => ?_, fun h => by rw [h]⟩
  rcases Nat.lt_trichotomy i j with h1 | h1 | h1
  · have := rk_lt hi ht h1; omega
  · exact h1
  · have := rk_lt hj hu h1; omega

theorem rk_drop (ts : List Token) (i : Nat) : (ts.filter keepTok).drop (rk ts i) = (ts.drop i).filter keepTok := by
  have h : ts.filter keepTok = (ts.take i).filter keepTok ++ (ts.drop i).filter keepTok := by
    rw [← List.filter_append, List.take_append_drop]
  rw [h]
  exact List.drop_left' rfl

theorem rk_get {ts : List Token} {i : Nat} {t : Token} (h : ts[i]? = some t) (hk : keepTok t = true) :
    (ts.filter keepTok)[rk ts i]? = some t := by
  have h1 := rk_drop ts i
  rw [filter_at h hk] at h1
  have h2 : ((ts.filter keepTok).drop (rk ts i))[0]? = some t := by rw [h1]; rfl
  rwa [List.getElem?_drop, Nat.add_zero] at h2

theorem rk_congr {a b : List Token} (h : a.map keepTok = b.map keepTok) (i : Nat) : rk a i = rk b i := by
  have e : ∀ l : List Token, rk l i = ((l.map keepTok).take i).countP id := by
    intro l
    rw [rk, ← List.map_take, List.countP_map, List.countP_eq_length_filter]; rfl
  rw [e, e, h]

theorem set_mask {ts : List Token} {p : Nat} {t u : Token} (h : ts[p]? = some t) (hk : keepTok t = keepTok u) :
    (ts.set p u).map keepTok = ts.map keepTok := by
  rw [List.map_set, ← hk]
  obtain ⟨h1, h2⟩ := List.getElem?_eq_some_iff.1 h
  apply List.ext_getElem
  · simp
  · intro n n1 n2
    rw [List.getElem_set]
    split
    · next e => subst e; simp [h2]
    · rfl

theorem filter_set {ts : List Token} {p : Nat} {t u : Token} (h : ts[p]? = some t) (ht : keepTok t = true) (hu : keepTok u = true) :
    (ts.set p u).filter keepTok = (ts.filter keepTok).set (rk ts p) u := by
  obtain ⟨h1, h2⟩ := List.getElem?_eq_some_iff.1 h
  have e : ts = ts.take p ++ t :: ts.drop (p + 1) := by
    have := List.drop_eq_getElem_cons h1
    rw [h2] at this
    rw [← this, List.take_append_drop]
  rw [List.set_eq_take_append_cons_drop, if_pos h1, List.filter_append, List.filter_cons_of_pos hu]
  have e2 : ts.filter keepTok = (ts.take p).filter keepTok ++ t :: (ts.drop (p + 1)).filter keepTok := by
    conv => lhs; rw [e]
    rw [List.filter_append, List.filter_cons_of_pos ht]
  rw [e2, rk, List.set_append_right _ _ (Nat.le_refl _), Nat.sub_self]
  rfl

theorem drop_cons {ts l : List Token} {i : Nat} {t : Token} (h : ts.drop i = t :: l) : ts[i]? = some t ∧ ts.drop (i + 1) = l := by
  have h1 : (ts.drop i)[0]? = some t := by rw [h]; rfl
  rw [List.getElem?_drop, Nat.add_zero] at h1
  refine ⟨h1, ?_⟩
  have : (ts.drop i).drop 1 = l := by rw [h]; rfl
  rwa [List.drop_drop] at this

/-! ## Declarations -/

private theorem not_useless {t : Token} (h : keepTok t = true) : useless t = false := by
  rw [keepTok_eq] at h; simpa using h

theorem valueScan_rk (ts : List Token) : ∀ (l : List Token) (i : Nat), ts.drop i = l →
    valueScan (rk ts i) (l.filter keepTok) = (valueScan i l).map (rk ts)
  | [], i, _ => rfl
  | t :: l, i, h => by
    obtain ⟨h1, h2⟩ := drop_cons h
    have ih := valueScan_rk ts l (i + 1) h2
    cases hk : keepTok t with
    | false =>
      rw [rk_skip h1 hk] at ih
      rw [List.filter_cons_of_neg (by simp [hk]), ih]
      congr 1
      rw [valueScan]
      rw [keepTok_eq] at hk
      have hu : useless t = true := by simpa using hk
      cases t with
      | char c => cases c <;> first | rfl | cases hu
      | comment c => rfl
      | _ => cases hu
    | true =>
      rw [List.filter_cons_of_pos hk, valueScan, valueScan]
      split
      · rfl
      · have : (!t.isComment && !t.isWhite) = true := by
          have := not_useless hk
          rw [useless_eq] at this
          simpa using this
        rw [if_pos this, if_pos this]; rfl

/-- What can follow a name in a declaration. -/
def ender (t : Token) : Bool := t == .op .equal || t == .char .comma || t == .char .semiColon

/-- No line break before the end of a name. -/
def Clear (l : List Token) : Prop := ∀ gap x post, l = gap ++ x :: post → (∀ t ∈ gap, useless t = true) → ender x = true →
  .char .backline ∉ gap

theorem Clear.tail {t : Token} {l : List Token} (h : Clear (t :: l)) (hu : useless t = true) : Clear l := by
  intro gap x post e hg hx hm
  refine h (t :: gap) x post (by rw [e]; rfl) ?_ hx (List.mem_cons_of_mem _ hm)
  intro t' ht'
  rcases List.mem_cons.1 ht' with rfl | ht'
  · exact hu
  · exact hg t' ht'

private theorem first_kept : ∀ {l R : List Token} {x : Token}, l.filter keepTok = x :: R →
    ∃ gap post, l = gap ++ x :: post ∧ (∀ t ∈ gap, useless t = true) ∧ keepTok x = true
  | [], _, _, h => by cases h
  | t :: l, R, x, h => by
    cases hk : keepTok t with
    | true =>
      rw [List.filter_cons_of_pos hk] at h
      cases h
      exact ⟨[], l, rfl, by simp, hk⟩
    | false =>
      rw [List.filter_cons_of_neg (by simp [hk])] at h
      obtain ⟨gap, post, rfl, h2, h3⟩ := first_kept h
      refine ⟨t :: gap, post, rfl, ?_, h3⟩
      intro t' ht'
      rcases List.mem_cons.1 ht' with rfl | ht'
      · rw [keepTok_eq] at hk; simpa using hk
      · exact h2 t' ht'

private theorem nameScan_none {i : Nat} {x : Token} {R : List Token} (hk : keepTok x = true) (h : ender x = false) : nameScan i (x :: R) = none := by
  have hu := not_useless hk
  rw [useless_eq] at hu
  simp only [ender, Bool.or_eq_false_iff, beq_eq_false_iff_ne] at h
  simp only [Bool.or_eq_false_iff] at hu
  rw [nameScan]
  have h1 : (x == .op .equal) = false := by simpa using h.1.1
  have h2 : (x.getChar == some .comma || x.getChar == some .semiColon) = false := by
    cases x with
    | char c =>
      simp only [Token.getChar]
      have a := h.1.2; have b := h.2
      simp only [ne_eq, Token.char.injEq] at a b
      simp [a, b]
    | _ => rfl
  simp [h1, h2, hu.1, hu.2]

theorem nameScan_rk (ts : List Token) : ∀ (l : List Token) (i : Nat), ts.drop i = l → Clear l →
    nameScan (rk ts i) (l.filter keepTok) = (nameScan i l).map (Option.map (rk ts))
  | [], i, _, _ => rfl
  | t :: l, i, h, hc => by
    obtain ⟨h1, h2⟩ := drop_cons h
    cases hk : keepTok t with
    | false =>
      rw [List.filter_cons_of_neg (by simp [hk])]
      have hu : useless t = true := by rw [keepTok_eq] at hk; simpa using hk
      by_cases hb : t = .char .backline
      · subst hb
        have : nameScan i (.char .backline :: l) = none := rfl
        rw [this]
        cases hf : l.filter keepTok with
        | nil => rfl
        | cons x R =>
          obtain ⟨gap, post, e, hg, hx⟩ := first_kept hf
          refine nameScan_none hx (Bool.eq_false_iff.2 fun hx' => ?_)
          refine hc (.char .backline :: gap) x post (by rw [e]; rfl) ?_ hx' List.mem_cons_self
          intro t' ht'
          rcases List.mem_cons.1 ht' with rfl | ht'
          · rfl
          · exact hg t' ht'
      · have ih := nameScan_rk ts l (i + 1) h2 (hc.tail hu)
        rw [rk_skip h1 hk] at ih
        rw [ih]
        congr 1
        rw [nameScan]
        cases t with
        | char c => cases c <;> first | rfl | exact absurd rfl hb | cases hu
        | comment c => rfl
        | _ => cases hu
    | true =>
      rw [List.filter_cons_of_pos hk]
      by_cases he : ender t = true
      · rw [nameScan, nameScan]
        split
        · have := valueScan_rk ts l (i + 1) h2
          rw [rk_next h1 hk] at this
          rw [this]
          cases valueScan (i + 1) l <;> rfl
        · simp only [ender, Bool.or_eq_true, beq_iff_eq] at he
          rcases he with (rfl | rfl) | rfl
          · rename_i hne; exact absurd rfl hne
          · rfl
          · rfl
      · have he' : ender t = false := Bool.eq_false_iff.2 he
        rw [nameScan_none hk he', nameScan_none hk he']; rfl

/-- No line break between a name and an equals sign, a comma or a semicolon. -/
def AllClear (l : List Token) : Prop := ∀ pre name post, l = pre ++ .other name :: post → Clear post

theorem AllClear.tail {t : Token} {l : List Token} (h : AllClear (t :: l)) : AllClear l :=
  fun pre name post e => h (t :: pre) name post (by rw [e]; rfl)

theorem AllClear.drop {l : List Token} (h : AllClear l) (i : Nat) : AllClear (l.drop i) := by
  intro pre name post e
  refine h (l.take i ++ pre) name post ?_
  rw [List.append_assoc, ← e, List.take_append_drop]

theorem varScan_rk (ts : List Token) : ∀ (l : List Token) (i : Nat), ts.drop i = l → AllClear l →
    varScan (rk ts i) (l.filter keepTok) = (varScan i l).map fun p => (rk ts p.1, p.2.map (rk ts))
  | [], i, _, _ => rfl
  | t :: l, i, h, hc => by
    obtain ⟨h1, h2⟩ := drop_cons h
    have ih := varScan_rk ts l (i + 1) h2 hc.tail
    cases hk : keepTok t with
    | false =>
      rw [List.filter_cons_of_neg (by simp [hk])]
      rw [rk_skip h1 hk] at ih
      rw [ih]
      congr 1
      have ho : t.isOther = false := by
        cases t <;> first | rfl | cases hk
      conv => rhs; rw [varScan, ho]
      rfl
    | true =>
      rw [List.filter_cons_of_pos hk, varScan, varScan]
      rw [rk_next h1 hk] at ih
      cases t with
      | other name =>
        have hn := nameScan_rk ts l (i + 1) h2 (hc [] name l rfl)
        rw [rk_next h1 hk] at hn
        simp only [Token.isOther, if_true]
        rw [hn]
        cases nameScan (i + 1) l with
        | none => exact ih
        | some r => rfl
      | _ => exact ih

/-- What precedes a name in a list of declarations. -/
def lead (t : Token) : Bool := t == .char .comma || t == .keyword .kLet || t == .keyword .kVar

/-- The first token is kept, or the first two that are kept are neither names nor in front of one, but for `let`, `var` and a comma. -/
def StartOk (ts : List Token) : Prop := (∀ t, ts.head? = some t → keepTok t = true) ∨
  ∀ k R, ts.filter keepTok = k :: R → k.isOther = false ∧ (lead k = true ∨ ∀ k', R.head? = some k' → k'.isOther = false)

private theorem backScan_skip {ts : List Token} : ∀ (d j : Nat), All useless ts (j + 1) (j + 1 + d) → backScan ts (j + d) = backScan ts j
  | 0, j, _ => rfl
  | d + 1, j, h => by
    obtain ⟨t, h1, h2⟩ := h (j + d + 1) (by omega) (by omega)
    rw [show j + (d + 1) = (j + d) + 1 by omega, backScan, h1]
    simp only
    rw [← useless_eq, if_pos h2]
    exact backScan_skip d j fun k k1 k2 => h k k1 (by omega)

private theorem backScan_at {ts : List Token} {j : Nat} {t : Token} (h : ts[j + 1]? = some t) (hk : keepTok t = true) :
    backScan ts (j + 1) = lead t := by
  rw [backScan, h]
  simp only
  rw [← useless_eq, not_useless hk]; rfl

/-- The last token that is kept before a position. -/
private theorem last_kept (ts : List Token) : ∀ p : Nat, p ≤ ts.length →
    (rk ts p = 0 ∧ All useless ts 0 p) ∨ ∃ j t, j < p ∧ ts[j]? = some t ∧ keepTok t = true ∧ rk ts p = rk ts j + 1 ∧ All useless ts (j + 1) p
  | 0, _ => .inl ⟨rfl, fun k k1 k2 => by omega⟩
  | p + 1, hp => by
    have hg : ts[p]? = some ts[p] := List.getElem?_eq_getElem (by omega)
    cases hk : keepTok ts[p] with
    | true => exact .inr ⟨p, _, by omega, hg, hk, rk_next hg hk, fun k k1 k2 => by omega⟩
    | false =>
      have hu : useless ts[p] = true := by rw [keepTok_eq] at hk; simpa using hk
      rcases last_kept ts p (by omega) with ⟨h1, h2⟩ | ⟨j, t, h1, h2, h3, h4, h5⟩
      · refine .inl ⟨by rw [rk_skip hg hk, h1], fun k k1 k2 => ?_⟩
        by_cases e : k = p
        · subst e; exact ⟨_, hg, hu⟩
        · exact h2 k k1 (by omega)
      · refine .inr ⟨j, t, by omega, h2, h3, by rw [rk_skip hg hk, h4], fun k k1 k2 => ?_⟩
        by_cases e : k = p
        · subst e; exact ⟨_, hg, hu⟩
        · exact h5 k k1 (by omega)

private theorem back_rk {ts : List Token} (hs : StartOk ts) {pos : Nat} {name : List Char} (h : ts[pos]? = some (.other name)) :
    (if 0 < rk ts pos then backScan (ts.filter keepTok) (rk ts pos - 1) else false) = if 0 < pos then backScan ts (pos - 1) else false := by
  have hlt := (List.getElem?_eq_some_iff.1 h).1
  rcases last_kept ts pos (by omega) with ⟨h1, h2⟩ | ⟨j, t, h1, h2, h3, h4, h5⟩
  · rw [h1]
    by_cases h0 : 0 < pos
    · exfalso
      obtain ⟨t, a1, a2⟩ := h2 0 (Nat.le_refl _) h0
      rcases hs with hs | hs
      · have := hs t (by rw [List.head?_eq_getElem?, a1])
        rw [keepTok_eq, a2] at this; cases this
      · have hd := rk_drop ts pos
        rw [h1, filter_at h rfl, List.drop_zero] at hd
        have := (hs _ _ hd).1
        cases this
    · rw [if_neg h0]; rfl
  · rw [if_pos (by omega), if_pos (by omega)]
    have hb : backScan ts (pos - 1) = backScan ts j := by
      have := backScan_skip (ts := ts) (pos - 1 - j) j fun k k1 k2 => h5 k k1 (by omega)
      rwa [show j + (pos - 1 - j) = pos - 1 by omega] at this
    rw [hb, h4, Nat.add_sub_cancel]
    have hj := rk_get h2 h3
    cases hr : rk ts j with
    | zero =>
      -- the first token that is kept
      rw [backScan]
      cases j with
      | zero => rw [backScan]
      | succ j =>
        rw [backScan_at h2 h3]
        rcases hs with hs | hs
        · have hg0 : ts[0]? = some ts[0] := List.getElem?_eq_getElem (by omega)
          have h00 := hs _ (by rw [List.head?_eq_getElem?, hg0])
          have := rk_lt hg0 h00 (j := j + 1) (by omega)
          omega
        · have hd := rk_drop ts (j + 1)
          rw [hr, filter_at h2 h3, List.drop_zero, filter_skip h5 (by omega), filter_at h rfl] at hd
          rcases (hs _ _ hd).2 with e | e
          · exact e.symm
          · have := e _ rfl; cases this
    | succ r =>
      rw [hr] at hj
      rw [backScan_at hj h3]
      cases j with
      | zero => cases hr
      | succ j => rw [backScan_at h2 h3]

theorem getVarPositions_rk {ts : List Token} (hc : AllClear ts) (hs : StartOk ts) {pos : Nat} {t : Token} (h : ts[pos]? = some t)
    (hk : keepTok t = true) :
    getVarPositions (ts.filter keepTok) (rk ts pos) = (getVarPositions ts pos).map fun p => (rk ts p.1, p.2.map (rk ts)) := by
  have hg := rk_get h hk
  have hv : varScan (rk ts pos + 1) ((ts.filter keepTok).drop (rk ts pos + 1)) =
      (varScan (pos + 1) (ts.drop (pos + 1))).map fun p => (rk ts p.1, p.2.map (rk ts)) := by
    rw [← rk_next h hk, rk_drop]
    exact varScan_rk ts _ _ rfl (hc.drop _)
  unfold getVarPositions
  rw [hg, h]
  cases t with
  | keyword k => cases k <;> first | exact hv | rfl
  | other name =>
    have hb := back_rk hs h
    have hv' : varScan (rk ts pos) ((ts.filter keepTok).drop (rk ts pos)) =
        (varScan pos (ts.drop pos)).map fun p => (rk ts p.1, p.2.map (rk ts)) := by
      rw [rk_drop]
      exact varScan_rk ts _ _ rfl (hc.drop _)
    have e : ∀ (n : Nat) (b : Bool) (v : Option (Nat × Option Nat)),
        (if 0 < n then if b then v else none else none) = if (if 0 < n then b else false) = true then v else none := by
      intro n b v
      by_cases hn : 0 < n <;> simp [hn]
    simp only
    rw [e, e, hb, hv']
    cases (if 0 < pos then backScan ts (pos - 1) else false) <;> rfl
  | _ => rfl

/-! ## The variables of the source -/

/-- The variables that are found among the tokens that are kept. -/
structure SameVars (ts : List Token) (a b : Vars) : Prop where
  names : b.names = a.names
  values : ∀ s, b.values s = (a.values s).map fun p => (rk ts p.1, rk ts p.2)

theorem varsLoop_rk {ts : List Token} (hc : AllClear ts) (hs : StartOk ts) : ∀ (fuel pos : Nat) (acc acc' vars : Vars) (fuel' : Nat),
    varsLoop ts fuel pos acc = .ok vars → SameVars ts acc acc' → (ts.filter keepTok).length + 1 ≤ fuel' + rk ts pos →
    ∃ vars', varsLoop (ts.filter keepTok) fuel' (rk ts pos) acc' = .ok vars' ∧ SameVars ts vars vars' := by
  intro fuel
  induction fuel with
  | zero => intro pos acc acc' vars fuel' h; cases h
  | succ fuel ih =>
    intro pos acc acc' vars fuel' h hacc hf
    rw [varsLoop] at h
    cases ht : ts[pos]? with
    | none =>
      rw [ht] at h
      cases h
      have hlen : rk ts pos = (ts.filter keepTok).length := by
        rw [rk, List.take_of_length_le (List.getElem?_eq_none_iff.1 ht)]
      cases fuel' with
      | zero => omega
      | succ fuel' =>
        refine ⟨acc', ?_, hacc⟩
        rw [varsLoop, List.getElem?_eq_none (by omega)]
    | some t =>
      rw [ht] at h
      simp only at h
      cases hk : keepTok t with
      | false =>
        have ho : (t.isKeyword || t.isOther) = false := by
          cases t <;> first | rfl | cases hk
        rw [ho] at h
        have := ih (pos + 1) acc acc' vars fuel' h hacc (by rw [rk_skip ht hk]; exact hf)
        rwa [rk_skip ht hk] at this
      | true =>
        have hlt : rk ts pos < (ts.filter keepTok).length := by
          have := rk_lt ht hk (show pos < pos + 1 by omega)
          have h2 : rk ts (pos + 1) ≤ (ts.filter keepTok).length := by
            rw [rk]; exact ((List.take_sublist _ ts).filter keepTok).length_le
          omega
        cases fuel' with
        | zero => omega
        | succ fuel' =>
          rw [varsLoop, rk_get ht hk]
          simp only
          have step : varsLoop ts fuel (pos + 1) acc = .ok vars →
              ∃ vars', varsLoop (ts.filter keepTok) fuel' (rk ts pos + 1) acc' = .ok vars' ∧ SameVars ts vars vars' := by
            intro h
            have := ih (pos + 1) acc acc' vars fuel' h hacc (by rw [rk_next ht hk]; omega)
            rwa [rk_next ht hk] at this
          by_cases hko : (t.isKeyword || t.isOther) = true
          · rw [if_pos hko] at h ⊢
            rw [getVarPositions_rk hc hs ht hk]
            cases hg : getVarPositions ts pos with
            | none => rw [hg] at h; exact step h
            | some r =>
              obtain ⟨n, r⟩ := r
              rw [hg] at h
              cases r with
              | none => exact step h
              | some w =>
                obtain ⟨start, hst, hsn, hd, -⟩ := (C42_positions ts pos n (some w)).1 hg
                obtain ⟨⟨name, hn⟩, e, he1, he2, he3, he4, he5, tw, htw, hv⟩ := id hd
                have hpn : pos ≤ n := by
                  rcases hst with ⟨-, rfl⟩ | ⟨-, rfl, -⟩ <;> omega
                have hkw := value_keep hv
                have hjump : ∀ a b : Vars, SameVars ts a b → varsLoop ts fuel (w + 1) a = .ok vars →
                    ∃ vars', varsLoop (ts.filter keepTok) fuel' (rk ts w + 1) b = .ok vars' ∧ SameVars ts vars vars' := by
                  intro a b hab h
                  have hle := rk_lt ht hk (show pos < w by omega)
                  have := ih (w + 1) a b vars fuel' h hab (by rw [rk_next htw hkw]; omega)
                  rwa [rk_next htw hkw] at this
                simp only [Option.map_some]
                rw [rk_get hn rfl, rk_get htw hkw]
                simp only [hn, htw, Token.getOther] at h ⊢
                by_cases hp : ['r', '_'].isPrefixOf name = true
                · rw [hp] at h ⊢
                  simp only [Bool.not_true, Bool.false_eq_true, if_false] at h ⊢
                  refine hjump _ _ ?_ h
                  cases tw.getStr with
                  | none => exact ⟨by simp only; rw [hacc.names], hacc.values⟩
                  | some s =>
                    refine ⟨by simp only; rw [hacc.names], fun x => ?_⟩
                    simp only
                    split
                    · rfl
                    · exact hacc.values x
                · have hp1 : ['r', '_'].isPrefixOf name = false := Bool.eq_false_iff.2 hp
                  rw [hp1] at h ⊢
                  simp only [Bool.not_false, if_true] at h ⊢
                  exact hjump _ _ hacc h
          · rw [if_neg hko] at h ⊢
            exact step h

/-! ## The literals -/

/-- A position of a token that is kept. -/
def Kept (ts : List Token) (p : Nat) : Prop := (ts.map keepTok)[p]? = some true

theorem kept_iff {ts : List Token} {p : Nat} : Kept ts p ↔ ∃ t, ts[p]? = some t ∧ keepTok t = true := by
  rw [Kept, List.getElem?_map]
  cases ts[p]? <;> simp

/-- The states of the loop. -/
structure SameAgg (ts : List Token) (a b : Agg) : Prop where
  keptStrs : ∀ s, ∀ p ∈ a.strs s, Kept ts p
  keptReplace : ∀ p v, (p, v) ∈ a.toReplace → Kept ts p ∧ Kept ts v
  strs : ∀ s, b.strs s = (a.strs s).map (rk ts)
  validated : b.validated = a.validated
  gen : b.gen = a.gen
  toReplace : b.toReplace = a.toReplace.map fun p => (rk ts p.1, rk ts p.2)

theorem aggLoop_rk {ts : List Token} {vars vars' : Vars} (hv : SameVars ts vars vars') (hok : VarsOk ts vars) :
    ∀ (l : List Token) (i : Nat) (st st' fin : Agg), ts.drop i = l → SameAgg ts st st' → aggLoop vars i l st = .ok fin →
      ∃ fin', aggLoop vars' (rk ts i) (l.filter keepTok) st' = .ok fin' ∧ SameAgg ts fin fin'
  | [], i, st, st', fin, _, hst, h => by cases h; exact ⟨st', rfl, hst⟩
  | t :: l, i, st, st', fin, hd, hst, h => by
    obtain ⟨h1, h2⟩ := drop_cons hd
    rw [aggLoop] at h
    cases hk : keepTok t with
    | false =>
      have hs : t.getStr = none := by cases t <;> first | rfl | cases hk
      rw [hs] at h
      have := aggLoop_rk hv hok l (i + 1) st st' fin h2 hst h
      rw [List.filter_cons_of_neg (by simp [hk])]
      rwa [rk_skip h1 hk] at this
    | true =>
      rw [List.filter_cons_of_pos hk, aggLoop]
      have step : ∀ a b : Agg, SameAgg ts a b → aggLoop vars (i + 1) l a = .ok fin →
          ∃ fin', aggLoop vars' (rk ts i + 1) (l.filter keepTok) b = .ok fin' ∧ SameAgg ts fin fin' := by
        intro a b hab h
        have := aggLoop_rk hv hok l (i + 1) a b fin h2 hab h
        rwa [rk_next h1 hk] at this
      cases hs : t.getStr with
      | none => rw [hs] at h; exact step _ _ hst h
      | some s =>
        rw [hs] at h
        simp only at h ⊢
        rw [hv.values s]
        cases hval : vars.values s with
        | some p =>
          obtain ⟨v, w⟩ := p
          rw [hval] at h
          simp only [Option.map_some] at h ⊢
          obtain ⟨name, hvar, -, -, -, hw⟩ := hok.value s v w hval
          have hiff := rk_inj h1 hw hk rfl
          by_cases he : i = w
          · rw [if_neg (by simpa using he)] at h
            rw [if_neg (by simpa using hiff.2 he)]
            exact step _ _ hst h
          · rw [if_pos he] at h
            rw [if_pos (fun e => he (hiff.1 e))]
            refine step _ _ ?_ h
            refine ⟨hst.keptStrs, fun p q hm => ?_, hst.strs, hst.validated, hst.gen, ?_⟩
            · rcases List.mem_append.1 hm with hm | hm
              · exact hst.keptReplace p q hm
              · simp only [List.mem_singleton, Prod.mk.injEq] at hm
                obtain ⟨rfl, rfl⟩ := hm
                exact ⟨kept_iff.2 ⟨_, h1, hk⟩, kept_iff.2 ⟨_, hvar, rfl⟩⟩
            · simp only
              rw [hst.toReplace, List.map_append]; rfl
        | none =>
          rw [hval] at h
          simp only [Option.map_none] at h ⊢
          have hx : st'.strs s ++ [rk ts i] = (st.strs s ++ [i]).map (rk ts) := by rw [hst.strs, List.map_append]; rfl
          rw [hx, List.length_map, hst.validated, hst.gen, hv.names]
          have hnew : ∀ y, ∀ p ∈ (if y = s then st.strs s ++ [i] else st.strs y), Kept ts p := by
            intro y p hm
            split at hm
            · rcases List.mem_append.1 hm with hm | hm
              · exact hst.keptStrs s p hm
              · rw [List.mem_singleton.1 hm]
                exact kept_iff.2 ⟨_, h1, hk⟩
            · exact hst.keptStrs y p hm
          have hsame : ∀ y, (if y = s then (st.strs s ++ [i]).map (rk ts) else st'.strs y) =
              (if y = s then st.strs s ++ [i] else st.strs y).map (rk ts) := by
            intro y
            split
            · rfl
            · exact hst.strs y
          split at h
          · next hcond =>
            rw [if_pos hcond]
            cases hfree : freeName vars.names (vars.names.length + 1) st.gen.next with
            | ok g =>
              rw [hfree] at h
              refine step _ _ ?_ h
              exact ⟨hnew, hst.keptReplace, hsame, rfl, rfl, hst.toReplace⟩
            | err e => rw [hfree] at h; cases h
            | panic e => rw [hfree] at h; cases h
          · next hcond =>
            rw [if_neg hcond]
            refine step _ _ ?_ h
            exact ⟨hnew, hst.keptReplace, hsame, rfl, rfl, hst.toReplace⟩

/-! ## The tokens -/

theorem setTok_rk {ts : List Token} {p : Nat} {u : Token} (h : Kept ts p) (hu : keepTok u = true) :
    ∃ ts', setTok ts p u = .ok ts' ∧ setTok (ts.filter keepTok) (rk ts p) u = .ok (ts'.filter keepTok) ∧
      ts'.map keepTok = ts.map keepTok := by
  obtain ⟨t, h1, h2⟩ := kept_iff.1 h
  refine ⟨ts.set p u, ?_, ?_, set_mask h1 (h2.trans hu.symm)⟩
  · rw [setTok, if_pos (List.getElem?_eq_some_iff.1 h1).1]
  · rw [setTok, if_pos (List.getElem?_eq_some_iff.1 (rk_get h1 h2)).1, filter_set h1 h2 hu]

theorem kept_congr {a b : List Token} (h : a.map keepTok = b.map keepTok) {p : Nat} (hp : Kept a p) : Kept b p := by
  rw [Kept, ← h]; exact hp

private theorem setAll_rk {u : Token} (hu : keepTok u = true) : ∀ (ps : List Nat) (ts : List Token), (∀ p ∈ ps, Kept ts p) →
    ∃ ts', setAll u ps ts = .ok ts' ∧ setAll u (ps.map (rk ts)) (ts.filter keepTok) = .ok (ts'.filter keepTok) ∧
      ts'.map keepTok = ts.map keepTok
  | [], ts, _ => ⟨ts, rfl, rfl, rfl⟩
  | p :: ps, ts, h => by
    obtain ⟨t1, a1, a2, a3⟩ := setTok_rk (h p List.mem_cons_self) hu
    obtain ⟨t2, b1, b2, b3⟩ := setAll_rk hu ps t1 fun q hq => kept_congr a3.symm (h q (List.mem_cons_of_mem _ hq))
    refine ⟨t2, ?_, ?_, b3.trans a3⟩
    · rw [setAll, a1]; exact b1
    · have e : ps.map (rk t1) = ps.map (rk ts) := List.map_congr_left fun q _ => rk_congr a3 q
      rw [e] at b2
      rw [List.map_cons, setAll, a2]; exact b2

private theorem applyNew_rk : ∀ (new : List (List Char × List Nat)) (nv ts : List Token), (∀ n ps, (n, ps) ∈ new → ps ≠ [] ∧ ∀ p ∈ ps, Kept ts p) →
    ∃ nv' ts', applyNew new nv ts = .ok (nv', ts') ∧
      applyNew (new.map fun a => (a.1, a.2.map (rk ts))) nv (ts.filter keepTok) = .ok (nv', ts'.filter keepTok) ∧
      ts'.map keepTok = ts.map keepTok ∧ ((∀ t ∈ nv, keepTok t = true) → ∀ t ∈ nv', keepTok t = true)
  | [], nv, ts, _ => ⟨nv, ts, rfl, rfl, rfl, id⟩
  | (n, ps) :: new, nv, ts, h => by
    obtain ⟨hne, hps⟩ := h n ps List.mem_cons_self
    cases ps with
    | nil => exact absurd rfl hne
    | cons p ps =>
      obtain ⟨t, g1, g2⟩ := kept_iff.1 (hps p List.mem_cons_self)
      obtain ⟨t1, a1, a2, a3⟩ := setAll_rk (u := .createdVar n) rfl (p :: ps) ts hps
      obtain ⟨nv', t2, b1, b2, b3, b4⟩ := applyNew_rk new
        (nv ++ [if nv.isEmpty then .keyword .kVar else .char .comma, .createdVarDecl (n ++ ['='] ++ t.display)]) t1
        fun n' ps' hm => ⟨(h n' ps' (List.mem_cons_of_mem _ hm)).1,
          fun q hq => kept_congr a3.symm ((h n' ps' (List.mem_cons_of_mem _ hm)).2 q hq)⟩
      refine ⟨nv', t2, ?_, ?_, b3.trans a3, fun hnv => b4 fun x hx => ?_⟩
      · rw [applyNew]
        simp only [List.head?_cons, g1]
        rw [a1]; exact b1
      · rw [List.map_cons, applyNew]
        simp only [List.map_cons, List.head?_cons, rk_get g1 g2]
        rw [List.map_cons] at a2
        rw [a2]
        have e : (new.map fun a => (a.1, a.2.map (rk t1))) = new.map fun a => (a.1, a.2.map (rk ts)) :=
          List.map_congr_left fun a _ => by rw [List.map_congr_left fun q _ => rk_congr a3 q]
        rw [e] at b2
        exact b2
      · rcases List.mem_append.1 hx with hx | hx
        · exact hnv x hx
        · simp only [List.mem_cons, List.not_mem_nil, or_false] at hx
          rcases hx with rfl | rfl
          · split <;> rfl
          · rfl

private theorem applyReplace_rk : ∀ (l : List (Nat × Nat)) (ts : List Token), (∀ p v, (p, v) ∈ l → Kept ts p ∧ Kept ts v) →
    ∃ ts', applyReplace l ts = .ok ts' ∧
      applyReplace (l.map fun a => (rk ts a.1, rk ts a.2)) (ts.filter keepTok) = .ok (ts'.filter keepTok)
  | [], ts, _ => ⟨ts, rfl, rfl⟩
  | (p, v) :: l, ts, h => by
    obtain ⟨hp, hv⟩ := h p v List.mem_cons_self
    obtain ⟨t, g1, g2⟩ := kept_iff.1 hv
    obtain ⟨t1, a1, a2, a3⟩ := setTok_rk hp g2
    obtain ⟨t2, b1, b2⟩ := applyReplace_rk l t1 fun q w hm =>
      ⟨kept_congr a3.symm (h q w (List.mem_cons_of_mem _ hm)).1, kept_congr a3.symm (h q w (List.mem_cons_of_mem _ hm)).2⟩
    refine ⟨t2, ?_, ?_⟩
    · rw [applyReplace]
      simp only [g1]
      rw [a1]; exact b1
    · rw [List.map_cons, applyReplace]
      simp only [rk_get g1 g2]
      rw [a2]
      have e : (l.map fun a => (rk t1 a.1, rk t1 a.2)) = l.map fun a => (rk ts a.1, rk ts a.2) :=
        List.map_congr_left fun a _ => by rw [rk_congr a3, rk_congr a3]
      rw [e] at b2
      exact b2

private theorem collectNew_rk {ts : List Token} {a b : List Char → List Nat} (h : ∀ s, b s = (a s).map (rk ts)) :
    ∀ (l : List (List Char × List Char)) (new : List (List Char × List Nat)), collectNew a l = .ok new →
      collectNew b l = .ok (new.map fun x => (x.1, x.2.map (rk ts))) ∧ ∀ n ps, (n, ps) ∈ new → ps ≠ [] ∧ ∃ s, ps = a s
  | [], new, e => by cases e; exact ⟨rfl, by simp⟩
  | (s, n) :: l, new, e => by
    rw [collectNew] at e ⊢
    rw [h s]
    cases ha : a s with
    | nil => rw [ha] at e; cases e
    | cons p ps =>
      rw [ha] at e
      simp only [List.map_cons] at e ⊢
      cases hl : collectNew a l with
      | ok r =>
        rw [hl] at e
        cases e
        obtain ⟨h1, h2⟩ := collectNew_rk h l r hl
        rw [h1]
        refine ⟨rfl, fun n' ps' hm => ?_⟩
        rcases List.mem_cons.1 hm with hm | hm
        · cases hm; exact ⟨by simp, s, ha.symm⟩
        · exact h2 n' ps' hm
      | err x => rw [hl] at e; cases e
      | panic x => rw [hl] at e; cases e

/-- Aggregating the strings of the tokens that are kept, and keeping tokens after the strings have been aggregated. -/
theorem aggregate_filter (ts : List Token) (sep : Option Token) (hc : AllClear ts) (hs : StartOk ts)
    (hsep : ∀ t, sep = some t → useless t = true) :
    ∃ ts', aggregateStrings ts sep = .ok ts' ∧ aggregateStrings (ts.filter keepTok) none = .ok (ts'.filter keepTok) := by
  obtain ⟨vars, hv1, hv2, -⟩ := getVariablesName_spec ts
  obtain ⟨vars', hv1', hv⟩ := varsLoop_rk hc hs _ 0 {} {} vars ((ts.filter keepTok).length + 1) hv1 ⟨rfl, fun _ => rfl⟩ (Nat.le_refl _)
  obtain ⟨out, hout⟩ : ∃ out, aggregateStrings ts sep = .ok out := by
    obtain ⟨_, _, _, -, -, h, -⟩ := aggregate_spec ts sep
    exact ⟨_, h⟩
  refine ⟨out, hout, ?_⟩
  rw [aggregateStrings, hv1] at hout
  rw [aggregateStrings, getVariablesName, show (0 : Nat) = rk ts 0 from rfl, hv1']
  simp only [Out.bind_ok] at hout ⊢
  rw [hv.names]
  cases hfree : freeName vars.names (vars.names.length + 1) (Gen.new ['r', '_'] 2) with
  | err x => rw [hfree] at hout; cases hout
  | panic x => rw [hfree] at hout; cases hout
  | ok g =>
    rw [hfree] at hout
    simp only [Out.bind_ok] at hout ⊢
    cases hloop : aggLoop vars 0 ts { gen := g } with
    | err x => rw [hloop] at hout; cases hout
    | panic x => rw [hloop] at hout; cases hout
    | ok st =>
      rw [hloop] at hout
      obtain ⟨st', hloop', hst⟩ := aggLoop_rk hv hv2 ts 0 { gen := g } { gen := g } st rfl
        ⟨by simp, by simp, fun _ => rfl, rfl, rfl, rfl⟩ hloop
      rw [rk_zero] at hloop' ⊢
      rw [hloop']
      simp only [Out.bind_ok] at hout ⊢
      rw [hst.validated]
      cases hnew : collectNew st.strs (sortBy (fun a b => strLe a.2 b.2) st.validated) with
      | err x => rw [hnew] at hout; cases hout
      | panic x => rw [hnew] at hout; cases hout
      | ok new =>
        obtain ⟨hnew', hne⟩ := collectNew_rk hst.strs _ _ hnew
        rw [hnew] at hout
        rw [hnew']
        simp only [Out.bind_ok] at hout ⊢
        obtain ⟨nv, t1, a1, a2, a3, a4⟩ := applyNew_rk new [] ts fun n ps hm => by
          obtain ⟨h1, s, h2⟩ := hne n ps hm
          exact ⟨h1, fun p hp => hst.keptStrs s p (h2 ▸ hp)⟩
        rw [a1] at hout
        rw [a2]
        simp only [Out.bind_ok] at hout ⊢
        obtain ⟨t2, b1, b2⟩ := applyReplace_rk st.toReplace t1 fun p v hm =>
          ⟨kept_congr a3.symm (hst.keptReplace p v hm).1, kept_congr a3.symm (hst.keptReplace p v hm).2⟩
        have e : (st.toReplace.map fun a => (rk t1 a.1, rk t1 a.2)) = st'.toReplace := by
          rw [hst.toReplace]
          exact List.map_congr_left fun a _ => by rw [rk_congr a3, rk_congr a3]
        rw [e] at b2
        rw [b1] at hout
        rw [b2]
        simp only [Out.bind_ok, Out.ok.injEq] at hout ⊢
        rw [← hout, List.filter_append, List.filter_append]
        have hnv : (if nv.isEmpty then nv else nv ++ [.char .semiColon]).filter keepTok = if nv.isEmpty then nv else nv ++ [.char .semiColon] := by
          refine List.filter_eq_self.2 fun t ht => ?_
          split at ht
          · exact a4 (by simp) t ht
          · rcases List.mem_append.1 ht with ht | ht
            · exact a4 (by simp) t ht
            · rw [List.mem_singleton.1 ht]; rfl
        have hsp : sep.toList.filter keepTok = [] := by
          cases sep with
          | none => rfl
          | some t => simp [keepTok_eq, hsep t rfl]
        rw [hnv, hsp]
        rfl

end Verif.Js
