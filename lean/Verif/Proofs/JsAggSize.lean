import Verif.Proofs.JsAgg
/-!
# Sizes around `aggregate_strings`
-/
set_option linter.unusedSimpArgs false
namespace Verif.Js
open Spec.JsAgg

theorem occ_length (ts : List Token) (s : List Char) : ∀ k, (occ ts s k).length = (ts.take k).count (.str s) := by
  intro k
  induction k with
  | zero => simp [occ]
  | succ k ih =>
    rw [occ_succ, List.take_add_one]
    cases h : ts[k]? with
    | none => simpa using ih
    | some t =>
      by_cases ht : t = .str s
      · subst ht; simp [ih, List.count_append]
      · have : ¬(some t = some (Token.str s)) := by intro h; cases h; exact ht rfl
        rw [if_neg this, ih]
        simp [List.count_append, List.count_singleton, ht]

theorem occ_count (ts : List Token) (s : List Char) : (occ ts s ts.length).length = ts.count (.str s) := by
  rw [occ_length, List.take_length]

/-- The size of the tokens without the blanks in between. -/
def weight (ts : List Token) : Nat := (ts.map fun t => blen t.display).sum

/-- Sum over the pairs of literal and name. -/
def sumOver (f : List Char → List Char → Nat) (D : List (List Char × List Char)) : Nat := (D.map fun p => f p.1 p.2).sum

theorem sumOver_cons (f : List Char → List Char → Nat) (s n : List Char) (D : List (List Char × List Char)) :
    sumOver f ((s, n) :: D) = f s n + sumOver f D := rfl

private theorem renamed_cons {D : List (List Char × List Char)} {s n : List Char} (t : Token) :
    renamed ((s, n) :: D) t = if t = .str s then .createdVar n else renamed D t := by
  unfold renamed
  cases hs : t.getStr with
  | none =>
    have : t ≠ .str s := by rintro rfl; simp [Token.getStr] at hs
    simp [this]
  | some y =>
    have ht : t = .str y := by cases t <;> simp [Token.getStr] at hs; rw [hs]
    subst ht
    simp only
    by_cases hy : y = s
    · subst hy; simp [List.lookup]
    · have : (y == s) = false := by simpa using hy
      have h1 : ¬(Token.str y = Token.str s) := by intro h; cases h; exact hy rfl
      rw [if_neg h1, List.lookup, this]

theorem weight_renamed : ∀ (D : List (List Char × List Char)) (ts : List Token), (D.map Prod.fst).Nodup →
    weight (ts.map (renamed D)) + sumOver (fun s _ => ts.count (.str s) * blen s) D =
      weight ts + sumOver (fun s n => ts.count (.str s) * blen n) D := by
  intro D
  induction D with
  | nil =>
    intro ts _
    have : ∀ t, renamed [] t = t := by intro t; unfold renamed; cases t.getStr <;> rfl
    rw [(List.map_congr_left fun t _ => this t).trans (List.map_id ts)]
    rfl
  | cons p D ih =>
    intro ts hnd
    obtain ⟨s, n⟩ := p
    rw [List.map_cons, List.nodup_cons] at hnd
    have hs : renamed D (.str s) = .str s := by
      simp only [renamed, Token.getStr]
      have : D.lookup s = none := by
        rw [List.lookup_eq_none_iff]
        intro p hp
        rw [bne_iff_ne]
        rintro rfl
        exact hnd.1 (List.mem_map.2 ⟨p, hp, rfl⟩)
      rw [this]
    have key : ∀ us : List Token, weight (us.map (renamed ((s, n) :: D))) + us.count (.str s) * blen s =
        weight (us.map (renamed D)) + us.count (.str s) * blen n := by
      intro us
      induction us with
      | nil => simp
      | cons t us ih =>
        simp only [List.map_cons, weight, List.sum_cons] at ih ⊢
        rw [renamed_cons]
        by_cases ht : t = .str s
        · subst ht
          rw [if_pos rfl, hs, List.count_cons_self, Nat.add_mul, Nat.add_mul]
          have : blen (Token.createdVar n).display = blen n := rfl
          have : blen (Token.str s).display = blen s := rfl
          omega
        · rw [if_neg ht, List.count_cons_of_ne ht]
          omega
    rw [sumOver_cons, sumOver_cons]
    have h1 := key ts
    have h2 := ih ts hnd.2
    omega

theorem weight_hoisted (D : List (List Char × List Char)) (ts : List Token) (h : (D.map Prod.fst).Nodup) :
    sumOver (fun s _ => ts.count (.str s) * blen s) D ≤ weight ts := by
  have h1 := weight_renamed (D.map fun p => (p.1, [])) ts (by simpa [List.map_map, Function.comp_def] using h)
  have e1 : sumOver (fun s _ => ts.count (.str s) * blen s) (D.map fun p => (p.1, ([] : List Char))) =
      sumOver (fun s _ => ts.count (.str s) * blen s) D := by simp [sumOver, Function.comp_def]
  have e2 : sumOver (fun s n => ts.count (.str s) * blen n) (D.map fun p => (p.1, ([] : List Char))) = 0 := by
    unfold sumOver
    clear h h1 e1
    induction D with
    | nil => rfl
    | cons p D ih => simpa using ih
  omega

/-! ## With blanks -/

/-- The same token, or a generated name for a literal. -/
def Repl (t u : Token) : Prop := u = t ∨ ((∃ s, t = .str s) ∧ ∃ n, u = .createdVar n)

theorem renamed_repl (D : List (List Char × List Char)) (t : Token) : Repl t (renamed D t) := by
  unfold renamed
  cases hs : t.getStr with
  | none => exact .inl rfl
  | some s =>
    have ht : t = .str s := by cases t <;> simp [Token.getStr] at hs; rw [hs]
    simp only
    cases D.lookup s with
    | none => exact .inl rfl
    | some n => exact .inr ⟨⟨s, ht⟩, n, rfl⟩

private theorem blanks_le (p q : Option Token) (t u : Token) (next next' : Option Token) (h : Repl t u)
    (hn : next' = next ∨ ((∃ s, next = some (.str s)) ∧ ∃ n, next' = some (.createdVar n))) :
    blen (if spaceBefore q u then [' '] else []) + blen (spaceAfter u next').toList ≤
      blen (if spaceBefore p t then [' '] else []) + blen (spaceAfter t next).toList + if t.requiresBefore then 1 else 0 := by
  have h1 : blen (if spaceBefore q u then [' '] else []) ≤ if t.requiresBefore then 1 else 0 := by
    have : spaceBefore q u = true → t.requiresBefore = true := by
      unfold spaceBefore
      cases q with
      | none => intro h; cases h
      | some q =>
        rcases h with rfl | ⟨-, n, rfl⟩
        · intro h; simp only [Bool.and_eq_true] at h; exact h.1.1.1.1
        · intro h; cases h
    by_cases hb : spaceBefore q u = true
    · rw [if_pos hb, if_pos (this hb)]; exact Nat.le_refl _
    · rw [if_neg hb]; exact Nat.zero_le _
  have h2 : blen (spaceAfter u next').toList ≤ blen (spaceAfter t next).toList := by
    rcases h with rfl | ⟨⟨s, rfl⟩, n, rfl⟩
    · rcases hn with rfl | ⟨⟨s, rfl⟩, n, rfl⟩
      · exact Nat.le_refl _
      · cases u <;> exact Nat.le_refl _
    · exact Nat.zero_le _
  omega

/-- Tokens of one list and what replaces them. -/
inductive Repls : List Token → List Token → Prop where
  | nil : Repls [] []
  | cons {t u l l'} : Repl t u → Repls l l' → Repls (t :: l) (u :: l')

theorem display_repls {ts us : List Token} (h : Repls ts us) : ∀ (p q : Option Token),
    blen (displayFrom q us) + weight ts ≤ blen (displayFrom p ts) + weight us + ts.countP Token.requiresBefore := by
  induction h with
  | nil => intro p q; exact Nat.le_refl _
  | @cons t u ts us hr hs ih =>
    intro p q
    rw [displayFrom, displayFrom, List.countP_cons]
    simp only [blen_append, weight, List.map_cons, List.sum_cons]
    have h1 := blanks_le p q t u ts.head? us.head? hr (by
      cases hs with
      | nil => exact .inl rfl
      | cons h _ =>
        rcases h with h | ⟨⟨s, rfl⟩, n, h⟩
        · exact .inl (by simp [h])
        · exact .inr ⟨⟨s, rfl⟩, n, by simp [h]⟩)
    have h2 := ih (some t) (some u)
    unfold weight at h2
    omega

theorem display_renamed (D : List (List Char × List Char)) (ts : List Token) (p q : Option Token) :
    blen (displayFrom q (ts.map (renamed D))) + weight ts ≤
      blen (displayFrom p ts) + weight (ts.map (renamed D)) + ts.countP Token.requiresBefore := by
  refine display_repls ?_ p q
  induction ts with
  | nil => exact .nil
  | cons t ts ih => exact .cons (renamed_repl D t) ih

theorem weight_le_display : ∀ (ts : List Token) (p : Option Token), weight ts ≤ blen (displayFrom p ts) := by
  intro ts
  induction ts with
  | nil => intro p; exact Nat.le_refl _
  | cons t ts ih =>
    intro p
    rw [displayFrom]
    simp only [blen_append, weight, List.map_cons, List.sum_cons]
    have := ih (some t)
    unfold weight at this
    omega

/-- A token in front. -/
theorem display_front (t : Token) (p : Option Token) (ts : List Token) :
    blen (displayFrom p (t :: ts)) ≤ blen t.display + 2 + blen (displayFrom (some t) ts) := by
  rw [displayFrom]
  simp only [blen_append]
  have h1 : blen (if spaceBefore p t then [' '] else []) ≤ 1 := by split <;> decide
  have h2 : blen (spaceAfter t ts.head?).toList ≤ 1 := by
    cases t <;> try exact Nat.zero_le 1
    all_goals
      cases ts with
      | nil => exact Nat.zero_le 1
      | cons u ts => cases u <;> first | exact Nat.zero_le 1 | exact Nat.le_refl 1
  omega

private theorem display_var (x : List Char) (r : List Token) :
    displayFrom none (.keyword .kVar :: .createdVarDecl x :: r) = ['v', 'a', 'r', ' '] ++ x ++ displayFrom (some (.createdVarDecl x)) r := by
  have h : (Token.keyword .kVar).display = ['v', 'a', 'r'] := by decide
  rw [displayFrom, displayFrom, h]
  simp [spaceBefore, spaceAfter, Token.requiresBefore, Token.getRequired, Token.display, Keyword.requiresBefore]

theorem display_declare (s n : List Char) (D : List (List Char × List Char)) (r : List Token) :
    blen (displayFrom none (declare ((s, n) :: D) ++ r)) =
      4 + sumOver (fun s n => blen s + blen n + 2) ((s, n) :: D) + blen (displayFrom (some (.char .semiColon)) r) := by
  have one : '='.utf8Size = 1 ∧ ','.utf8Size = 1 ∧ ';'.utf8Size = 1 ∧ ' '.utf8Size = 1 := by decide
  have hlist : ∀ (E : List (List Char × List Char)) (p : Token),
      blen (displayFrom (some p) ((E.flatMap fun p => [.char .comma, .createdVarDecl (p.2 ++ ['='] ++ p.1)]) ++
        (.char .semiColon :: r))) =
      sumOver (fun s n => blen s + blen n + 2) E + 1 + blen (displayFrom (some (.char .semiColon)) r) := by
    intro E
    induction E with
    | nil =>
      intro p
      have : displayFrom (some p) (.char .semiColon :: r) = [';'] ++ displayFrom (some (.char .semiColon)) r := rfl
      rw [List.flatMap_nil, List.nil_append, this]
      simp [sumOver, one]
    | cons e E ih =>
      intro p
      obtain ⟨s, n⟩ := e
      have : displayFrom (some p) ((((s, n) :: E).flatMap fun p => [.char .comma, .createdVarDecl (p.2 ++ ['='] ++ p.1)]) ++
          (.char .semiColon :: r)) = [','] ++ (n ++ ['='] ++ s) ++
          displayFrom (some (.createdVarDecl (n ++ ['='] ++ s)))
            ((E.flatMap fun p => [.char .comma, .createdVarDecl (p.2 ++ ['='] ++ p.1)]) ++ (.char .semiColon :: r)) := by
        simp [displayFrom, spaceBefore, spaceAfter, Token.display, Token.requiresBefore, RChar.toChar]
      rw [this, blen_append, ih, sumOver_cons]
      simp [one]
      omega
  have : displayFrom none (declare ((s, n) :: D) ++ r) = ['v', 'a', 'r', ' '] ++ (n ++ ['='] ++ s) ++
      displayFrom (some (.createdVarDecl (n ++ ['='] ++ s)))
        ((D.flatMap fun p => [.char .comma, .createdVarDecl (p.2 ++ ['='] ++ p.1)]) ++ (.char .semiColon :: r)) := by
    have e1 : declare ((s, n) :: D) ++ r = .keyword .kVar :: .createdVarDecl (n ++ ['='] ++ s) ::
        ((D.flatMap fun p => [.char .comma, .createdVarDecl (p.2 ++ ['='] ++ p.1)]) ++ (.char .semiColon :: r)) := by
      simp [declare]
    rw [e1, display_var]
  rw [this, blen_append, hlist, sumOver_cons]
  have : blen ['v', 'a', 'r', ' '] = 4 := by decide
  simp only [blen_append, this, blen_cons, blen_nil, one]
  omega

/-- What the choice of a literal says about its final number of occurrences. -/
theorem worth_final {m c len nl : Nat} (h : worthIt m len nl = true) (hm : m ≤ c) :
    nl < len ∧ len + nl + 7 + c * nl ≤ c * len + 2 * len := by
  unfold worthIt at h
  simp only [decide_eq_true_eq] at h
  have e : (m + 2) * len = m * len + 2 * len := by rw [Nat.add_mul]
  have hlt : nl < len := by
    refine Nat.lt_of_not_le fun hle => ?_
    have := Nat.mul_le_mul_left m hle
    omega
  refine ⟨hlt, ?_⟩
  obtain ⟨d, rfl⟩ := Nat.le.dest hm
  have h1 : (m + d) * nl = m * nl + d * nl := Nat.add_mul ..
  have h2 : (m + d) * len = m * len + d * len := Nat.add_mul ..
  have h3 : d * nl ≤ d * len := Nat.mul_le_mul_left d (Nat.le_of_lt hlt)
  omega

theorem sumOver_le {f g : List Char → List Char → Nat} {D : List (List Char × List Char)} (h : ∀ s n, (s, n) ∈ D → f s n ≤ g s n) :
    sumOver f D ≤ sumOver g D := by
  induction D with
  | nil => exact Nat.le_refl _
  | cons p D ih =>
    obtain ⟨s, n⟩ := p
    rw [sumOver_cons, sumOver_cons]
    exact Nat.add_le_add (h s n List.mem_cons_self) (ih fun s n h' => h s n (List.mem_cons_of_mem _ h'))

theorem sumOver_add (f g : List Char → List Char → Nat) (D : List (List Char × List Char)) :
    sumOver (fun s n => f s n + g s n) D = sumOver f D + sumOver g D := by
  induction D with
  | nil => rfl
  | cons p D ih =>
    obtain ⟨s, n⟩ := p
    rw [sumOver_cons, sumOver_cons, sumOver_cons, ih]
    omega

end Verif.Js
