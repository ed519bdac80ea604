import Verif.Proofs.Ecma
import Verif.Spec.EcmaLines
/-!
# Reading tokens and line breaks piece by piece
-/
set_option linter.unusedSimpArgs false
namespace Verif.Spec.Ecma

/-- The number of turns does not matter. -/
theorem partsF_fuel (goal : List Tok → Bool) : ∀ (n m : Nat) (hist : List Tok) (s : List Char), s.length ≤ n → s.length ≤ m →
    partsF goal n hist s = partsF goal m hist s
  | 0, 0, hist, s, _, _ => rfl
  | 0, m + 1, hist, s, h, _ => by
    have : s = [] := by simpa using h
    subst this; rfl
  | n + 1, 0, hist, s, _, h => by
    have : s = [] := by simpa using h
    subst this; rfl
  | n + 1, m + 1, hist, [], _, _ => rfl
  | n + 1, m + 1, hist, c :: r, h, h' => by
    have h1 : r.length ≤ n := by simpa using h
    have h2 : r.length ≤ m := by simpa using h'
    have ih := fun hist (s : List Char) (hs : s.length ≤ r.length) => partsF_fuel goal n m hist s (by omega) (by omega)
    rw [partsF, partsF]
    split
    · rw [ih _ _ (Nat.le_refl _)]
    · split
      · exact ih _ _ (Nat.le_refl _)
      · split
        · cases hx : afterLine r with
          | none => rfl
          | some x => simp only; rw [ih _ _ (afterLine_le _ _ hx)]
        · split
          · cases hx : afterBlock r.tail with
            | none => rfl
            | some x =>
              have := afterBlock_le _ _ hx
              simp at this
              simp only
              rw [ih _ _ (by omega)]
          · cases hx : token (goal hist) c r with
            | none => rfl
            | some p =>
              obtain ⟨t, x⟩ := p
              simp only
              rw [ih _ _ (token_le hx)]

theorem partsAfter_nil (goal : List Tok → Bool) (hist : List Tok) : partsAfter goal hist [] = [] := rfl

theorem partsAfter_cons (goal : List Tok → Bool) (hist : List Tok) (c : Char) (r : List Char) : partsAfter goal hist (c :: r) =
    if lineEnd c then none :: partsAfter goal hist r
    else if white c then partsAfter goal hist r
    else if c = '/' ∧ r.head? = some '/' then
      match afterLine r with
      | some r => none :: partsAfter goal hist r
      | none => [some .lineAtEnd]
    else if c = '/' ∧ r.head? = some '*' then
      match afterBlock r.tail with
      | some x => (if (r.take (r.length - x.length)).any lineEnd then [none] else []) ++ partsAfter goal hist x
      | none => [some .bad]
    else
      match token (goal hist) c r with
      | some (t, r) => some t :: partsAfter goal (t :: hist) r
      | none => [some .bad] := by
  unfold partsAfter
  have ih := fun hist (s : List Char) (hs : s.length ≤ r.length) => partsF_fuel goal r.length s.length hist s hs (Nat.le_refl _)
  rw [List.length_cons, partsF]
  split
  · rfl
  · split
    · rfl
    · split
      · cases hx : afterLine r with
        | none => rfl
        | some x => simp only; rw [ih _ _ (afterLine_le _ _ hx)]
      · split
        · cases hx : afterBlock r.tail with
          | none => rfl
          | some x =>
            have := afterBlock_le _ _ hx
            simp at this
            simp only
            rw [ih _ _ (by omega)]
        · cases hx : token (goal hist) c r with
          | none => rfl
          | some p =>
            obtain ⟨t, x⟩ := p
            simp only
            rw [ih _ _ (token_le hx)]

/-- Without the line breaks, these are the tokens. -/
theorem parts_toks (goal : List Tok → Bool) : ∀ (k : Nat) (s : List Char) (hist : List Tok), s.length ≤ k →
    (partsAfter goal hist s).filterMap id = toksAfter goal hist s := by
  intro k
  induction k with
  | zero =>
    intro s hist h
    have : s = [] := by simpa using h
    subst this
    rfl
  | succ k ih =>
    intro s hist hk
    cases s with
    | nil => rfl
    | cons c r =>
      have hr : r.length ≤ k := by simpa using hk
      rw [partsAfter_cons, toksAfter_cons]
      by_cases h1 : lineEnd c = true
      · rw [if_pos h1, if_pos (by simp [h1])]
        simpa using ih r hist hr
      rw [if_neg h1]
      by_cases h2 : white c = true
      · rw [if_pos h2, if_pos (by simp [h2])]
        exact ih r hist hr
      have h12 : ¬(white c || lineEnd c) = true := by simp [h1, h2]
      rw [if_neg h2, if_neg h12]
      split
      · cases hx : afterLine r with
        | none => rfl
        | some x => simpa using ih x hist (Nat.le_trans (afterLine_le _ _ hx) hr)
      split
      · cases hx : afterBlock r.tail with
        | none => rfl
        | some x =>
          have := afterBlock_le _ _ hx
          simp at this
          have := ih x hist (by omega)
          simp only
          split <;> simpa using this
      · cases hx : token (goal hist) c r with
        | none => rfl
        | some p =>
          obtain ⟨t, x⟩ := p
          simpa using ih x (t :: hist) (Nat.le_trans (token_le hx) hr)

/-- As `toksAfter_append`. -/
theorem partsAfter_append (goal : List Tok → Bool) (b : List Char) : ∀ (k : Nat) (a : List Char) (hist : List Tok), a.length ≤ k →
    (∀ t ∈ toksAfter goal hist a, good t = true) → (∀ t, (toksAfter goal hist a).getLast? = some t → glues t b = false) →
    partsAfter goal hist (a ++ b) = partsAfter goal hist a ++ partsAfter goal ((toksAfter goal hist a).reverse ++ hist) b := by
  intro k
  induction k with
  | zero =>
    intro a hist h
    have : a = [] := by simpa using h
    subst this
    intro _ _
    rfl
  | succ k ih =>
    intro a hist hk hgood hlast
    cases a with
    | nil => rfl
    | cons c r =>
      have hr : r.length ≤ k := by simpa using hk
      have hbad : good .bad = false := rfl
      have hend : good .lineAtEnd = false := rfl
      rw [toksAfter_cons] at hgood hlast
      rw [List.cons_append, partsAfter_cons, partsAfter_cons goal hist c r, toksAfter_cons goal hist c r]
      by_cases h0 : lineEnd c = true
      · have h1 : (white c || lineEnd c) = true := by simp [h0]
        simp only [if_pos h1, if_pos h0] at hgood hlast ⊢
        rw [ih r hist hr hgood hlast]
        rfl
      simp only [if_neg h0] at hgood hlast ⊢
      by_cases h1 : white c = true
      · have h1' : (white c || lineEnd c) = true := by simp [h1]
        simp only [if_pos h1, if_pos h1'] at hgood hlast ⊢
        exact ih r hist hr hgood hlast
      have h1' : ¬(white c || lineEnd c) = true := by simp [h1, h0]
      simp only [if_neg h1, if_neg h1'] at hgood hlast ⊢
      by_cases h2 : c = '/' ∧ r.head? = some '/'
      · have h2' : c = '/' ∧ (r ++ b).head? = some '/' := by
          cases r with
          | nil => simp at h2
          | cons d r => simpa using h2
        simp only [if_pos h2] at hgood hlast ⊢
        rw [if_pos h2']
        cases hx : afterLine r with
        | none => rw [hx] at hgood; have := hgood .lineAtEnd (by simp); rw [hend] at this; cases this
        | some x =>
          rw [hx] at hgood hlast
          rw [afterLine_append b r x hx]
          simp only
          rw [ih x hist (Nat.le_trans (afterLine_le _ _ hx) hr) hgood hlast]
          rfl
      simp only [if_neg h2] at hgood hlast ⊢
      by_cases h3 : c = '/' ∧ r.head? = some '*'
      · have h3' : c = '/' ∧ (r ++ b).head? = some '*' := by
          cases r with
          | nil => simp at h3
          | cons d r => simpa using h3
        have h2' : ¬(c = '/' ∧ (r ++ b).head? = some '/') := by rw [h3'.2]; simp
        simp only [if_pos h3] at hgood hlast ⊢
        rw [if_neg h2', if_pos h3']
        have ht : (r ++ b).tail = r.tail ++ b := by
          cases r with
          | nil => simp at h3
          | cons d r => rfl
        cases hx : afterBlock r.tail with
        | none => rw [hx] at hgood; have := hgood .bad (by simp); rw [hbad] at this; cases this
        | some x =>
          rw [hx] at hgood hlast
          rw [ht, afterBlock_append b _ x hx]
          have hle := afterBlock_le _ _ hx
          simp at hle
          simp only
          rw [ih x hist (by omega) hgood hlast]
          have : (r ++ b).take ((r ++ b).length - (x ++ b).length) = r.take (r.length - x.length) := by
            simp only [List.length_append, Nat.add_sub_add_right]
            rw [List.take_append_of_le_length (by omega)]
          rw [this, List.append_assoc]
      simp only [if_neg h3] at hgood hlast ⊢
      cases hx : token (goal hist) c r with
      | none => rw [hx] at hgood; have := hgood .bad (by simp); rw [hbad] at this; cases this
      | some p =>
        obtain ⟨t, r'⟩ := p
        rw [hx] at hgood hlast
        simp only at hgood hlast ⊢
        obtain ⟨hle, h2', h3', htok⟩ := step_append h2 h3 hx hlast
        rw [if_neg h2', if_neg h3', htok]
        simp only
        have := ih r' (t :: hist) (by omega) (fun x hx => hgood x (List.mem_cons_of_mem _ hx)) (by
          intro x hx
          refine hlast x ?_
          rw [List.getLast?_cons, hx]; rfl)
        rw [this]
        simp

/-! ## Fewer line breaks -/

/-- The same tokens in both, and in the first one no line breaks but at places of line breaks in the second one. -/
inductive Less : List (Option Tok) → List (Option Tok) → Prop
  | nil : Less [] []
  | tok {x y : List (Option Tok)} (t : Tok) : Less x y → Less (some t :: x) (some t :: y)
  | drop {x y : List (Option Tok)} : Less x y → Less x (none :: y)
  | both {x y : List (Option Tok)} : Less x y → Less (none :: x) (none :: y)

theorem Less.refl : ∀ x, Less x x
  | [] => .nil
  | none :: x => .both (refl x)
  | some t :: x => .tok t (refl x)

theorem Less.append {x y x' y' : List (Option Tok)} (h : Less x y) (h' : Less x' y') : Less (x ++ x') (y ++ y') := by
  induction h with
  | nil => exact h'
  | tok t _ ih => exact .tok t ih
  | drop _ ih => exact .drop ih
  | both _ ih => exact .both ih

theorem Less.gap : ∀ {k m : Nat}, k ≤ m → Less (List.replicate k none) (List.replicate m none)
  | 0, 0, _ => .nil
  | 0, m + 1, _ => by
    rw [List.replicate_succ]
    exact .drop (gap (k := 0) (by omega))
  | k + 1, m + 1, h => by
    rw [List.replicate_succ, List.replicate_succ]
    exact .both (gap (by omega))

/-- The marks of the first one are marks of the second one. -/
theorem Less.marked {rule : List Tok → Tok → Bool} {x y : List (Option Tok)} (h : Less x y) : ∀ (hist : List Tok) (nl nl' : Bool),
    (nl = true → nl' = true) → (Ecma.marked rule hist nl x).map (·.2) = (Ecma.marked rule hist nl' y).map (·.2) ∧
      ∀ p ∈ (Ecma.marked rule hist nl x).zip (Ecma.marked rule hist nl' y), p.1.1 = true → p.2.1 = true := by
  induction h with
  | nil => intro hist nl nl' _; exact ⟨rfl, by intro p hp; cases hp⟩
  | tok t _ ih =>
    intro hist nl nl' hn
    obtain ⟨h1, h2⟩ := ih (t :: hist) false false id
    refine ⟨by simp [Ecma.marked, h1], ?_⟩
    intro p hp
    simp only [Ecma.marked, List.zip_cons_cons, List.mem_cons] at hp
    rcases hp with rfl | hp
    · simp only [Bool.and_eq_true]
      exact fun h => ⟨hn h.1, h.2⟩
    · exact h2 p hp
  | drop _ ih =>
    intro hist nl nl' hn
    exact ih hist nl true (fun _ => rfl)
  | both _ ih =>
    intro hist nl nl' hn
    exact ih hist true true id

/-- Marked tokens are tokens. -/
theorem marked_toks (rule : List Tok → Tok → Bool) : ∀ (x : List (Option Tok)) (hist : List Tok) (nl : Bool),
    (marked rule hist nl x).map (·.2) = x.filterMap id
  | [], _, _ => rfl
  | none :: x, hist, nl => by simpa [marked] using marked_toks rule x hist true
  | some t :: x, hist, nl => by simp [marked, marked_toks rule x]

/-- Without line breaks there are no marks. -/
theorem marked_none (rule : List Tok → Tok → Bool) : ∀ (x : List (Option Tok)) (hist : List Tok), (∀ p ∈ x, p.isSome = true) →
    marked rule hist false x = (x.filterMap id).map fun t => (false, t)
  | [], _, _ => rfl
  | none :: x, hist, h => by cases h none List.mem_cons_self
  | some t :: x, hist, h => by
    have := marked_none rule x (t :: hist) (fun p hp => h p (List.mem_cons_of_mem _ hp))
    simp [marked, this]

/-! ## Gaps -/

/-- A text without tokens and with `k` line breaks. -/
def Breaks (k : Nat) (g : List Char) : Prop :=
  ∀ goal hist b, partsAfter goal hist (g ++ b) = List.replicate k none ++ partsAfter goal hist b

theorem Breaks.nil : Breaks 0 [] := fun _ _ _ => rfl

theorem Breaks.append {k k' : Nat} {g g' : List Char} (h : Breaks k g) (h' : Breaks k' g') : Breaks (k + k') (g ++ g') := by
  intro goal hist b
  rw [List.append_assoc, h, h', ← List.append_assoc, List.replicate_append_replicate]

end Verif.Spec.Ecma
