import Verif.Proofs.JsRead
/-!
# What the minified form keeps, and its size
-/
set_option linter.unusedSimpArgs false
namespace Verif.Js
open Spec.Js

/-! ## Observations that minifying does not change -/

theorem filterMap_spaced {β : Type} {g : Lexeme → Option β} (hb : g (.blank ' ') = none) :
    ∀ ls : List Lexeme, (spaced ls).filterMap g = ls.filterMap g
  | [] => rfl
  | [_] => rfl
  | a :: b :: ls => by
    have ih := filterMap_spaced hb (b :: ls)
    rw [spaced]
    split
    · rw [List.filterMap_cons, List.filterMap_cons (a := Lexeme.blank ' '), hb, List.filterMap_cons, ih]
    · rw [List.filterMap_cons, List.filterMap_cons, ih]

/-- An observation that sees neither blanks, comments nor semicolons and does not depend on the spelling. -/
structure Blind {β : Type} (g : Lexeme → Option β) : Prop where
  blank : ∀ c, g (.blank c) = none
  comment : ∀ b, g (.comment b) = none
  semi : g (.punct [';']) = none
  short : ∀ l, g (shorten l) = g l

theorem Blind.strip {β : Type} {g : Lexeme → Option β} (h : Blind g) (ls : List Lexeme) :
    (strip ls).filterMap g = ls.filterMap g := by
  have h1 : (ls.filter solid).filterMap g = ls.filterMap g := by
    induction ls with
    | nil => rfl
    | cons l ls ih =>
      rw [List.filter_cons]
      split
      · rw [List.filterMap_cons, List.filterMap_cons, ih]
      · rename_i hs
        have : g l = none := by
          cases l <;> first | exact h.blank _ | exact h.comment _ | exact absurd rfl hs
        rw [List.filterMap_cons, this, ih]
  unfold Spec.Js.strip
  rw [← h1]
  generalize ls.filter solid = us
  induction us with
  | nil => rfl
  | cons l us ih =>
    rw [List.dropWhile_cons]
    split
    · rename_i hl
      rw [beq_iff_eq] at hl
      rw [ih, List.filterMap_cons, hl, h.semi]
    · rfl

theorem Blind.minimal {β : Type} {g : Lexeme → Option β} (h : Blind g) (ls : List Lexeme) :
    (spaced ((Spec.Js.strip ls).map shorten)).filterMap g = ls.filterMap g := by
  rw [filterMap_spaced (h.blank ' '), List.filterMap_map, ← h.strip]
  congr 1
  funext l
  exact h.short l

/-! ## Minifying twice -/

theorem shorten_idem (l : Lexeme) : shorten (shorten l) = shorten l := by
  cases l with
  | word w =>
    by_cases h : isInteger w = true
    · have e : shorten (.word w) = .word (shortest w) := by simp [shorten, h]
      have h2 := shortest_ok h
      rw [e]
      show (if isInteger (shortest w) then Lexeme.word (shortest (shortest w)) else .word (shortest w)) = _
      rw [if_pos h2.1, h2.2.2.1]
    · have e : shorten (.word w) = .word w := by simp [shorten, h]
      rw [e, e]
  | regex b fl =>
    show Lexeme.regex b (shortFlags (shortFlags fl)) = .regex b (shortFlags fl)
    congr 1
    unfold shortFlags
    cases fl.contains 'g' <;> cases fl.contains 'i' <;> decide
  | _ => rfl

theorem filter_spaced : ∀ ls : List Lexeme, (∀ l ∈ ls, solid l = true) → (spaced ls).filter solid = ls
  | [], _ => rfl
  | [a], h => by simp [spaced, h a (by simp)]
  | a :: b :: ls, h => by
    have ih := filter_spaced (b :: ls) fun l hl => h l (List.mem_cons_of_mem _ hl)
    have ha := h a List.mem_cons_self
    rw [spaced]
    split
    · rw [List.filter_cons_of_pos ha, List.filter_cons_of_neg (by simp [solid]), ih]
    · rw [List.filter_cons_of_pos ha, ih]

theorem shorten_semi {l : Lexeme} (h : shorten l = .punct [';']) : l = .punct [';'] := by
  cases l with
  | word w => by_cases hw : isInteger w = true <;> simp [shorten, hw] at h
  | regex b fl => cases h
  | _ => exact h

theorem strip_minimal (ls : List Lexeme) : strip (spaced ((strip ls).map shorten)) = (strip ls).map shorten := by
  have hs : ∀ l ∈ (strip ls).map shorten, solid l = true := by
    intro l hl
    obtain ⟨l', hl', rfl⟩ := List.mem_map.1 hl
    rw [(shorten_class l').1]
    exact (List.mem_filter.1 ((List.dropWhile_suffix _).subset hl')).2
  have hh : ∀ l, (strip ls).head? = some l → l ≠ .punct [';'] := by
    unfold strip
    generalize ls.filter solid = us
    induction us with
    | nil => intro l h; cases h
    | cons a us ih =>
      rw [List.dropWhile_cons]
      split
      · exact ih
      · rename_i ha
        intro l h
        simp only [List.head?_cons, Option.some.injEq] at h
        rw [← h]
        simpa using ha
  generalize strip ls = us at hs hh
  unfold strip
  rw [filter_spaced _ hs]
  cases us with
  | nil => rfl
  | cons a us =>
    rw [List.map_cons, List.dropWhile_cons, if_neg]
    rw [beq_iff_eq]
    intro h
    exact hh a rfl (shorten_semi h)

theorem spaced_mem : ∀ (ls : List Lexeme) (l : Lexeme), l ∈ spaced ls → l ∈ ls ∨ l = .blank ' '
  | [], l, h => by cases h
  | [a], l, h => .inl h
  | a :: b :: ls, l, h => by
    have ih := spaced_mem (b :: ls) l
    rw [spaced] at h
    split at h
    · rcases List.mem_cons.1 h with h | h
      · exact .inl (by rw [h]; exact List.mem_cons_self)
      · rcases List.mem_cons.1 h with h | h
        · exact .inr h
        · rcases ih h with h | h
          · exact .inl (List.mem_cons_of_mem _ h)
          · exact .inr h
    · rcases List.mem_cons.1 h with h | h
      · exact .inl (by rw [h]; exact List.mem_cons_self)
      · rcases ih h with h | h
        · exact .inl (List.mem_cons_of_mem _ h)
        · exact .inr h

/-- The minified form of a closed and readable script is closed. -/
theorem closed_minimal {s : List Char} (h : Closed s) (hs : Readable (lex s)) : Closed (minimal (lex s)) := by
  intro l hl
  rw [lex_readable h hs] at hl
  rcases spaced_mem _ l hl with hl | rfl
  · obtain ⟨l', hl', rfl⟩ := List.mem_map.1 hl
    rw [(shorten_class l').2.1]
    exact (strip_solid (closed_lex h) l' hl').1
  · rfl

theorem minimal_idem {s : List Char} (h : Closed s) (hs : Readable (lex s)) : minimal (lex (minimal (lex s))) = minimal (lex s) := by
  have e : minimal (lex (minimal (lex s))) = textOf (spaced ((strip (lex (minimal (lex s)))).map shorten)) := rfl
  rw [e, lex_readable h hs, strip_minimal, List.map_map]
  have : shorten ∘ shorten = shorten := by funext l; exact shorten_idem l
  rw [this]
  rfl

/-! ## Size -/

/-- The words `in` and `instanceof`. -/
def isWordOp : Lexeme → Bool
  | .word w => wordOperator w
  | _ => false

theorem shortest_blen {w : List Char} (h : w ≠ []) : blen (shortest w) ≤ blen w := by
  have hs : ∀ w : List Char, blen (w.dropWhile (· == '0')) ≤ blen w := by
    intro w
    induction w with
    | nil => simp
    | cons c w ih =>
      rw [List.dropWhile_cons]
      split
      · simp only [blen_cons]; omega
      · exact Nat.le_refl _
  have e : shortest w = match w.dropWhile (· == '0') with | [] => ['0'] | w => w := rfl
  rw [e]
  have := hs w
  generalize w.dropWhile (· == '0') = x at this
  cases x with
  | nil =>
    cases w with
    | nil => exact absurd rfl h
    | cons c w =>
      have h1 := Char.utf8Size_pos c
      have h2 : blen ['0'] = 1 := by decide
      simp only [h2, blen_cons]; omega
  | cons => exact this

theorem shortFlags_blen (fl : List Char) : blen (shortFlags fl) ≤ blen fl := by
  have hm : ∀ (c : Char) (l : List Char), c ∈ l → blen [c] ≤ blen l := by
    intro c l h
    obtain ⟨a, b, rfl⟩ := List.append_of_mem h
    simp only [blen_append, blen_cons, blen_nil]; omega
  unfold shortFlags
  by_cases hg : fl.contains 'g' = true
  · rw [if_pos hg]
    by_cases hi : fl.contains 'i' = true
    · rw [if_pos hi]
      obtain ⟨a, b, rfl⟩ := List.append_of_mem (List.contains_iff_mem.1 hg)
      have hi' := List.contains_iff_mem.1 hi
      have : 'i' ∈ a ++ b := by
        simp only [List.mem_append, List.mem_cons] at hi' ⊢
        rcases hi' with h | h | h
        · exact .inl h
        · exact absurd h (by decide)
        · exact .inr h
      have := hm _ _ this
      simp only [blen_append, blen_cons, blen_nil] at this ⊢; omega
    · rw [if_neg hi, List.append_nil]
      exact hm _ _ (List.contains_iff_mem.1 hg)
  · rw [if_neg hg]
    by_cases hi : fl.contains 'i' = true
    · rw [if_pos hi]; exact hm _ _ (List.contains_iff_mem.1 hi)
    · rw [if_neg hi]; simp

theorem blen_shorten {l : Lexeme} {t : List Char} (h : Spells l t) (hs : solid l = true) (hw : ∀ w, l = .word w → w ≠ []) :
    blen (text (shorten l)) ≤ blen t := by
  cases h with
  | word =>
    by_cases hi : isInteger t = true
    · have : shorten (.word t) = .word (shortest t) := by simp [shorten, hi]
      rw [this]; exact shortest_blen (hw _ rfl)
    · have : shorten (.word t) = .word t := by simp [shorten, hi]
      rw [this]; exact Nat.le_refl _
  | blank => cases hs
  | «return» => cases hs
  | punct => exact Nat.le_refl _
  | str => exact Nat.le_refl _
  | regex b fl =>
    show blen ('/' :: b ++ '/' :: shortFlags fl) ≤ _
    have := shortFlags_blen fl
    simp only [List.cons_append, blen_cons, blen_append]; omega
  | line => cases hs
  | block => cases hs
  | license b => exact Nat.le_refl _

theorem spells_pos {l : Lexeme} {t : List Char} (h : Spells l t) (hs : solid l = false) : 1 ≤ blen t := by
  cases h with
  | blank c => have := Char.utf8Size_pos c; simp only [blen_cons]; omega
  | «return» => decide
  | line b c => have : ('/' : Char).utf8Size = 1 := rfl; simp only [List.cons_append, blen_cons]; omega
  | block b => have : ('/' : Char).utf8Size = 1 := rfl; simp only [List.cons_append, blen_cons]; omega
  | word | punct | str | regex | license => cases hs

private theorem gap_one {a b : Lexeme} (h : gap a b = true) : isWordOp b = true ∨ (∃ w w', a = .word w ∧ b = .word w') := by
  cases b with
  | word w' =>
    cases a with
    | word w => exact .inr ⟨w, w', rfl, rfl⟩
    | punct t => simp [gap] at h; exact .inl h.2
    | regex b fl => exact .inl h
    | license b => exact .inl h
    | _ => cases h
  | _ => cases a <;> cases h

/-- The form of the rest after lexeme `a`. -/
private def rest (ls : List Lexeme) : List Lexeme := (ls.filter solid).map shorten

private theorem after_size : ∀ (ls : List Lexeme) (s : List Char) (a : Lexeme), SpellsAll ls s → WordsApart ls →
    (∀ w, Lexeme.word w ∈ ls → w ≠ []) →
    blen (after a (rest ls)) ≤ blen s + ls.countP isWordOp + 1 ∧
    ((∀ w w' ls', a = .word w → ls ≠ .word w' :: ls') → blen (after a (rest ls)) ≤ blen s + ls.countP isWordOp) := by
  intro ls
  induction ls with
  | nil => intro s a h _ _; cases h; simp [rest, after]
  | cons l ls ih =>
    intro s a h hw hne
    cases h with
    | cons h1 h2 =>
      rename_i t s'
      have hne' : ∀ w, Lexeme.word w ∈ ls → w ≠ [] := fun w hm => hne w (List.mem_cons_of_mem _ hm)
      obtain ⟨i1, i2⟩ := ih s' a h2 hw.tail hne'
      have hcount : (l :: ls).countP isWordOp = ls.countP isWordOp + if isWordOp l then 1 else 0 := by
        rw [List.countP_cons]
      by_cases hs : solid l = true
      · have hr : rest (l :: ls) = shorten l :: rest ls := by simp [rest, hs]
        rw [hr]
        have hafter : after a (shorten l :: rest ls) = (if gap a (shorten l) then [' '] else []) ++ (text (shorten l) ++ after (shorten l) (rest ls)) := by
          rw [← textOf_spaced_cons]
          simp only [after]
          split <;> rfl
        rw [hafter]
        have hsz := blen_shorten h1 hs (fun w e => hne w (by rw [e]; exact List.mem_cons_self))
        obtain ⟨-, j2⟩ := ih s' (shorten l) h2 hw.tail hne'
        have hrest : blen (after (shorten l) (rest ls)) ≤ blen s' + ls.countP isWordOp := by
          refine j2 ?_
          rintro w w' ls' he rfl
          have : ∃ w0, l = .word w0 := by
            cases l with
            | word w0 => exact ⟨w0, rfl⟩
            | regex b fl => cases he
            | _ => exact absurd he (by intro h; cases h)
          obtain ⟨w0, rfl⟩ := this
          exact hw [] w0 w' ls' rfl
        have hgap : blen (if gap a (shorten l) then [' '] else []) ≤ 1 := by split <;> decide
        rw [hcount]
        simp only [blen_append]
        refine ⟨by omega, ?_⟩
        intro hcond
        by_cases hg : gap a (shorten l) = true
        · have hop : isWordOp l = true := by
            rcases gap_one hg with h | ⟨w, w', rfl, he⟩
            · cases l with
              | word w0 =>
                by_cases hi : isInteger w0 = true
                · exfalso
                  have e : shorten (.word w0) = .word (shortest w0) := by simp [shorten, hi]
                  rw [e] at h
                  have hd := (isInteger_iff.1 (shortest_ok hi).1).2.1
                  have : wordOperator (shortest w0) = true := h
                  simp only [wordOperator, Bool.or_eq_true, beq_iff_eq] at this
                  rcases this with this | this <;> rw [this] at hd <;> exact absurd (hd 'n' (by decide +kernel)) (by decide +kernel)
                · have e : shorten (.word w0) = .word w0 := by simp [shorten, hi]
                  rw [e] at h; exact h
              | regex b fl => exact h
              | _ => exact h
            · exfalso
              cases l with
              | word w0 => exact hcond w w0 ls rfl rfl
              | regex b fl => cases he
              | _ => cases he
          rw [if_pos hop]; omega
        · have : blen (if gap a (shorten l) then [' '] else []) = 0 := by rw [if_neg hg]; rfl
          omega
      · have hr : rest (l :: ls) = rest ls := by simp [rest, hs]
        have hpos := spells_pos h1 (by simpa using hs)
        rw [hr, hcount]
        simp only [blen_append]
        refine ⟨by omega, fun _ => by omega⟩

private theorem drop_size (us : List Lexeme) (p : Lexeme → Bool) :
    blen (textOf (spaced ((us.dropWhile p).map shorten))) ≤ blen (textOf (spaced (us.map shorten))) := by
  induction us with
  | nil => exact Nat.le_refl _
  | cons a us ih =>
    rw [List.dropWhile_cons]
    split
    · refine Nat.le_trans ih ?_
      rw [List.map_cons, textOf_spaced_cons, blen_append]
      cases us.map shorten with
      | nil => simp [spaced, textOf]
      | cons b us =>
        simp only [after]
        split
        · simp only [blen_cons]; omega
        · omega
    · exact Nat.le_refl _

/-- The minified form is not larger than the script, but for a blank before each `in` and `instanceof`. -/
theorem minimal_size {s : List Char} (h : Closed s) : blen (minimal (lex s)) ≤ blen s + (lex s).countP isWordOp := by
  obtain ⟨h1, h2⟩ := lex_spells h
  have hne : ∀ w, Lexeme.word w ∈ lex s → w ≠ [] := by
    intro w hw
    obtain ⟨-, v, hv⟩ := closed_lex h _ hw
    exact hv.1
  have h3 := (after_size (lex s) s (.blank ' ') h1 h2 hne).2 (by intro w w' ls' he; cases he)
  refine Nat.le_trans (drop_size _ _) ?_
  have : after (.blank ' ') (rest (lex s)) = textOf (spaced (rest (lex s))) := by
    cases rest (lex s) with
    | nil => rfl
    | cons b us => simp [after, gap]
  rw [this] at h3
  exact h3

end Verif.Js
