import Verif.Spec.JsText
import Verif.Proofs.JsRelex
/-!
# The lexemes of a script spell the script
-/
set_option linter.unusedSimpArgs false
namespace Verif.Js
open Spec.Js

theorem _root_.Verif.Spec.Js.SpellsAll.append {a b : List Lexeme} {s t : List Char} (h : SpellsAll a s) (h' : SpellsAll b t) :
    SpellsAll (a ++ b) (s ++ t) := by
  induction h with
  | nil => exact h'
  | cons h1 _ ih => rw [List.append_assoc]; exact .cons h1 ih

theorem _root_.Verif.Spec.Js.SpellsAll.single {l : Lexeme} {t : List Char} (h : Spells l t) : SpellsAll [l] t := by
  have := SpellsAll.cons h SpellsAll.nil
  rwa [List.append_nil] at this

theorem _root_.Verif.Spec.Js.SpellsAll.split {a b : List Lexeme} : ∀ {s : List Char}, SpellsAll (a ++ b) s →
    ∃ s1 s2, s = s1 ++ s2 ∧ SpellsAll a s1 ∧ SpellsAll b s2 := by
  induction a with
  | nil => intro s h; exact ⟨[], s, rfl, .nil, h⟩
  | cons l a ih =>
    intro s h
    cases h with
    | cons h1 h2 =>
      obtain ⟨s1, s2, h3, h4, h5⟩ := ih h2
      exact ⟨_ ++ s1, s2, by rw [h3, List.append_assoc], .cons h1 h4, h5⟩

private def SpR (v : List Lexeme) (p : List Char) : Prop := SpellsAll v.reverse p

private theorem SpR.push {v : List Lexeme} {p t : List Char} {l : Lexeme} (h : SpR v p) (hl : Spells l t) : SpR (l :: v) (p ++ t) := by
  unfold SpR
  rw [List.reverse_cons]
  exact h.append (.single hl)

private theorem SpR.addWord {v : List Lexeme} {p w : List Char} (h : SpR v p) : SpR (addWord v w) (p ++ w) := by
  unfold Spec.Js.addWord
  cases w with
  | nil => simpa using h
  | cons c w => simp only [List.isEmpty_cons, Bool.false_eq_true, if_false]; exact h.push (.word _)

private theorem SpR.addPunct {v : List Lexeme} {p : List Char} {c : Char} (h : SpR v p) : SpR (addPunct v c) (p ++ [c]) := by
  unfold Spec.Js.addPunct
  split
  · rename_i t v'
    split
    · unfold SpR at h
      rw [List.reverse_cons] at h
      obtain ⟨s1, s2, rfl, h1, h2⟩ := h.split
      cases h2 with
      | cons h3 h4 =>
        cases h4
        cases h3
        rw [List.append_nil, List.append_assoc]
        exact SpR.push h1 (.punct _)
    · exact h.push (.punct _)
  · exact h.push (.punct _)

/-- No word directly follows another one, and the last lexeme is no word. -/
private def Apart (v : List Lexeme) : Prop := WordsApart v ∧ ∀ w v', v ≠ .word w :: v'

theorem _root_.Verif.Spec.Js.WordsApart.cons {v : List Lexeme} {l : Lexeme} (h : WordsApart v) (hl : (∀ w, l ≠ .word w) ∨ ∀ w v', v ≠ .word w :: v') :
    WordsApart (l :: v) := by
  intro p w w' q he
  cases p with
  | nil =>
    simp only [List.nil_append, List.cons.injEq] at he
    rcases hl with hl | hl
    · exact hl w he.1
    · exact hl w' q he.2
  | cons x p =>
    simp only [List.cons_append, List.cons.injEq] at he
    exact h p w w' q he.2

private theorem Apart.addWord {v : List Lexeme} {w : List Char} (h : Apart v) : WordsApart (addWord v w) := by
  unfold Spec.Js.addWord
  split
  · exact h.1
  · exact h.1.cons (.inr h.2)

theorem _root_.Verif.Spec.Js.WordsApart.push {v : List Lexeme} {l : Lexeme} (h : WordsApart v) (hl : ∀ w, l ≠ .word w) : Apart (l :: v) :=
  ⟨h.cons (.inl hl), fun w v' he => hl w (by simp at he; exact he.1)⟩

theorem _root_.Verif.Spec.Js.WordsApart.tail {v : List Lexeme} {l : Lexeme} (h : WordsApart (l :: v)) : WordsApart v := by
  intro p w w' q he
  exact h (l :: p) w w' q (by rw [he]; rfl)

theorem _root_.Verif.Spec.Js.WordsApart.addPunct {v : List Lexeme} {c : Char} (h : WordsApart v) : Apart (addPunct v c) := by
  unfold Spec.Js.addPunct
  split
  · split
    · exact h.tail.push (by intro w he; cases he)
    · exact h.push (by intro w he; cases he)
  · exact h.push (by intro w he; cases he)

theorem closeLine_split : ∀ (cs b r : List Char), closeLine cs = some (b, r) →
    ∃ c, isNewline c = true ∧ cs = b ++ c :: r ∧ ∀ x ∈ b, isNewline x = false
  | [], b, r, h => by simp [closeLine] at h
  | x :: cs, b, r, h => by
    rw [closeLine] at h
    split at h
    · rename_i hx
      simp only [Option.some.injEq, Prod.mk.injEq] at h
      obtain ⟨rfl, rfl⟩ := h
      exact ⟨x, hx, rfl, by simp⟩
    · cases hc : closeLine cs with
      | none => rw [hc] at h; simp at h
      | some p =>
        rw [hc] at h
        simp only [Option.map_some, Option.some.injEq, Prod.mk.injEq] at h
        obtain ⟨rfl, rfl⟩ := h
        obtain ⟨c, h1, h2, h3⟩ := closeLine_split cs p.1 p.2 hc
        rename_i hx
        refine ⟨c, h1, by rw [h2]; rfl, fun y hy => ?_⟩
        rcases List.mem_cons.1 hy with rfl | hy
        · simpa using hx
        · exact h3 y hy

private theorem lexFrom_spells : ∀ (n : Nat) (v : List Lexeme) (p w cs : List Char), cs.length < n → SpR v p → Apart v →
    (∀ l ∈ lexFrom n v w cs, isOpen l = false) →
    SpR (lexFrom n v w cs) (p ++ w ++ cs) ∧ WordsApart (lexFrom n v w cs) := by
  intro n
  induction n with
  | zero => intro v p w cs h; omega
  | succ n ih =>
    intro v p w cs hl hv ha ho
    cases cs with
    | nil => rw [lexFrom]; exact ⟨by rw [List.append_nil]; exact hv.addWord, ha.addWord⟩
    | cons c cs =>
      have hl1 : cs.length < n := by simpa using hl
      have hmid : ∀ (x : List Char), p ++ (w ++ [c]) ++ x = p ++ w ++ c :: x := by intro x; simp
      rw [lexFrom] at ho ⊢
      by_cases h1 : c = '.' ∧ dotInWord w cs = true
      · rw [if_pos h1] at ho ⊢
        rw [← hmid]; exact ih v p (w ++ [c]) cs hl1 hv ha ho
      rw [if_neg h1] at ho ⊢
      by_cases h2 : isBlank c = true
      · rw [if_pos h2] at ho ⊢
        have hsp : Spells (.blank (if c = '\r' then '\n' else c)) [c] := by
          by_cases hc : c = '\r'
          · rw [if_pos hc, hc]; exact .return
          · rw [if_neg hc]; exact .blank c
        have := ih _ (p ++ w ++ [c]) [] cs hl1 ((hv.addWord).push hsp) (ha.addWord.push (by intro w he; cases he)) ho
        simpa using this
      rw [if_neg h2] at ho ⊢
      by_cases h3 : (!isPunct c) = true
      · rw [if_pos h3] at ho ⊢
        rw [← hmid]; exact ih v p (w ++ [c]) cs hl1 hv ha ho
      rw [if_neg h3] at ho ⊢
      simp only at ho ⊢
      have hu := hv.addWord (w := w)
      have hua := ha.addWord (w := w)
      generalize Spec.Js.addWord v w = u at hu hua ho
      generalize p ++ w = p' at hu
      -- all other cases: a piece `t` of the text becomes a lexeme `l`
      have piece : ∀ (l : Lexeme) (t r : List Char), Spells l t → (∀ w, l ≠ .word w) → r.length < n → c :: cs = t ++ r →
          (∀ l' ∈ lexFrom n (l :: u) [] r, isOpen l' = false) →
          SpR (lexFrom n (l :: u) [] r) (p' ++ c :: cs) ∧ WordsApart (lexFrom n (l :: u) [] r) := by
        intro l t r hsp hw hr he ho
        have := ih (l :: u) (p' ++ t) [] r hr (hu.push hsp) (hua.push hw) ho
        rw [he]
        simpa using this
      by_cases h4 : c = '"' ∨ c = '\''
      · simp only [if_pos h4] at ho ⊢
        cases hc : closeString c cs with
        | none => rw [hc] at ho; exact absurd (ho _ List.mem_cons_self) (by simp [isOpen])
        | some q =>
          obtain ⟨t, r⟩ := q
          rw [hc] at ho
          obtain ⟨-, hs, -⟩ := closeString_stable c _ cs t r (Nat.lt_succ_self _) hc
          have hle : r.length ≤ cs.length := by rw [hs]; simp
          exact piece _ _ r (.str _) (by intro w he; cases he) (by omega) (by rw [hs]; rfl) ho
      simp only [if_neg h4] at ho ⊢
      by_cases h5 : c = '`'
      · simp only [if_pos h5] at ho ⊢
        cases hc : closeTemplate maxNesting (.text []) cs with
        | unclosed => rw [hc] at ho; exact absurd (ho _ List.mem_cons_self) (by simp [isOpen])
        | tooDeep => rw [hc] at ho; exact absurd (ho _ List.mem_cons_self) (by simp [isOpen])
        | closed t r =>
          rw [hc] at ho
          have hs := closeTemplate_split _ _ _ cs (Nat.lt_succ_self _) hc
          have hle : r.length ≤ cs.length := by rw [hs]; simp
          exact piece _ _ r (.str _) (by intro w he; cases he) (by omega) (by rw [hs]; rfl) ho
      simp only [if_neg h5] at ho ⊢
      have punct : (∀ l' ∈ lexFrom n (Spec.Js.addPunct u c) [] cs, isOpen l' = false) →
          SpR (lexFrom n (Spec.Js.addPunct u c) [] cs) (p' ++ c :: cs) ∧ WordsApart (lexFrom n (Spec.Js.addPunct u c) [] cs) := by
        intro ho
        have := ih _ (p' ++ [c]) [] cs hl1 hu.addPunct hua.addPunct ho
        simpa using this
      by_cases h6 : c = '/'
      case neg => simp only [if_neg h6] at ho ⊢; exact punct ho
      simp only [if_pos h6] at ho ⊢
      cases cs with
      | nil => exact ⟨hu.addPunct, hua.addPunct.1⟩
      | cons d cs =>
        have hl2 : cs.length < n := by simp at hl1; omega
        simp only at ho ⊢
        by_cases h7 : d = '/'
        · simp only [if_pos h7] at ho ⊢
          cases hc : closeLine cs with
          | none => rw [hc] at ho; exact absurd (ho _ List.mem_cons_self) (by simp [isOpen])
          | some q =>
            rw [hc] at ho
            obtain ⟨x, hx, hs, hb⟩ := closeLine_split cs q.1 q.2 hc
            have hle : q.2.length ≤ cs.length := by rw [hs]; simp; omega
            exact piece _ _ q.2 (.line q.1 x hx hb) (by intro w he; cases he) (by omega) (by rw [hs, h6, h7]; simp) ho
        simp only [if_neg h7] at ho ⊢
        by_cases h8 : d = '*'
        · simp only [if_pos h8] at ho ⊢
          cases hc : closeBlock cs with
          | none => rw [hc] at ho; exact absurd (ho _ List.mem_cons_self) (by simp [isOpen])
          | some q =>
            rw [hc] at ho
            have hs := (closeBlock_stable cs q.1 q.2 hc).1
            have hle : q.2.length ≤ cs.length := by rw [hs]; simp; omega
            refine piece (blockLexeme q.1) ('/' :: '*' :: q.1 ++ ['*', '/']) q.2 ?_ ?_ (by omega) (by rw [hs, h6, h8]; simp) ho
            · have hb := (closeBlock_stable cs q.1 q.2 hc).2 []
              generalize q.1 = b at hb
              unfold blockLexeme
              split
              · exact .license _
              · exact .block _ hb
            · intro w
              unfold blockLexeme
              split <;> (intro he; cases he)
        simp only [if_neg h8] at ho ⊢
        by_cases h9 : regexPossible u = true
        · simp only [if_pos h9] at ho ⊢
          cases hc : closeRegex (d :: cs) with
          | none =>
            rw [hc] at ho
            simp only at ho ⊢
            by_cases h10 : calm (regexLine (d :: cs)) = true
            · rw [if_pos h10] at ho ⊢
              exact piece _ [c] _ (.punct _) (by intro w he; cases he) hl1 rfl ho
            · rw [if_neg h10] at ho
              exact absurd (ho _ List.mem_cons_self) (by simp [isOpen])
          | some q =>
            rw [hc] at ho
            have hs := (closeRegex_stable _ (d :: cs) q.1 q.2 (Nat.lt_succ_self _) hc).1
            have hle : q.2.length ≤ (d :: cs).length := by rw [hs]; simp; omega
            have hle2 := (List.dropWhile_suffix (l := q.2) isFlag).length_le
            refine piece _ _ _ (.regex q.1 _) (by intro w he; cases he) (by simp at hle hl1; omega) ?_ ho
            rw [hs, h6]
            simp [List.takeWhile_append_dropWhile]
        · simp only [if_neg h9] at ho ⊢
          exact punct ho

/-- The lexemes of a closed script spell it, and no word directly follows another. -/
theorem lex_spells {s : List Char} (h : Closed s) : SpellsAll (lex s) s ∧ WordsApart (lex s) := by
  have := lexFrom_spells (s.length + 1) [] [] [] s (Nat.lt_succ_self _) .nil
    ⟨(by intro p w w' q he; cases p <;> cases he), (by intro w v' he; cases he)⟩
    (fun l hl => h l (List.mem_reverse.2 hl))
  refine ⟨this.1, ?_⟩
  intro p w w' q he
  refine this.2 q.reverse w' w p.reverse ?_
  have := congrArg List.reverse he
  unfold lex at this
  rw [List.reverse_reverse] at this
  rw [show lexFrom (s.length + 1) [] [] s = lexRev s from rfl, this]
  simp

end Verif.Js
