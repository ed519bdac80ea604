import Verif.Props.JsMinify
import Verif.Proofs.JsKeep
/-!
# C44: exactly which scripts are written as they are read
-/
set_option linter.unusedSimpArgs false
namespace Verif.Js
open Spec.Js

private theorem required_blank {t : Token} {c : Char} (h : t.getRequired = some c) : c = ' ' := by
  cases t <;> cases h <;> rfl

private theorem solids_after (t : Token) (next : Option Token) : solids (spaceAfter t next).toList = 0 := by
  have key : ∀ o : Option Token, solids (o.bind Token.getRequired).toList = 0 := by
    intro o
    cases o with
    | none => rfl
    | some u =>
      show solids u.getRequired.toList = 0
      cases hu : u.getRequired with
      | none => rfl
      | some c => rw [required_blank hu]; decide
  cases t <;> first | exact key next | rfl

private theorem displayFrom_solids : ∀ (ts : List Token) (prev : Option Token),
    solids (displayFrom prev ts) = (ts.map fun t => solids t.display).sum
  | [], _ => rfl
  | t :: ts, prev => by
    rw [displayFrom, solids_append, solids_append, solids_append, displayFrom_solids ts, solids_after, List.map_cons, List.sum_cons]
    have : solids (if spaceBefore prev t then [' '] else []) = 0 := by split <;> decide
    omega

/-- Lexemes whose shortest spelling is as long as the one that was read. -/
private inductive Level : List Lexeme → List Char → Prop
  | nil : Level [] []
  | cons {l : Lexeme} {ls : List Lexeme} {t s : List Char} : Spells l t → Shown l → (text (shorten l)).length = t.length → Level ls s →
      Level (l :: ls) (t ++ s)

private theorem tok_solids {v : List Lexeme} {l : Lexeme} {t : List Char} (hl : LexOk v l) (ho : isOpen l = false) (hs : Spells l t) :
    solids (tokOf l).display ≤ solids t ∧
      (solids (tokOf l).display = solids t → Shown l ∧ (text (shorten l)).length = t.length) := by
  cases hsol : solid l with
  | true =>
    rw [display_tokOf ⟨ho, hsol, v, hl⟩]
    obtain ⟨h1, h2⟩ := shorten_solids hl hs hsol
    exact ⟨h1, fun e => ⟨⟨ho, plain_of ⟨hsol, ho⟩, v, hl⟩, h2 e⟩⟩
  | false =>
    have comment : ∀ b x y : List Char, t = '/' :: x ++ b ++ y → solids b < solids t := by
      intro b x y e
      rw [e, solids_append, solids_append]
      have : solids ('/' :: x) = solids x + 1 := by simp [solids, List.countP_cons, show isBlank '/' = false by decide]
      omega
    cases l with
    | blank c =>
      have hsh : Shown (.blank c) := ⟨ho, rfl, v, hl⟩
      have ht : t.length = 1 ∧ (solids (tokOf (.blank c)).display = 0) := by
        rw [display_shown hsh]
        have : solids (text (shorten (.blank c))) = 0 := by
          show solids [c] = 0
          simp [solids, hl.1]
        cases hs <;> exact ⟨rfl, this⟩
      rw [ht.2]
      exact ⟨Nat.zero_le _, fun _ => ⟨hsh, ht.1.symm⟩⟩
    | comment b =>
      have : solids b < solids t := by
        cases hs with
        | line _ c _ _ => exact comment b ['/'] [c] rfl
        | block _ _ => exact comment b ['*'] ['*', '/'] rfl
      show solids b ≤ solids t ∧ (solids b = solids t → _)
      exact ⟨by omega, fun e => by omega⟩
    | _ => cases hsol

private theorem level_of {ls : List Lexeme} {s : List Char} (h : SpellsAll ls s) (hok : ∀ l ∈ ls, isOpen l = false ∧ ∃ v, LexOk v l) :
    ((ls.map tokOf).map fun t => solids t.display).sum ≤ solids s ∧
      (((ls.map tokOf).map fun t => solids t.display).sum = solids s → Level ls s) := by
  induction h with
  | nil => exact ⟨Nat.le_refl _, fun _ => .nil⟩
  | @cons l ls t s h1 _ ih =>
    obtain ⟨i1, i2⟩ := ih fun l hl => hok l (List.mem_cons_of_mem _ hl)
    obtain ⟨ho, v, hl⟩ := hok l List.mem_cons_self
    obtain ⟨t1, t2⟩ := tok_solids hl ho h1
    simp only [List.map_cons, List.sum_cons, solids_append]
    refine ⟨by omega, fun e => ?_⟩
    obtain ⟨t3, t4⟩ := t2 (by omega)
    exact .cons h1 t3 t4 (i2 (by omega))

private theorem level_shown {ls : List Lexeme} {s : List Char} (h : Level ls s) : (∀ l ∈ ls, Shown l) ∧ (textOf (ls.map shorten)).length = s.length := by
  induction h with
  | nil => exact ⟨by simp, rfl⟩
  | cons _ h2 h3 _ ih =>
    refine ⟨fun l hl => ?_, ?_⟩
    · rcases List.mem_cons.1 hl with rfl | hl
      · exact h2
      · exact ih.1 l hl
    · rw [List.map_cons, textOf_cons, List.length_append, List.length_append, h3, ih.2]

private theorem level_same {ls : List Lexeme} {s : List Char} (h : Level ls s) (he : textOf (ls.map shorten) = s) :
    (∀ l ∈ ls, unchanged l = true) ∧ textOf ls = s := by
  induction h with
  | nil => exact ⟨by simp, rfl⟩
  | @cons l ls t s h1 h2 h3 h4 ih =>
    rw [List.map_cons, textOf_cons] at he
    obtain ⟨e1, e2⟩ := List.append_inj he h3
    obtain ⟨i1, i2⟩ := ih e2
    have hsame : shorten l = l := by
      cases h1 with
      | word =>
        by_cases hi : isInteger t = true
        · have e : shorten (.word t) = .word (shortest t) := by simp [shorten, hi]
          rw [e] at e1 ⊢
          have e1 : shortest t = t := e1
          rw [e1]
        · simp [shorten, hi]
      | regex b fl =>
        have e : '/' :: b ++ '/' :: shortFlags fl = '/' :: b ++ '/' :: fl := e1
        have e := (List.append_inj e rfl).2
        show Lexeme.regex b (shortFlags fl) = .regex b fl
        rw [(List.cons.inj e).2]
      | _ => rfl
    have hun : unchanged l = true := by
      have := h2.2.1
      cases l with
      | comment b => cases this
      | _ => simp [unchanged, hsame]
    refine ⟨fun x hx => ?_, ?_⟩
    · rcases List.mem_cons.1 hx with rfl | hx
      · exact hun
      · exact i1 x hx
    · rw [textOf_cons, i2, ← e1, hsame]

private theorem spaced_length : ∀ ls : List Lexeme, (textOf ls).length ≤ (textOf (spaced ls)).length ∧
    ((textOf (spaced ls)).length = (textOf ls).length → spaced ls = ls)
  | [] => ⟨Nat.le_refl _, fun _ => rfl⟩
  | [a] => ⟨Nat.le_refl _, fun _ => rfl⟩
  | a :: b :: ls => by
    obtain ⟨i1, i2⟩ := spaced_length (b :: ls)
    rw [spaced, textOf_cons a]
    split
    · have hb : text (.blank ' ') = [' '] := rfl
      rw [textOf_cons a (.blank ' ' :: _), textOf_cons (.blank ' '), hb]
      simp only [List.length_append, List.length_cons, List.length_nil]
      exact ⟨by omega, fun e => by omega⟩
    · rw [textOf_cons a (spaced _)]
      simp only [List.length_append]
      exact ⟨by omega, fun e => by rw [i2 (by omega)]⟩

/-- C44, exactly: the text of the untouched token list of a closed source is the source if and only if the source has no comments, no
superfluous zeros or flags, no carriage return as a line break (its lexemes are what stands there), and blanks wherever the writer puts
one. -/
theorem C44_iff (s : List Char) (h : Closed s) :
    (∃ ts, tokenize s = .ok ts ∧ display ts = s) ↔
      (∀ l ∈ lex s, unchanged l = true) ∧ textOf (lex s) = s ∧ spaced (lex s) = lex s := by
  have hok := closed_lex h
  constructor
  · rintro ⟨ts, h1, h2⟩
    rw [tokenize_closed h] at h1
    cases h1
    have hlev : Level (lex s) s := by
      refine (level_of (lex_spells h).1 hok).2 ?_
      have := displayFrom_solids ((lex s).map tokOf) none
      rw [← this]
      exact congrArg solids h2
    obtain ⟨hsh, hlen⟩ := level_shown hlev
    rw [display_layout hsh] at h2
    have hsp := (spaced_length ((lex s).map shorten)).2 (by rw [h2, hlen])
    rw [hsp] at h2
    obtain ⟨h3, h4⟩ := level_same hlev h2
    have hmap : (lex s).map shorten = lex s := by
      refine (List.map_congr_left fun l hl => ?_).trans (List.map_id _)
      have := h3 l hl
      unfold unchanged at this
      rw [Bool.and_eq_true, beq_iff_eq] at this
      exact this.2
    rw [hmap] at hsp
    exact ⟨h3, h4, hsp⟩
  · rintro ⟨h1, h2, h3⟩
    refine ⟨_, tokenize_closed h, ?_⟩
    have hsh : ∀ l ∈ lex s, Shown l := by
      intro l hl
      obtain ⟨ho, hv⟩ := hok l hl
      have := h1 l hl
      refine ⟨ho, ?_, hv⟩
      cases l with
      | comment b => cases this
      | _ => first | rfl | cases ho
    have hmap : (lex s).map shorten = lex s := by
      refine (List.map_congr_left fun l hl => ?_).trans (List.map_id _)
      have := h1 l hl
      unfold unchanged at this
      rw [Bool.and_eq_true, beq_iff_eq] at this
      exact this.2
    rw [display_layout hsh, hmap, h3, h2]

/-- Both cases occur: a carriage return in a string does no harm, the one between two lines is not written. -/
example : Closed "a = 'x\ry' in b".toList ∧ Closed "a\r\nb".toList ∧
    (∀ l ∈ lex "a = 'x\ry' in b".toList, unchanged l = true) ∧ textOf (lex "a = 'x\ry' in b".toList) = "a = 'x\ry' in b".toList ∧
    spaced (lex "a = 'x\ry' in b".toList) = lex "a = 'x\ry' in b".toList ∧ textOf (lex "a\r\nb".toList) ≠ "a\r\nb".toList := by
  unfold Closed
  refine ⟨?_, ?_, ?_, ?_, ?_, ?_⟩ <;> decide +kernel

end Verif.Js
