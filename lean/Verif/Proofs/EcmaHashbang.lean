import Verif.Spec.EcmaHashbang
import Verif.Proofs.JsRead
/-!
# What becomes of hashbang comments
-/
set_option linter.unusedSimpArgs false
namespace Verif.Js
open Spec.Js Spec.Ecma

theorem afterLine_none : ∀ {r : List Char}, (∀ c ∈ r, lineEnd c = false) → afterLine r = none
  | [], _ => rfl
  | c :: r, h => by
    rw [afterLine, h c (by simp)]
    exact afterLine_none fun x hx => h x (by simp [hx])

theorem code_nil {s : List Char} (h : Hashbang s) (hn : ∀ c ∈ s, lineEnd c = false) : code s = [] := by
  obtain ⟨r, rfl⟩ := h
  rw [code, afterLine_none fun c hc => hn c (by simp [hc])]; rfl

theorem shortenText_mem {l : Lexeme} {c : Char} (h : c ∈ text (shorten l)) : c ∈ text l ∨ lineEnd c = false := by
  cases l with
  | word w =>
    rw [shorten] at h
    split at h
    · simp only [text, shortest] at h
      split at h
      · simp only [List.mem_singleton] at h
        subst h; exact .inr (by decide +kernel)
      · exact .inl ((List.dropWhile_suffix _).subset h)
    · exact .inl h
  | regex b fl =>
    simp only [shorten, text, shortFlags, List.cons_append, List.mem_cons, List.mem_append] at h ⊢
    have : ∀ c, c ∈ (if fl.contains 'g' then ['g'] else []) → lineEnd c = false := by
      intro c hc; split at hc
      · rw [List.mem_singleton.1 hc]; decide +kernel
      · cases hc
    have h' : ∀ c, c ∈ (if fl.contains 'i' then ['i'] else []) → lineEnd c = false := by
      intro c hc; split at hc
      · rw [List.mem_singleton.1 hc]; decide +kernel
      · cases hc
    rcases h with h | h | h | h | h
    · exact .inl (.inl h)
    · exact .inl (.inr (.inl h))
    · exact .inl (.inr (.inr (.inl h)))
    · exact .inr (this c h)
    · exact .inr (h' c h)
  | _ => exact .inl h

theorem spacedText_mem : ∀ {ls : List Lexeme} {c : Char}, c ∈ textOf (spaced ls) → c = ' ' ∨ ∃ l ∈ ls, c ∈ text l
  | [], c, h => by simp [spaced, textOf] at h
  | [a], c, h => by
    simp only [spaced, textOf, List.flatMap_cons, List.flatMap_nil, List.append_nil] at h
    exact .inr ⟨a, by simp, h⟩
  | a :: b :: ls, c, h => by
    have ih := spacedText_mem (ls := b :: ls) (c := c)
    have : c ∈ text a ∨ c = ' ' ∨ c ∈ textOf (spaced (b :: ls)) := by
      rw [spaced] at h
      split at h
      · simp only [textOf, List.flatMap_cons, List.mem_append, text, List.mem_singleton] at h
        exact h
      · simp only [textOf, List.flatMap_cons, List.mem_append] at h
        rcases h with h | h
        · exact .inl h
        · exact .inr (.inr h)
    rcases this with h | h | h
    · exact .inr ⟨a, by simp, h⟩
    · exact .inl h
    · rcases ih h with h | ⟨l, hl, h⟩
      · exact .inl h
      · exact .inr ⟨l, by simp [hl], h⟩

/-- The characters of the output are blanks or stand in the lexemes that matter. -/
theorem minimal_lines {ls : List Lexeme} (h : ∀ l ∈ ls, solid l = true → ∀ c ∈ text l, lineEnd c = false) :
    ∀ c ∈ minimal ls, lineEnd c = false := by
  intro c hc
  rcases spacedText_mem hc with rfl | ⟨l, hl, hc⟩
  · decide +kernel
  · obtain ⟨l, hm, rfl⟩ := List.mem_map.1 hl
    have hl := List.mem_filter.1 ((List.dropWhile_suffix _).subset hm)
    rcases shortenText_mem hc with hc | hc
    · exact h l hl.1 hl.2 c hc
    · exact hc

/-- The lexemes of a script that begins with `#!`. -/
theorem lex_hashbang {s : List Char} (h : Closed s) (hb : Hashbang s) : ∃ t ls, lex s = .word ['#'] :: .punct ('!' :: t) :: ls := by
  obtain ⟨r, rfl⟩ := hb
  have hok := closed_lex h
  obtain ⟨hs, -⟩ := lex_spells h
  generalize lex ('#' :: '!' :: r) = ls at hs hok
  generalize hx : '#' :: '!' :: r = x at hs
  cases hs with
  | nil => cases hx
  | @cons l ls t s h1 h2 =>
    obtain ⟨-, v, hl⟩ := hok l (by simp)
    have first : l = .word ['#'] ∧ t = ['#'] := by
      cases h1 with
      | word =>
        obtain ⟨hne, cs, -, hw⟩ := hl
        cases t with
        | nil => exact absurd rfl hne
        | cons c t =>
          obtain ⟨rfl, e⟩ := List.cons.inj hx
          cases t with
          | nil => exact ⟨rfl, rfl⟩
          | cons d t =>
            obtain ⟨rfl, e⟩ := List.cons.inj e
            exact absurd (hw ['#'] '!' t rfl).2 (by simp [show isPunct '!' = true by decide +kernel])
      | blank c =>
        obtain ⟨rfl, e⟩ := List.cons.inj hx
        exact absurd hl.1 (by decide +kernel)
      | «return» => exact absurd (List.cons.inj hx).1 (by decide)
      | punct =>
        have : ∀ t ∈ puncts, t ≠ [] ∧ t.head? ≠ some '#' := by decide +kernel
        have := this t hl
        cases t with
        | nil => exact absurd rfl this.1
        | cons c t =>
          rw [← (List.cons.inj hx).1] at this
          exact absurd rfl this.2
      | str =>
        obtain ⟨q, b, rfl, h⟩ := hl
        have := (List.cons.inj hx).1
        subst this
        rcases h with ⟨h | h, -⟩ | ⟨h, -⟩ <;> exact absurd h (by decide)
      | regex | license | line | block => exact absurd (List.cons.inj hx).1 (by decide)
    obtain ⟨rfl, rfl⟩ := first
    have hx : '!' :: r = s := (List.cons.inj hx).2
    cases h2 with
    | nil => cases hx
    | @cons l ls t s h1 h2 =>
      obtain ⟨-, v, hl⟩ := hok l (by simp)
      cases h1 with
      | punct =>
        have : t ≠ [] := by
          have : ∀ t ∈ puncts, t ≠ [] := by decide +kernel
          exact this t hl
        cases t with
        | nil => exact absurd rfl this
        | cons c t =>
          obtain ⟨rfl, e⟩ := List.cons.inj hx
          exact ⟨t, ls, rfl⟩
      | word =>
        obtain ⟨hne, cs, -, hw⟩ := hl
        cases t with
        | nil => exact absurd rfl hne
        | cons c t =>
          obtain ⟨rfl, e⟩ := List.cons.inj hx
          exact absurd (hw [] '!' t rfl).2 (by simp [show isPunct '!' = true by decide +kernel])
      | blank c =>
        obtain ⟨rfl, e⟩ := List.cons.inj hx
        exact absurd hl.1 (by decide +kernel)
      | «return» => exact absurd (List.cons.inj hx).1 (by decide)
      | str =>
        obtain ⟨q, b, rfl, h⟩ := hl
        have := (List.cons.inj hx).1
        subst this
        rcases h with ⟨h | h, -⟩ | ⟨h, -⟩ <;> exact absurd h (by decide)
      | regex | license | line | block => exact absurd (List.cons.inj hx).1 (by decide)

theorem minimal_hashbang {s : List Char} (h : Closed s) (hb : Hashbang s) : Hashbang (minimal (lex s)) := by
  obtain ⟨t, ls, e⟩ := lex_hashbang h hb
  have hs : strip (.word ['#'] :: .punct ('!' :: t) :: ls) = .word ['#'] :: .punct ('!' :: t) :: ls.filter solid := by
    rw [strip, List.filter_cons_of_pos rfl, List.filter_cons_of_pos rfl]; rfl
  have h1 : shorten (.word ['#']) = .word ['#'] := by decide +kernel
  have h2 : shorten (.punct ('!' :: t)) = .punct ('!' :: t) := rfl
  rw [e, minimal, hs, List.map_cons, List.map_cons, h1, h2, spaced, if_neg (by simp [gap])]
  generalize (ls.filter solid).map shorten = m
  have : ∀ a, ∃ u, textOf (spaced (a :: m)) = text a ++ u := by
    intro a
    cases m with
    | nil => exact ⟨[], by simp [spaced, textOf]⟩
    | cons b m =>
      rw [spaced]
      split
      · exact ⟨_, by simp only [textOf, List.flatMap_cons]; rfl⟩
      · exact ⟨_, by simp only [textOf, List.flatMap_cons]; rfl⟩
  obtain ⟨u, hu⟩ := this (.punct ('!' :: t))
  refine ⟨t ++ u, ?_⟩
  rw [show ∀ x, textOf (.word ['#'] :: x) = '#' :: textOf x from fun x => by simp [textOf, text], hu]
  rfl

end Verif.Js
