import Verif.Proofs.HtmlExact
import Verif.Proofs.HtmlCheck
/-!
# C94: the result for a page without preformatted text
-/
set_option linter.unusedSimpArgs false
namespace Verif.Html
open Verif.Spec.Html

/-- The result for a page without preformatted text: comments are blanks, the listed tags are dropped, the gaps of the texts
between the tags are squeezed, every tag is cleaned (styles and scripts lose their types), and the whole is trimmed. -/
theorem C94_page {T : Tables} (hT : T.Ok) (P : List Seg) (hP : Page P) (hn : ∀ t, Seg.tag t ∈ P → ¬ Pre t) :
    ∃ P' Q, minify T (render P) = some (trim (render Q)) ∧ (∀ x ∈ Q, Seg.Plain x) ∧ Rewritten (· = ·) P P' ∧
      GapsTo squeeze (upTo (pieces P').2) none (pieces P').1 (pieces Q).1 ∧
      Squeezed (Cleaned T.word) (pieces P').2 (pieces Q).2 :=
  minify_exact hT hP hn

/-- This describes exactly the result. -/
theorem C94_iff {T : Tables} (hT : T.Ok) (P : List Seg) (hP : Page P) (hn : ∀ t, Seg.tag t ∈ P → ¬ Pre t)
    (hu : ∀ t, Seg.tag t ∈ P → (∃ h, t.head? = some h ∧ T.word h = true) ∨ NotStart t)
    (o : List Char) :
    minify T (render P) = some o ↔ ∃ P' Q, Rewritten (· = ·) P P' ∧ (∀ x ∈ Q, Seg.Plain x) ∧
      GapsTo squeeze (upTo (pieces P').2) none (pieces P').1 (pieces Q).1 ∧
      Squeezed (Cleaned T.word) (pieces P').2 (pieces Q).2 ∧ o = trim (render Q) := by
  obtain ⟨P', Q, h1, h2, h3, h4, h5⟩ := minify_exact hT hP hn
  have mem : ∀ t x, (t, x) ∈ (pieces P').2 → Seg.tag t ∈ P := fun t x hm => rewritten_mem h3 (pieces_mem hm)
  constructor
  · intro ho
    rw [h1] at ho
    exact ⟨P', Q, h3, h2, h4, h5, (Option.some.inj ho).symm⟩
  · rintro ⟨P2, Q2, k1, k2, k3, k4, rfl⟩
    obtain rfl := rewritten_det h3 k1
    have e1 := gapsTo_det h4 k3
    have e2 := squeezed_det (R := Cleaned T.word) (fun t x y y' hm => cleaned_det hT (hu t (mem t x hm))) h5 k4
    have e3 : pieces Q = pieces Q2 := Prod.ext e1 e2
    rw [h1, ← spell_pieces h2, ← spell_pieces k2, e3]

/-- Texts, a comment, a dropped tag, single and wide gaps in texts and tags. -/
example : ∃ P : List Seg, Page P ∧ (∀ t, Seg.tag t ∈ P → ¬ Pre t) ∧
    (∀ t, Seg.tag t ∈ P → (∃ h, t.head? = some h ∧ ascii.word h = true) ∨ NotStart t) ∧
    render P = "<!DOCTYPE\n html><html>\n <p\tid=\"a\" width=\"1\" >b\n<!-- c -->d</p>\t<br\n/><script type=\"a/b\" src='c'  >".toList ∧
    minify ascii (render P) = some "<!DOCTYPE html> <p\tid=\"a\" width=1>b d</p> <br /><script src='c'>".toList := by
  have pre : ∀ t : List Char, t.head?.map Char.toLower ≠ some 't' → "pre".toList.isPrefixOf (t.map Char.toLower) = false → ¬ Pre t := by
    rintro _ h1 h2 ⟨n, m, u, hn, rfl, e⟩
    rcases hn with rfl | rfl
    · rw [List.map_append, e] at h2
      exact absurd h2 (by simp)
    · cases m with
      | nil => cases e
      | cons a m => exact h1 (by simp at e; simp [e.1])
  have mem : ∀ t, Seg.tag t ∈ [[Seg.tag "!DOCTYPE\n html".toList], [.tag "html".toList], [.text "\n ".toList],
      [.tag "p\tid=\"a\" width=\"1\" ".toList], [.text "b\n".toList], [.comment " c ".toList], [.text "d".toList], [.tag "/p".toList],
      [.text "\t".toList], [.tag "br\n/".toList], [.tag "script type=\"a/b\" src='c'  ".toList]].flatten → t = "!DOCTYPE\n html".toList ∨ t = "html".toList ∨
      t = "p\tid=\"a\" width=\"1\" ".toList ∨ t = "/p".toList ∨ t = "br\n/".toList ∨
      t = "script type=\"a/b\" src='c'  ".toList := by
    intro t ht
    simpa only [List.flatten_cons, List.flatten_nil, List.cons_append, List.nil_append, List.append_nil, List.mem_cons, List.not_mem_nil,
      or_false, Seg.tag.injEq, reduceCtorEq, false_or] using ht
  refine ⟨_, page_of [[.tag "!DOCTYPE\n html".toList], [.tag "html".toList], [.text "\n ".toList],
    [.tag "p\tid=\"a\" width=\"1\" ".toList], [.text "b\n".toList], [.comment " c ".toList], [.text "d".toList], [.tag "/p".toList],
    [.text "\t".toList], [.tag "br\n/".toList], [.tag "script type=\"a/b\" src='c'  ".toList]] (by decide +kernel), ?_, ?_, by decide +kernel, by decide +kernel⟩
  · intro t ht
    rcases mem t ht with rfl | rfl | rfl | rfl | rfl | rfl <;> exact pre _ (by decide +kernel) (by decide +kernel)
  · intro t ht
    rcases mem t ht with rfl | rfl | rfl | rfl | rfl | rfl
    · exact .inr ⟨'!', "DOCTYPE\n html".toList, by decide +kernel, .inr (.inl rfl)⟩
    · exact .inl ⟨'h', by decide +kernel, by decide +kernel⟩
    · exact .inl ⟨'p', by decide +kernel, by decide +kernel⟩
    · exact .inr ⟨'/', "p".toList, by decide +kernel, .inl rfl⟩
    · exact .inl ⟨'b', by decide +kernel, by decide +kernel⟩
    · exact .inl ⟨'s', by decide +kernel, by decide +kernel⟩

end Verif.Html
