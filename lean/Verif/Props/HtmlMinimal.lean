import Verif.Proofs.HtmlMinimal
import Verif.Props.HtmlAgain
/-!
# C78: html::minify leaves nothing to be done
-/
set_option linter.unusedSimpArgs false
namespace Verif.Html
open Verif.Spec.Html

/-- C78 as stated: the result has no comments, tags, types, quotes and white space of the kinds that are to be removed. -/
def C78_full : Prop := ∀ (T : Tables), T.Ok → ∀ s o, minify T s = some o → Minimal o

/-- C78 is false: the removal of `<head>` from `<bo<head>dy>` gives a `<body>`, which stays. -/
theorem C78_full_false : ¬ C78_full := by
  intro h
  exact (h ascii ascii_ok "<bo<head>dy>".toList "<body>".toList (by decide +kernel)).listed [] "<body>".toList [] ⟨"<body>", by decide, rfl⟩ rfl

/-- More results in which something is left: a comment that shows after the removal of a tag, and a type in the second line of a tag. -/
theorem C78_full_false_more :
    minify ascii "<!-<body>- a -->".toList = some "<!-- a -->".toList ∧
    minify ascii "<script a\ntype=\"b\">".toList = some "<script a type=\"b\">".toList := by decide +kernel

/-- Every page that the program does not change is minimal. -/
theorem C78_fixed {T : Tables} (hT : T.Ok) (s : List Char) (h : minify T s = some s) : Minimal s := minimal_of hT h

example : minify ascii "<style media=\"a\">b</style> <img width=1 alt=\"x y\"> < 1 <!--[if IE]> <b> a <![endif]-->".toList =
    some "<style media=\"a\">b</style> <img width=1 alt=\"x y\"> < 1 <!--[if IE]> <b> a <![endif]-->".toList := by decide +kernel

/-- What it says about a tag: quotes that are not needed would have been removed. -/
example (s : List Char) (h : minify ascii s = some s) :
    s ≠ "<p><img alt=\"x\" width=\"1\">".toList ∧ s ≠ "<a><script type=\"b\" c>".toList ∧ s ≠ "<b c='d' >".toList := by
  have m := C78_fixed ascii_ok s h
  refine ⟨?_, ?_, ?_⟩
  · rintro rfl
    obtain ⟨c, hc, hb⟩ := m.sized "img alt=\"x\" width=\"1\"".toList "img alt=\"x\"".toList ' ' "width".toList ['1'] []
      ⟨⟨"<p>".toList, [], [], by decide +kernel, .inr ⟨"<p".toList, by decide +kernel⟩, by simp, by decide +kernel, by decide +kernel⟩, by decide +kernel,
        'i', _, rfl, by decide +kernel⟩ (by decide +kernel) (by decide +kernel) (.inl rfl) (by simp)
    rw [List.mem_singleton.1 hc] at hb
    exact absurd hb (by decide +kernel)
  · rintro rfl
    exact m.typed "script type=\"b\" c".toList "script".toList ' ' [] 'b' [] " c".toList
      ⟨⟨"<a>".toList, [], [], by decide +kernel, .inr ⟨"<a".toList, by decide +kernel⟩, by simp, by decide +kernel, by decide +kernel⟩, by decide +kernel,
        's', _, rfl, by decide +kernel⟩ (.inr rfl) (by decide +kernel) (by decide +kernel) (by decide +kernel)
  · rintro rfl
    exact absurd (m.closed "b c='d' ".toList "b c='d".toList '\'' [' ']
      ⟨⟨[], [], [], by decide +kernel, .inl rfl, by simp, by decide +kernel, by decide +kernel⟩, by decide +kernel, 'b', _, rfl, by decide +kernel⟩
      (by decide +kernel) (.inr rfl) (by decide +kernel)) (by simp)

/-- C78 for the pages of C67: the result is minimal. Missing: other pages, in some of which something is left, as above. -/
theorem C78_page_partial {T : Tables} (hT : T.Ok) (P : List Seg) (hP : Page P) (hop : ∀ t, Seg.tag t ∈ P → Opens t)
    (hs : (¬ ∃ t, Seg.tag t ∈ P ∧ Pre t) → ∀ t, Seg.tag t ∈ P → Settled t)
    (hpre : (∃ t, Seg.tag t ∈ P ∧ Pre t) → ∀ t, Seg.tag t ∈ P → (Apart t ∧ Settled t) ∨
      (¬ Styled t ∧ ∃ m c e l, AttrsOf T.word t m c e l ∧ Steady T.word none l)) :
    ∃ o, minify T (render P) = some o ∧ Minimal o := by
  obtain ⟨o, ho, -⟩ := minify_some T (render P)
  exact ⟨o, ho, minimal_of hT (C67_page_partial hT P hP hop hs hpre o ho)⟩

end Verif.Html
