import Verif.Proofs.HtmlTwice
import Verif.Proofs.HtmlFair
import Verif.Proofs.HtmlMinimal
import Verif.Proofs.HtmlCheck
/-!
# C92: two runs over a page with preformatted text
-/
set_option linter.unusedSimpArgs false
namespace Verif.Html
open Verif.Spec.Html

def C92_full : Prop := ∀ (T : Tables), T.Ok → ∀ (P : List Seg) (p : List Char), Page P → Pre p → Seg.tag p ∈ P →
  ∀ o o2, minify T (render P) = some o → minify T o = some o2 → minify T o2 = some o2

/-- Values that look like attributes lose their quotes one after the other. -/
theorem C92_full_false : ¬ C92_full := by
  intro h
  have := h ascii ascii_ok [[.tag "pre".toList], [.tag "p width=\"height\"=\"width\"=\"c\"".toList]].flatten "pre".toList
    (page_of _ (by decide +kernel)) ⟨"pre".toList, "pre".toList, [], .inl rfl, by simp, by decide +kernel⟩ (by simp)
    "<pre><p width=height=\"width\"=\"c\">".toList "<pre><p width=height=width=\"c\">".toList (by decide +kernel) (by decide +kernel)
  revert this
  decide +kernel

/-- C92 for pages with tags with single white space and room after the attributes, and tags of words with any number of blanks between
them. -/
theorem C92_partial {T : Tables} (hT : T.Ok) (P : List Seg) (p : List Char) (hP : Page P) (hp : Pre p) (hm : Seg.tag p ∈ P)
    (hop : ∀ t, Seg.tag t ∈ P → Opens t)
    (ha : ∀ t, Seg.tag t ∈ P → (Apart t ∧ Settled t) ∨ (¬ Styled t ∧ ∃ m c e l, AttrsOf T.word t m c e l)) (o o2 : List Char)
    (ho : minify T (render P) = some o) (ho2 : minify T o = some o2) : minify T o2 = some o2 :=
  minify_twice hT hP hp hm hop ha ho ho2

/-- Nothing is left to remove after two runs. -/
theorem C92_minimal_partial {T : Tables} (hT : T.Ok) (P : List Seg) (p : List Char) (hP : Page P) (hp : Pre p) (hm : Seg.tag p ∈ P)
    (hop : ∀ t, Seg.tag t ∈ P → Opens t)
    (ha : ∀ t, Seg.tag t ∈ P → (Apart t ∧ Settled t) ∨ (¬ Styled t ∧ ∃ m c e l, AttrsOf T.word t m c e l)) :
    ∃ o o2, minify T (render P) = some o ∧ minify T o = some o2 ∧ Minimal o2 := by
  obtain ⟨o, ho, -⟩ := minify_some T (render P)
  obtain ⟨o2, ho2, -⟩ := minify_some T o
  exact ⟨o, o2, ho, ho2, minimal_of hT (minify_twice hT hP hp hm hop ha ho ho2)⟩

/-- Both runs do something: the blanks before `data-x` go in the second one. -/
example : ∃ P : List Seg, Page P ∧ Pre "pre".toList ∧ Seg.tag "pre".toList ∈ P ∧ (∀ t, Seg.tag t ∈ P → Opens t) ∧
    (∀ t, Seg.tag t ∈ P → (Apart t ∧ Settled t) ∨ (¬ Styled t ∧ ∃ m c e l, AttrsOf ascii.word t m c e l)) ∧
    minify ascii (render P) = some "<pre><img width=1  data-x=\"2\" alt=\"a\"b>".toList ∧
    minify ascii "<pre><img width=1  data-x=\"2\" alt=\"a\"b>".toList = some "<pre><img width=1 data-x=\"2\" alt=\"a\"b>".toList := by
  have sty : ∀ t : List Char, t.head? ≠ some 's' → ¬ Styled t := by
    rintro t h ⟨u, rfl | rfl⟩ <;> exact h rfl
  have name : ∀ (t m : List Char) (c : Char), t ++ ['>'] = m ++ [c, '>'] → (∀ d ∈ m, dense d = true) → dense c = true →
      (∃ h, (m ++ [c]).head? = some h ∧ ascii.word h = true) → AttrsOf ascii.word t m c none [] :=
    fun t m c h1 h2 h3 h4 => ⟨h1, h2, h3, by simp, h4, .inl rfl⟩
  have opens : ∀ t : List Char, t.head? ≠ some '!' → Opens t := by
    rintro t h u rfl; exact absurd rfl h
  refine ⟨[[.tag "html".toList], [.tag "pre".toList], [.tag "img width=\"1\"  data-x=\"2\"    alt=\"a\"b".toList]].flatten,
    page_of _ (by decide +kernel), ⟨"pre".toList, "pre".toList, [], .inl rfl, by simp, by decide +kernel⟩, by simp, ?_, ?_,
    by decide +kernel, by decide +kernel⟩
  all_goals
    simp only [List.flatten_cons, List.flatten_nil, List.cons_append, List.nil_append, List.append_nil, List.mem_cons, List.not_mem_nil,
      or_false, Seg.tag.injEq, reduceCtorEq, false_or]
  · rintro t (rfl | rfl | rfl) <;> exact opens _ (by decide +kernel)
  · rintro t (rfl | rfl | rfl)
    · exact .inr ⟨sty _ (by decide +kernel), "htm".toList, 'l', none, [], name _ _ _ (by decide +kernel) (by decide +kernel) (by decide +kernel)
        ⟨'h', by decide +kernel, by decide +kernel⟩⟩
    · exact .inr ⟨sty _ (by decide +kernel), "pr".toList, 'e', none, [], name _ _ _ (by decide +kernel) (by decide +kernel) (by decide +kernel)
        ⟨'p', by decide +kernel, by decide +kernel⟩⟩
    · refine .inr ⟨sty _ (by decide +kernel), "im".toList, 'g', none,
        [⟨0, 'w', "idth=\"1".toList, '"'⟩, ⟨1, 'd', "ata-x=\"2".toList, '"'⟩, ⟨3, 'a', "lt=\"a\"".toList, 'b'⟩],
        by decide +kernel, by decide +kernel, by decide +kernel, ?_, ⟨'i', by decide +kernel, by decide +kernel⟩, .inl rfl⟩
      intro w hw
      simp only [List.mem_cons, List.not_mem_nil, or_false] at hw
      rcases hw with rfl | rfl | rfl <;> exact fair_of (by decide +kernel)

end Verif.Html
