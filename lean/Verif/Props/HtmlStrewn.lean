import Verif.Proofs.HtmlStrewn
import Verif.Proofs.HtmlTidy
import Verif.Proofs.HtmlFair
import Verif.Proofs.HtmlCheck
/-!
# C93: the words of a tag on a page without preformatted text
-/
set_option linter.unusedSimpArgs false
namespace Verif.Html
open Verif.Spec.Html

private theorem notPre {t : List Char} (h1 : t.head?.map Char.toLower ≠ some 't') (h2 : "pre".toList.isPrefixOf (t.map Char.toLower) = false) :
    ¬ Pre t := by
  rintro ⟨n, m, u, hn, rfl, e⟩
  rcases hn with rfl | rfl
  · rw [List.map_append, e] at h2
    exact absurd h2 (by simp)
  · cases m with
    | nil => cases e
    | cons a m => exact h1 (by simp at e; simp [e.1])

private theorem notStyled {t : List Char} (h : t.head? ≠ some 's') : ¬ Styled t := by
  rintro ⟨u, rfl | rfl⟩ <;> exact h rfl

def C93_full : Prop := ∀ (T : Tables), T.Ok → ∀ (t m : List Char) (c : Char) (l : List (List Char × Chunk)),
  t ++ ['>'] = m ++ c :: strewn [] l → (∀ d ∈ m, dense d = true) → dense c = true →
  (∀ p ∈ l, (p.1 ≠ [] ∧ ∀ d ∈ p.1, isWhitespace d = true) ∧ p.2.Fair T.word) → (∃ h, (m ++ [c]).head? = some h ∧ T.word h = true) →
  ¬ Pre t → minify T ('<' :: t ++ ['>']) = some ('<' :: (m ++ c :: written (oneEach l)))

/-- A single tab stays. -/
theorem C93_full_false : ¬ C93_full := by
  intro h
  have h := h ascii ascii_ok "p\tab".toList [] 'p' [(['\t'], ⟨0, 'a', [], 'b'⟩)] (by decide +kernel) (by simp) (by decide +kernel)
    (by
      intro p hp
      simp only [List.mem_cons, List.not_mem_nil, or_false] at hp
      subst hp
      exact ⟨⟨by simp, by decide +kernel⟩, fair_of (by decide +kernel)⟩) ⟨'p', by decide +kernel, by decide +kernel⟩
    (notPre (by decide +kernel) (by decide +kernel))
  revert h
  decide +kernel

/-- On a page without preformatted text, in every tag of words of at least two characters that stays, but those of styles and
scripts, if the white space between the words is a blank, a line break or more than one character: exactly one blank is left before
every word, the widths and heights have no quotes, and nothing is left between a quote and the end of the tag. Nothing else changes in
such a tag. -/
theorem C93_partial {T : Tables} (hT : T.Ok) (P : List Seg) (hP : Page P) (hn : ∀ t, Seg.tag t ∈ P → ¬ Pre t) :
    ∃ P' Q, minify T (render P) = some (trim (render Q)) ∧ (∀ x ∈ Q, Seg.Plain x) ∧ Rewritten (· = ·) P P' ∧
      Alike (fun t t' => ¬ Styled t → ∀ m c e l, StrewnOf T.word t m c e l → t' ++ ['>'] = m ++ c :: written (oneEach l)) P' Q :=
  minify_strewn hT hP hn

/-- Line breaks, tabs and blanks between the attributes, and before the end of a tag. -/
example : ∃ P : List Seg, Page P ∧ (∀ t, Seg.tag t ∈ P → ¬ Pre t) ∧
    Seg.tag "img\n   src=\"ab\"\t\talt='c'\n width=\"10\" \n".toList ∈ P ∧ ¬ Styled "img\n   src=\"ab\"\t\talt='c'\n width=\"10\" \n".toList ∧
    StrewnOf ascii.word "img\n   src=\"ab\"\t\talt='c'\n width=\"10\" \n".toList "im".toList 'g' " \n".toList
      [("\n   ".toList, ⟨0, 's', "rc=\"ab".toList, '"'⟩), ("\t\t".toList, ⟨0, 'a', "lt='c".toList, '\''⟩),
        ("\n ".toList, ⟨0, 'w', "idth=\"10".toList, '"'⟩)] ∧
    minify ascii (render P) = some "<img src=\"ab\" alt='c' width=10><p>a b</p>".toList := by
  refine ⟨[[.comment " c ".toList], [.tag "img\n   src=\"ab\"\t\talt='c'\n width=\"10\" \n".toList], [.tag "p".toList],
    [.text "a  b".toList], [.tag "/p".toList]].flatten, page_of _ (by decide +kernel), ?_, by simp, ?_, ?_, by decide +kernel⟩
  · simp only [List.flatten_cons, List.flatten_nil, List.cons_append, List.nil_append, List.append_nil, List.mem_cons, List.not_mem_nil,
      or_false, Seg.tag.injEq, reduceCtorEq, false_or]
    rintro t (rfl | rfl | rfl) <;> exact notPre (by decide +kernel) (by decide +kernel)
  · exact notStyled (by decide +kernel)
  · refine ⟨by decide +kernel, by decide +kernel, by decide +kernel, ?_, ⟨'i', by decide +kernel, by decide +kernel⟩,
      .inr ⟨⟨by decide +kernel, .inr (.inr (.inr (by decide +kernel)))⟩, .inl (by decide +kernel)⟩⟩
    intro p hp
    simp only [List.mem_cons, List.not_mem_nil, or_false] at hp
    rcases hp with rfl | rfl | rfl <;>
      exact ⟨⟨by decide +kernel, .inr (.inr (.inr (by decide +kernel)))⟩, fair_of (by decide +kernel)⟩

/-- On a page without preformatted text, in every tag that stays but those of styles and scripts, if white space other than blanks
and line breaks is next to other white space: all white space in a row is one blank, also in values; in a start tag, the one
between a quote and the end goes, and the widths and heights lose their quotes, from left to right. Nothing else changes. -/
theorem C93_tag_partial {T : Tables} (hT : T.Ok) (P : List Seg) (hP : Page P) (hn : ∀ t, Seg.tag t ∈ P → ¬ Pre t) :
    ∃ P' Q, minify T (render P) = some (trim (render Q)) ∧ (∀ x ∈ Q, Seg.Plain x) ∧ Rewritten (· = ·) P P' ∧
      Alike (fun t t' => ¬ Styled t → Mingled t →
        ((∃ h, t.head? = some h ∧ T.word h = true) → Unquotes (snug ('<' :: collapse false t) ++ ['>']) ('<' :: t' ++ ['>'])) ∧
        (NotStart t → t' = collapse false t)) P' Q :=
  minify_tidy hT hP hn

/-- The relation determines the tag. -/
theorem C93_determined (s o o' : List Char) (h : Unquotes s o) (h' : Unquotes s o') : o = o' := unquotes_det h h'

/-- White space in values and in an end tag, and words of one character. -/
example : ∃ P : List Seg, Page P ∧ (∀ t, Seg.tag t ∈ P → ¬ Pre t) ∧ Seg.tag "a b\r\nhref=\"x  y\" height=\"1\"\n".toList ∈ P ∧
    ¬ Styled "a b\r\nhref=\"x  y\" height=\"1\"\n".toList ∧ Mingled "a b\r\nhref=\"x  y\" height=\"1\"\n".toList ∧
    (∃ h, "a b\r\nhref=\"x  y\" height=\"1\"\n".toList.head? = some h ∧ ascii.word h = true) ∧
    snug ('<' :: collapse false "a b\r\nhref=\"x  y\" height=\"1\"\n".toList) ++ ['>'] = "<a b href=\"x y\" height=\"1\">".toList ∧
    Seg.tag "/a \t".toList ∈ P ∧ NotStart "/a \t".toList ∧ Mingled "/a \t".toList ∧
    minify ascii (render P) = some "<a b href=\"x y\" height=1>c</a >".toList := by
  have blank : ∀ t : List Char, (∀ x ∈ t, isWhitespace x = true → x = ' ' ∨ x = '\n' ∨ x = '\r') → Mingled t := by
    intro t h a x b e hx
    rcases h x (by rw [e]; simp) hx with h | h | h
    · exact .inl h
    · exact .inr (.inl h)
    · exact .inr (.inr (.inl h))
  refine ⟨[[.tag "a b\r\nhref=\"x  y\" height=\"1\"\n".toList], [.text "c".toList], [.tag "/a \t".toList]].flatten,
    page_of _ (by decide +kernel), ?_, by simp, notStyled (by decide +kernel), blank _ (by decide +kernel),
    ⟨'a', by decide +kernel, by decide +kernel⟩, by decide +kernel, by simp, ⟨'/', "a \t".toList, by decide +kernel, .inl rfl⟩, ?_,
    by decide +kernel⟩
  · simp only [List.flatten_cons, List.flatten_nil, List.cons_append, List.nil_append, List.append_nil, List.mem_cons, List.not_mem_nil,
      or_false, Seg.tag.injEq, reduceCtorEq, false_or]
    rintro t (rfl | rfl) <;> exact notPre (by decide +kernel) (by decide +kernel)
  · intro a x b e hx
    have e : ['/', 'a', ' ', '\t'] = a ++ x :: b := e
    match a, e with
    | [], e => simp at e; rw [← e.1] at hx; exact absurd hx (by decide +kernel)
    | [_], e => simp at e; rw [← e.2.1] at hx; exact absurd hx (by decide +kernel)
    | [_, _], e => simp at e; exact .inl e.2.2.1.symm
    | [_, _, y], e => simp at e; exact .inr (.inr (.inr (.inl ⟨y, rfl, by rw [← e.2.2.1]; decide +kernel⟩)))
    | _ :: _ :: _ :: _ :: a, e => simp at e

end Verif.Html
