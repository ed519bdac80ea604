import Verif.Proofs.HtmlClose
import Verif.Proofs.HtmlFair
import Verif.Proofs.HtmlInline
import Verif.Proofs.HtmlCheck
/-!
# C91: the blanks between the words of a tag on a page with preformatted text
-/
set_option linter.unusedSimpArgs false
namespace Verif.Html
open Verif.Spec.Html

def C91_full : Prop := ∀ (T : Tables), T.Ok → ∀ (t m : List Char) (c : Char) (e : Option Nat) (l : List Chunk),
  Pre t → WordsOf T.word t m c e l →
  minify T ('<' :: t ++ ['>']) = some ('<' :: (m ++ c :: spread (oneBoth T.word T.digit) c e l))

/-- The program joins the first gap of the one kind and the first gap of the other kind into one text, and looks for that: here
the blanks before the end stay. -/
theorem C91_full_false : ¬ C91_full := by
  intro h
  have h := h ascii ascii_ok "pre ab  cd1  ".toList "pr".toList 'e' (some 1) [⟨0, 'a', [], 'b'⟩, ⟨1, 'c', ['d'], '1'⟩]
    ⟨"pre".toList, "pre".toList, " ab  cd1  ".toList, .inl rfl, by simp, by decide +kernel⟩
    ⟨by decide +kernel, by decide +kernel, by decide +kernel, by
      intro w hw
      simp only [List.mem_cons, List.not_mem_nil, or_false] at hw
      rcases hw with rfl | rfl
      · exact ⟨by decide +kernel, by simp, by decide +kernel⟩
      · exact ⟨by decide +kernel, by decide +kernel, by decide +kernel⟩, 'p', by decide +kernel, by decide +kernel⟩
  revert h
  decide +kernel

/-- On a page with preformatted text, in every tag of words of at least two characters and blanks, without quotes, but those
of styles and scripts: if there are no blanks between a digit and the end of the tag, then exactly the gaps between word
characters are narrowed to one blank; and if there are no gaps between word characters, then exactly the gap between a digit
and the end is. If there are both, the gap before the end stays, and the gaps between word characters that look like any but the
first of them are narrowed; unless the last word has two characters and the gap before it looks like the first one: then all
are. Nothing else changes in such a tag. -/
theorem C91_partial {T : Tables} (hT : T.Ok) (P : List Seg) (p : List Char) (hP : Page P) (hp : Pre p) (hm : Seg.tag p ∈ P) :
    ∃ Q, minify T (render P) = some (trim (render Q)) ∧
      Rewritten (fun t t' => ¬ Styled t → ∀ m c e l, WordsOf T.word t m c e l →
        (e = none ∨ T.digit (lastOf c l) = false → t' ++ ['>'] = m ++ c :: spread (oneBetween T.word T.word) c e l) ∧
        (gaps T.word c l = [] → t' ++ ['>'] = m ++ c :: spread (oneBetween T.digit (· == '>')) c e l) ∧
        (∀ x H, e ≠ none → T.digit (lastOf c l) = true → gaps T.word c l = x :: H →
          (¬ Twin T.word c l → t' ++ ['>'] = m ++ c :: spread (oneFor H) c e l) ∧
          (Twin T.word c l → t' ++ ['>'] = m ++ c :: spread (oneBoth T.word T.digit) c e l))) P Q := by
  obtain ⟨Q, h1, -, h3⟩ := minify_pre hT hP hp hm
  refine ⟨Q, h1, rewritten_mono h3 ?_⟩
  rintro t t' ht ⟨t1, k1, k2⟩ hs m c e l ⟨w1, w2, w3, w4, h, w5, w6⟩
  have hpt := page_tag hP ht
  have e1 : t = t1 := by
    rcases condTag_cases hT hpt.1 hpt.2.1 with k | ⟨k, -⟩
    · rw [k] at k1
      exact List.append_inj_left' (List.cons.inj k1).2 rfl
    · exact absurd k hs
  subst e1
  have start : ∃ r, t = h :: r := by
    cases t with
    | nil =>
      have := congrArg List.length w1
      cases l with
      | nil => cases e <;> simp [spread] at this <;> omega
      | cons w l => simp [spread] at this; omega
    | cons d r =>
      cases m with
      | nil =>
        simp at w5; subst w5
        exact ⟨r, by rw [(List.cons.inj w1).1]⟩
      | cons d' m =>
        simp at w5; subst w5
        exact ⟨r, by rw [(List.cons.inj w1).1]⟩
  obtain ⟨r, hr⟩ := start
  have hn : '\n' ∉ r := by
    intro hx
    have : '\n' ∈ t ++ ['>'] := by rw [hr]; simp [hx]
    rw [w1] at this
    rcases mem_tag w2 w3 w4 this with k | k | k <;> revert k <;> decide
  rw [tagOut_start hpt.1 hpt.2.1 hT hr w6 hn, w1] at k2
  refine ⟨?_, ?_, ?_⟩
  · intro hd
    rw [tidy_words hT w2 w3 w4 w5 w6 hd] at k2
    exact (List.cons.inj (Option.some.inj k2)).2.symm
  · intro hd
    rw [tidy_close hT w2 w3 w4 w5 w6 (noGap_iff.2 hd)] at k2
    exact (List.cons.inj (Option.some.inj k2)).2.symm
  · intro x H he hd hx
    cases e with
    | none => exact absurd rfl he
    | some n =>
      obtain ⟨j1, j2⟩ := tidy_joined hT (n := n) w2 w3 w4 w5 w6 hd hx
      refine ⟨fun ht => ?_, fun ht => ?_⟩
      · rw [j1 ht] at k2
        exact (List.cons.inj (Option.some.inj k2)).2.symm
      · rw [j2 ht] at k2
        exact (List.cons.inj (Option.some.inj k2)).2.symm

/-- With gaps of both kinds, though in different tags; the gaps behind `=` and before `=` stay. -/
example : ∃ P : List Seg, Page P ∧ Pre "pre".toList ∧ Seg.tag "pre".toList ∈ P ∧ Seg.tag "img ab=cd   ef=  gh  alt".toList ∈ P ∧
    WordsOf ascii.word "img ab=cd   ef=  gh  alt".toList "im".toList 'g' none
      [⟨0, 'a', "b=c".toList, 'd'⟩, ⟨2, 'e', "f".toList, '='⟩, ⟨1, 'g', [], 'h'⟩, ⟨1, 'a', "l".toList, 't'⟩] ∧
    Seg.tag "h1  ".toList ∈ P ∧ WordsOf ascii.word "h1  ".toList "h".toList '1' (some 1) [] ∧
    minify ascii (render P) = some "<pre><img ab=cd ef=  gh alt>x<h1 >  </pre>".toList := by
  refine ⟨[.tag "pre".toList, .tag "img ab=cd   ef=  gh  alt".toList, .text "x".toList, .tag "h1  ".toList, .text "  ".toList,
    .tag "/pre".toList], page_of [[.tag "pre".toList], [.tag "img ab=cd   ef=  gh  alt".toList], [.text "x".toList],
    [.tag "h1  ".toList], [.text "  ".toList], [.tag "/pre".toList]] (by decide +kernel),
    ⟨"pre".toList, "pre".toList, [], .inl rfl, by simp, by decide +kernel⟩, by simp, by simp, ?_, by simp, ?_, by decide +kernel⟩
  · refine ⟨by decide +kernel, by decide +kernel, by decide +kernel, ?_, 'i', by decide +kernel, by decide +kernel⟩
    intro w hw
    simp only [List.mem_cons, List.not_mem_nil, or_false] at hw
    rcases hw with rfl | rfl | rfl | rfl <;> exact ⟨by decide +kernel, by decide +kernel, by decide +kernel⟩
  · exact ⟨by decide +kernel, by decide +kernel, by decide +kernel, by simp, 'h', by decide +kernel, by decide +kernel⟩

/-- Gaps of both kinds in a tag: the one before the end stays, and so does the first one between words, which is narrow. -/
example : ∃ P : List Seg, Page P ∧ Pre "pre".toList ∧ Seg.tag "pre".toList ∈ P ∧ Seg.tag "img ab   cd1  ".toList ∈ P ∧
    WordsOf ascii.word "img ab   cd1  ".toList "im".toList 'g' (some 1) [⟨0, 'a', [], 'b'⟩, ⟨2, 'c', ['d'], '1'⟩] ∧
    gaps ascii.word 'g' [⟨0, 'a', [], 'b'⟩, ⟨2, 'c', ['d'], '1'⟩] = [('g', 0, 'a'), ('b', 2, 'c')] ∧
    Seg.tag "em  m1  ".toList ∈ P ∧ WordsOf ascii.word "em  m1  ".toList "e".toList 'm' (some 1) [⟨1, 'm', [], '1'⟩] ∧
    Twin ascii.word 'm' [⟨1, 'm', [], '1'⟩] ∧
    minify ascii (render P) = some "<pre><img ab cd1  ><em m1 >  </pre>".toList := by
  refine ⟨[.tag "pre".toList, .tag "img ab   cd1  ".toList, .tag "em  m1  ".toList, .text "  ".toList, .tag "/pre".toList],
    page_of [[.tag "pre".toList], [.tag "img ab   cd1  ".toList], [.tag "em  m1  ".toList], [.text "  ".toList], [.tag "/pre".toList]]
      (by decide +kernel), ⟨"pre".toList, "pre".toList, [], .inl rfl, by simp, by decide +kernel⟩, by simp, by simp, ?_,
    by decide +kernel, by simp, ?_, ⟨[], _, rfl, rfl, by decide +kernel⟩, by decide +kernel⟩
  · refine ⟨by decide +kernel, by decide +kernel, by decide +kernel, ?_, 'i', by decide +kernel, by decide +kernel⟩
    intro w hw
    simp only [List.mem_cons, List.not_mem_nil, or_false] at hw
    rcases hw with rfl | rfl <;> exact ⟨by decide +kernel, by decide +kernel, by decide +kernel⟩
  · refine ⟨by decide +kernel, by decide +kernel, by decide +kernel, ?_, 'e', by decide +kernel, by decide +kernel⟩
    intro w hw
    rw [List.mem_singleton.1 hw]
    exact ⟨by decide +kernel, by decide +kernel, by decide +kernel⟩

/-- With quotes: in every tag of a name and of words of at least two characters (a word may be a part of a value in quotes),
where no word stops after `=` or after the quote that follows, exactly the gaps between word characters and those between a quote
and an attribute are narrowed to one blank, and exactly the quotes of widths and heights and the blanks before the end of the tag go; the values of
widths and heights are made of letters, digits and `-_.`, and blanks before the end are only there after a quote. -/
theorem C91_quoted_partial {T : Tables} (hT : T.Ok) (P : List Seg) (p : List Char) (hP : Page P) (hp : Pre p)
    (hm : Seg.tag p ∈ P) :
    ∃ Q, minify T (render P) = some (trim (render Q)) ∧
      Rewritten (fun t t' => ¬ Styled t → ∀ m c e l, AttrsOf T.word t m c e l →
        t' ++ ['>'] = m ++ c :: written (settled T.word c l)) P Q := by
  obtain ⟨Q, h1, -, h3⟩ := minify_pre hT hP hp hm
  refine ⟨Q, h1, rewritten_mono h3 ?_⟩
  rintro t t' ht ⟨t1, k1, k2⟩ hs m c e l ⟨w1, w2, w3, w4, ⟨h, w5, w6⟩, w7⟩
  have hpt := page_tag hP ht
  have e1 : t = t1 := by
    rcases condTag_cases hT hpt.1 hpt.2.1 with k | ⟨k, -⟩
    · rw [k] at k1
      exact List.append_inj_left' (List.cons.inj k1).2 rfl
    · exact absurd k hs
  subst e1
  have start : ∃ r, t = h :: r := by
    cases t with
    | nil =>
      have := congrArg List.length w1
      cases l with
      | nil => cases e <;> simp [spread] at this <;> omega
      | cons w l => simp [spread] at this; omega
    | cons d r =>
      cases m with
      | nil =>
        simp at w5; subst w5
        exact ⟨r, by rw [(List.cons.inj w1).1]⟩
      | cons d' m =>
        simp at w5; subst w5
        exact ⟨r, by rw [(List.cons.inj w1).1]⟩
  obtain ⟨r, hr⟩ := start
  have hn : '\n' ∉ r := by
    intro hx
    have hx : '\n' ∈ m ++ c :: spread asIs c e l := by rw [← w1, hr]; simp [hx]
    rw [List.mem_append, List.mem_cons] at hx
    rcases hx with hx | hx | hx
    · exact absurd (w2 _ hx) (by decide)
    · rw [← hx] at w3; exact absurd w3 (by decide)
    · rcases mem_fair w4 hx with hx | hx | ⟨w, hw, hx⟩
      · exact absurd hx (by decide)
      · exact absurd hx (by decide)
      · exact absurd ((w4 w hw).1 '\n' hx).1 (by decide)
  rw [tagOut_start hpt.1 hpt.2.1 hT hr w6 hn, w1, tidy_quoted_close hT w2 w3 w4 w5 w6 w7] at k2
  exact (List.cons.inj (Option.some.inj k2)).2.symm

/-- `data-x` is no name for the program, so that the blanks before it stay; those in a value do not, nor do the quotes of the width. -/
example : ∃ P : List Seg, Page P ∧ Pre "pre".toList ∧ Seg.tag "pre".toList ∈ P ∧
    Seg.tag "img src=\"a.png\"   alt='x'  data-x=\"1\"    title=\"b  cd\"  width=\"10\"  ".toList ∈ P ∧
    AttrsOf ascii.word "img src=\"a.png\"   alt='x'  data-x=\"1\"    title=\"b  cd\"  width=\"10\"  ".toList "im".toList 'g' (some 1)
      [⟨0, 's', "rc=\"a.png".toList, '"'⟩, ⟨2, 'a', "lt='x".toList, '\''⟩, ⟨1, 'd', "ata-x=\"1".toList, '"'⟩,
        ⟨3, 't', "itle=\"".toList, 'b'⟩, ⟨1, 'c', "d".toList, '"'⟩, ⟨1, 'w', "idth=\"10".toList, '"'⟩] ∧
    minify ascii (render P) =
      some "<pre><img src=\"a.png\" alt='x'  data-x=\"1\" title=\"b cd\" width=10>x  </pre>".toList := by
  refine ⟨[.tag "pre".toList, .tag "img src=\"a.png\"   alt='x'  data-x=\"1\"    title=\"b  cd\"  width=\"10\"  ".toList, .text "x  ".toList,
    .tag "/pre".toList], page_of [[.tag "pre".toList], [.tag "img src=\"a.png\"   alt='x'  data-x=\"1\"    title=\"b  cd\"  width=\"10\"  ".toList],
    [.text "x  ".toList], [.tag "/pre".toList]] (by decide +kernel),
    ⟨"pre".toList, "pre".toList, [], .inl rfl, by simp, by decide +kernel⟩, by simp, by simp, ?_, by decide +kernel⟩
  refine ⟨by decide +kernel, by decide +kernel, by decide +kernel, ?_, ⟨'i', by decide +kernel, by decide +kernel⟩, .inr (.inl rfl)⟩
  intro w hw
  simp only [List.mem_cons, List.not_mem_nil, or_false] at hw
  rcases hw with rfl | rfl | rfl | rfl | rfl | rfl <;> exact fair_of (by decide +kernel)

end Verif.Html
