import Verif.Proofs.HtmlExactPre
import Verif.Proofs.HtmlCheck
/-!
# C95: the result for a page with preformatted text
-/
set_option linter.unusedSimpArgs false
namespace Verif.Html
open Verif.Spec.Html

def C95_full : Prop := ∀ (T : Tables), T.Ok → ∀ (P : List Seg) (p : List Char), Page P → Pre p → Seg.tag p ∈ P →
  ∃ Q, minify T (render P) = some (trim (render Q)) ∧ Rewritten (Brushed T.word) P Q

/-- Two blanks between words become one. -/
theorem C95_full_false : ¬ C95_full := by
  intro h
  obtain ⟨Q, h1, h2⟩ := h ascii ascii_ok [[.tag "pre  ab".toList]].flatten "pre  ab".toList (page_of _ (by decide +kernel))
    ⟨"pre".toList, "pre".toList, "  ab".toList, .inl rfl, by simp, by decide +kernel⟩ (by simp)
  have e0 : minify ascii (render [[Seg.tag "pre  ab".toList]].flatten) = some "<pre ab>".toList := by decide +kernel
  rw [e0] at h1
  have ns : ¬ StyleTag ascii.word "pre  ab".toList := by
    rintro ⟨w, c, u, hw, e, -, -⟩
    rcases hw with rfl | rfl
    · exact absurd (congrArg List.head? e) (by show some 'p' ≠ some 's'; decide)
    · exact absurd (congrArg List.head? e) (by show some 'p' ≠ some 's'; decide)
  cases h2 with
  | drop hl _ =>
    obtain ⟨s, hs, e⟩ := hl
    have hx : s.toList ∈ listed.map String.toList := List.mem_map.2 ⟨s, hs, rfl⟩
    rw [← e] at hx
    exact absurd hx (by decide +kernel)
  | @tag _ t' _ Q _ hb h2 =>
    cases h2 with
    | nil =>
      obtain ⟨t1, k1, k2, -⟩ := hb
      rcases k1 with ⟨k1, -⟩ | ⟨-, rfl⟩
      · exact ns k1
      · have ku := k2 ⟨'p', by decide +kernel, by decide +kernel⟩ (by decide +kernel)
        have e1 : snug ('<' :: "pre  ab".toList) ++ ['>'] = "<pre  ab>".toList := by decide +kernel
        rw [e1] at ku
        have kq := quotes_unquotes "<pre  ab>".toList
        have e2 : quotes "<pre  ab>".toList = "<pre  ab>".toList := by decide +kernel
        rw [e2] at kq
        have e3 := unquotes_det ku kq
        have e4 : render [Seg.tag t'] = "<pre  ab>".toList := by
          rw [← e3]
          simp [render, Seg.show]
        rw [e4] at h1
        revert h1
        decide +kernel

/-- On a page with preformatted text whose tags have no wide gaps: comments are blanks, the listed tags are dropped, styles and
scripts lose their types, in the start tags without line breaks white space between a quote and the end goes and widths and heights lose
their quotes, and the whole is trimmed. Nothing else changes; all texts stay as they are. -/
theorem C95_partial {T : Tables} (hT : T.Ok) (P : List Seg) (p : List Char) (hP : Page P) (hp : Pre p) (hm : Seg.tag p ∈ P)
    (ha : ∀ t, Seg.tag t ∈ P → Apart t) :
    ∃ Q, minify T (render P) = some (trim (render Q)) ∧ Rewritten (Brushed T.word) P Q :=
  minify_brushed hT hP hp hm ha

/-- This describes exactly the result. -/
theorem C95_iff_partial {T : Tables} (hT : T.Ok) (P : List Seg) (p : List Char) (hP : Page P) (hp : Pre p) (hm : Seg.tag p ∈ P)
    (ha : ∀ t, Seg.tag t ∈ P → Apart t) (hu : ∀ t, Seg.tag t ∈ P → (∃ h, t.head? = some h ∧ T.word h = true) ∨ NotStart t)
    (o : List Char) : minify T (render P) = some o ↔ ∃ Q, Rewritten (Brushed T.word) P Q ∧ o = trim (render Q) := by
  obtain ⟨Q, h1, h2⟩ := minify_brushed hT hP hp hm ha
  constructor
  · intro ho
    rw [h1] at ho
    exact ⟨Q, h2, (Option.some.inj ho).symm⟩
  · rintro ⟨Q2, k1, rfl⟩
    have e := rewritten_same (R := Brushed T.word) (fun t y y' hm => brushed_det hT (hu t hm)) h2 k1
    rw [h1, e]

/-- White space in the texts stays, and so does a tag with a line break. -/
example : ∃ P : List Seg, Page P ∧ Pre "pre id=\"a\" ".toList ∧ Seg.tag "pre id=\"a\" ".toList ∈ P ∧
    (∀ t, Seg.tag t ∈ P → Apart t) ∧ (∀ t, Seg.tag t ∈ P → (∃ h, t.head? = some h ∧ ascii.word h = true) ∨ NotStart t) ∧
    render P = "<pre id=\"a\" >b\n\n  c<!-- d --></pre>  <img\nwidth=\"1\"><img width=\"2\">".toList ∧
    minify ascii (render P) = some "<pre id=\"a\">b\n\n  c </pre>  <img\nwidth=\"1\"><img width=2>".toList := by
  have mem : ∀ t, Seg.tag t ∈ [[Seg.tag "pre id=\"a\" ".toList], [.text "b\n\n  c".toList], [.comment " d ".toList], [.tag "/pre".toList],
      [.text "  ".toList], [.tag "img\nwidth=\"1\"".toList], [.tag "img width=\"2\"".toList]].flatten →
      t = "pre id=\"a\" ".toList ∨ t = "/pre".toList ∨ t = "img\nwidth=\"1\"".toList ∨ t = "img width=\"2\"".toList := by
    intro t ht
    simpa only [List.flatten_cons, List.flatten_nil, List.cons_append, List.nil_append, List.append_nil, List.mem_cons, List.not_mem_nil,
      or_false, Seg.tag.injEq, reduceCtorEq, false_or] using ht
  have apart : ∀ t : List Char, (t.zip t.tail).all (fun x => !(isWhitespace x.1 && isWhitespace x.2)) = true → Apart t := by
    rintro _ h a x y b rfl ⟨h1, h2⟩
    rw [List.all_eq_true] at h
    have : (x, y) ∈ (a ++ x :: y :: b).zip (a ++ x :: y :: b).tail := by
      clear h
      induction a with
      | nil => simp
      | cons c a ih =>
        cases a with
        | nil => simp
        | cons d a => simp only [List.cons_append, List.tail_cons, List.zip_cons_cons] at ih ⊢; exact List.mem_cons_of_mem _ ih
    have := h _ this
    rw [h1, h2] at this
    cases this
  refine ⟨_, page_of [[.tag "pre id=\"a\" ".toList], [.text "b\n\n  c".toList], [.comment " d ".toList], [.tag "/pre".toList],
    [.text "  ".toList], [.tag "img\nwidth=\"1\"".toList], [.tag "img width=\"2\"".toList]] (by decide +kernel),
    ⟨"pre".toList, "pre".toList, " id=\"a\" ".toList, .inl rfl, by decide +kernel, by decide +kernel⟩, by simp, ?_, ?_, by decide +kernel,
    by decide +kernel⟩
  · intro t ht
    rcases mem t ht with rfl | rfl | rfl | rfl <;> exact apart _ (by decide +kernel)
  · intro t ht
    rcases mem t ht with rfl | rfl | rfl | rfl
    · exact .inl ⟨'p', by decide +kernel, by decide +kernel⟩
    · exact .inr ⟨'/', "pre".toList, by decide +kernel, .inl rfl⟩
    · exact .inl ⟨'i', by decide +kernel, by decide +kernel⟩
    · exact .inl ⟨'i', by decide +kernel, by decide +kernel⟩

end Verif.Html
