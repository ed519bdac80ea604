import Verif.Proofs.HtmlAgain
import Verif.Proofs.HtmlAgainPre
import Verif.Proofs.HtmlAgainIff
import Verif.Proofs.HtmlFair
import Verif.Proofs.HtmlCheck
/-!
# C67: minifying a page with tags twice
-/
set_option linter.unusedSimpArgs false
namespace Verif.Html
open Verif.Spec.Html

/-! ## Checks for the examples -/

private def stopsB : List Char → Bool
  | [] => false
  | d :: _ => isWhitespace d || (d == '>' || d == '/')

private def valueB (p : Char → Bool) : List Char → Bool
  | [] => true
  | c :: s => if c == '"' then stopsB s else !p c || valueB p s

private def spacedB : List Char → Bool
  | [] => true
  | c :: s => (!['=', '"'].isPrefixOf (c :: s) || (s.drop 1).head? == some '"' || valueB (fun c => !isWhitespace c) (s.drop 1)) &&
      spacedB s

private def typeSpacedB : List Char → Bool
  | [] => true
  | c :: s => (!"type=\"".toList.isPrefixOf (c :: s) || valueB (fun _ => true) ((c :: s).drop 6)) && typeSpacedB s

private theorem stops_of {u : List Char} (h : stopsB u = true) : Stops u := by
  cases u with
  | nil => cases h
  | cons d v => exact ⟨d, v, rfl, by simpa [stopsB] using h⟩

private theorem value_of {p : Char → Bool} {v u : List Char} (h : valueB p (v ++ '"' :: u) = true) (h1 : ∀ c ∈ v, p c = true)
    (h2 : '"' ∉ v) : Stops u := by
  induction v with
  | nil => exact stops_of (by simpa [valueB] using h)
  | cons c v ih =>
    simp only [List.mem_cons, not_or] at h2
    rw [List.cons_append, valueB, if_neg (by simpa using Ne.symm h2.1), h1 c (by simp)] at h
    exact ih (by simpa using h) (fun z hz => h1 z (by simp [hz])) h2.2

private theorem spaced_of {s : List Char} (h : spacedB s = true) : Spaced s := by
  intro a v u e hv hw
  subst e
  induction a with
  | nil =>
    cases v with
    | nil => exact absurd rfl hv
    | cons d v =>
      rw [List.nil_append, spacedB, Bool.and_eq_true] at h
      have hd := hw d (by simp)
      have h1 : valueB (fun c => !isWhitespace c) (d :: v ++ '"' :: u) = true := by
        have := h.1
        simp only [List.isPrefixOf, List.drop_succ_cons, List.drop_zero, beq_self_eq_true, Bool.and_self, Bool.not_true, Bool.false_or,
          List.cons_append, List.head?_cons, Bool.or_eq_true, beq_iff_eq, Option.some.injEq, hd.2, false_or] at this
        exact this
      exact value_of h1 (fun c hc => by simp [(hw c hc).1]) fun hm => (hw _ hm).2 rfl
  | cons c a ih =>
    rw [List.cons_append, spacedB, Bool.and_eq_true] at h
    exact ih h.2

private theorem typeSpaced_of {s : List Char} (h : typeSpacedB s = true) : TypeSpaced s := by
  intro a v u e hv
  subst e
  induction a with
  | nil =>
    have e0 : [] ++ "type=\"".toList ++ (v ++ '"' :: u) = 't' :: ("ype=\"".toList ++ (v ++ '"' :: u)) := by simp
    rw [e0, typeSpacedB, Bool.and_eq_true] at h
    exact value_of (p := fun _ => true) (by simpa using h.1) (by simp) hv
  | cons c a ih =>
    rw [List.cons_append, List.cons_append, typeSpacedB, Bool.and_eq_true] at h
    exact ih (by simpa using h.2)

private theorem settled_of {t : List Char} (h : (spacedB (t ++ ['>']) && typeSpacedB (t ++ ['>']) && !t.contains '\n') = true) :
    Settled t := by
  simp only [Bool.and_eq_true, Bool.not_eq_true', List.contains_eq_mem, decide_eq_false_iff_not] at h
  exact ⟨spaced_of h.1.1, fun _ => ⟨typeSpaced_of h.1.2, fun hn => absurd hn h.2⟩⟩

private theorem settled_plain {t : List Char} (h : (spacedB (t ++ ['>']) && t.head? != some 's') = true) : Settled t := by
  simp only [Bool.and_eq_true, bne_iff_ne] at h
  refine ⟨spaced_of h.1, ?_⟩
  rintro ⟨u, rfl | rfl⟩
  · exact absurd rfl h.2
  · exact absurd rfl h.2

private def apartB : List Char → Bool
  | c :: d :: s => !(isWhitespace c && isWhitespace d) && apartB (d :: s)
  | _ => true

private theorem apart_of {s : List Char} (h : apartB s = true) : Apart s := by
  induction s with
  | nil => exact apart_nil
  | cons c s ih =>
    cases s with
    | nil => exact apart_cons apart_nil (by intro d h; cases h)
    | cons d s =>
      rw [apartB, Bool.and_eq_true] at h
      refine apart_cons (ih h.2) ?_
      intro x hx
      have : d = x := by simpa using hx
      subst this
      rintro ⟨h1, h2⟩
      have := h.1
      rw [h1, h2] at this; cases this

private theorem pre_head {t : List Char} (h : Pre t) : t.head?.map Char.toLower = some 'p' ∨ t.head?.map Char.toLower = some 't' := by
  obtain ⟨n, m, u, hn, rfl, hm⟩ := h
  have e1 : "pre".toList = ['p', 'r', 'e'] := by decide +kernel
  have e2 : "textarea".toList = 't' :: "extarea".toList := by decide +kernel
  rw [e1, e2] at hn
  cases m with
  | nil => rcases hn with rfl | rfl <;> cases hm
  | cons c m =>
    rcases hn with rfl | rfl
    · exact .inl (by simp [(List.cons.inj hm).1])
    · exact .inr (by simp [(List.cons.inj hm).1])

/-! ## C67: minifying twice -/

/-- Further ways in which a second run changes a page: the type of a tag of several lines, and quotes without room behind. -/
example : minify ascii "<style type=\"a\"\n>".toList = some "<style type=\"a\">".toList ∧
    minify ascii "<style type=\"a\">".toList = some "<style>".toList := ⟨by decide +kernel, by decide +kernel⟩

example : minify ascii "<p width=\"1\"width=\"2\">".toList = some "<p width=1width=2>".toList ∧
    minify ascii "<p a=\"\"height=\"b\"=\"c\">".toList = some "<p a=\"\"height=b=\"c\">".toList ∧
    minify ascii "<p height=\"width\"=\"c\">".toList = some "<p height=width=\"c\">".toList ∧
    minify ascii "<p height=width=\"c\">".toList = some "<p height=width=c>".toList :=
  ⟨by decide +kernel, by decide +kernel, by decide +kernel, by decide +kernel⟩

/-- With a `pre`, the gap behind a width or height without quotes goes only the second time. -/
example : minify ascii "<pre><img width=\"1\"  data-x=\"2\">".toList = some "<pre><img width=1  data-x=\"2\">".toList ∧
    minify ascii "<pre><img width=1  data-x=\"2\">".toList = some "<pre><img width=1 data-x=\"2\">".toList :=
  ⟨by decide +kernel, by decide +kernel⟩

/-- For pages made of texts, tags and comments: if every attribute is followed by white space, a slash or the end of its tag, no tag but
the beginning of a conditional comment begins like a comment, no `style` or `script` tag has its type in several lines, and, in
case that a `pre` or `textarea` makes the program leave the white space alone, white space in tags is single. In this case a tag may
instead have a name and words with blanks between, not too many of them behind a width or height in quotes. -/
theorem C67_page_partial {T : Tables} (hT : T.Ok) (P : List Seg) (hP : Page P) (hop : ∀ t, Seg.tag t ∈ P → Opens t)
    (hs : (¬ ∃ t, Seg.tag t ∈ P ∧ Pre t) → ∀ t, Seg.tag t ∈ P → Settled t)
    (hpre : (∃ t, Seg.tag t ∈ P ∧ Pre t) → ∀ t, Seg.tag t ∈ P → (Apart t ∧ Settled t) ∨
      (¬ Styled t ∧ ∃ m c e l, AttrsOf T.word t m c e l ∧ Steady T.word none l))
    (o : List Char) (ho : minify T (render P) = some o) : minify T o = some o := by
  refine minify_again hT hP hop hs (fun h t ht => ?_) ho
  rcases hpre h t ht with k | ⟨k, m, c, e, l, h1, h2⟩
  · exact .inl k
  · obtain ⟨p1, p2, p3⟩ := page_tag hP ht
    exact .inr (attrs_fixes hT p1 p2 p3 k h1 h2)

/-- `<body> <!-- c --> <style type="text/css" media="a">b</style> <img  width="1" alt="x  y"/>z` and a conditional comment, with
line breaks. -/
example : ∃ P : List Seg, Page P ∧ (∀ t, Seg.tag t ∈ P → Opens t) ∧
    ((¬ ∃ t, Seg.tag t ∈ P ∧ Pre t) → ∀ t, Seg.tag t ∈ P → Settled t) ∧
    ((∃ t, Seg.tag t ∈ P ∧ Pre t) → ∀ t, Seg.tag t ∈ P → (Apart t ∧ Settled t) ∨
      (¬ Styled t ∧ ∃ m c e l, AttrsOf ascii.word t m c e l ∧ Steady ascii.word none l)) ∧
    minify ascii (render P) =
      some "<style media=\"a\">b</style> <img width=1 alt=\"x y\"/>z < 1 <!-- [if IE]> <b> a <![endif]-->".toList := by
  refine ⟨[[.tag "body".toList], [.text "\n".toList], [.comment " c ".toList], [.tag "style type=\"text/css\" media=\"a\"".toList],
    [.text "b".toList], [.tag "/style".toList], [.text "\n  ".toList], [.tag "img  width=\"1\"\n alt=\"x  y\"/".toList], [.text "z  <  1\n".toList],
    [.tag "!--\n [if IE]".toList, .text "\n".toList, .tag "b".toList, .text " a\n".toList, .tag "![endif]--".toList]].flatten,
    page_of _ (by decide +kernel), ?_, ?_, ?_, by decide +kernel⟩
  all_goals
    simp only [List.flatten_cons, List.flatten_nil, List.cons_append, List.nil_append, List.append_nil, List.mem_cons, List.not_mem_nil,
      or_false, Seg.tag.injEq, reduceCtorEq, false_or]
  · rintro t (rfl | rfl | rfl | rfl | rfl | rfl | rfl) <;> exact opens_of (by decide +kernel)
  · rintro - t (rfl | rfl | rfl | rfl | rfl | rfl | rfl)
    · exact settled_of (by decide +kernel)
    · exact settled_of (by decide +kernel)
    · exact settled_of (by decide +kernel)
    · exact settled_plain (by decide +kernel)
    · exact settled_plain (by decide +kernel)
    · exact settled_plain (by decide +kernel)
    · exact settled_plain (by decide +kernel)
  · rintro ⟨t, ht, hp⟩
    exfalso
    rcases ht with rfl | rfl | rfl | rfl | rfl | rfl | rfl <;> exact absurd (pre_head hp) (by decide +kernel)

/-- With a `pre`. -/
example : ∃ P : List Seg, Page P ∧ (∀ t, Seg.tag t ∈ P → Opens t) ∧
    ((¬ ∃ t, Seg.tag t ∈ P ∧ Pre t) → ∀ t, Seg.tag t ∈ P → Settled t) ∧
    ((∃ t, Seg.tag t ∈ P ∧ Pre t) → ∀ t, Seg.tag t ∈ P → (Apart t ∧ Settled t) ∨
      (¬ Styled t ∧ ∃ m c e l, AttrsOf ascii.word t m c e l ∧ Steady ascii.word none l)) ∧
    minify ascii (render P) = some "<pre id=\"a\">x  y</pre>".toList := by
  refine ⟨[[.tag "html".toList], [.tag "pre id=\"a\" ".toList], [.text "x  y".toList], [.tag "/pre".toList]].flatten,
    page_of _ (by decide +kernel), ?_, ?_, ?_, by decide +kernel⟩
  all_goals
    simp only [List.flatten_cons, List.flatten_nil, List.cons_append, List.nil_append, List.append_nil, List.mem_cons, List.not_mem_nil,
      or_false, Seg.tag.injEq, reduceCtorEq, false_or]
  · rintro t (rfl | rfl | rfl) <;> exact opens_of (by decide +kernel)
  · rintro - t (rfl | rfl | rfl) <;> exact settled_of (by decide +kernel)
  · rintro - t (rfl | rfl | rfl) <;> exact .inl ⟨apart_of (by decide +kernel), settled_of (by decide +kernel)⟩

/-- With a `pre` and wide gaps. -/
example : ∃ P : List Seg, Page P ∧ (∀ t, Seg.tag t ∈ P → Opens t) ∧
    ((¬ ∃ t, Seg.tag t ∈ P ∧ Pre t) → ∀ t, Seg.tag t ∈ P → Settled t) ∧
    ((∃ t, Seg.tag t ∈ P ∧ Pre t) → ∀ t, Seg.tag t ∈ P → (Apart t ∧ Settled t) ∨
      (¬ Styled t ∧ ∃ m c e l, AttrsOf ascii.word t m c e l ∧ Steady ascii.word none l)) ∧
    minify ascii (render P) = some "<pre id=\"a\">x  y</pre><img width=10 alt=\"x\"  data-x=\"1\">".toList := by
  refine ⟨[[.tag "pre   id=\"a\"  ".toList], [.text "x  y".toList], [.tag "/pre".toList],
    [.tag "img  width=\"10\"   alt=\"x\"  data-x=\"1\"".toList]].flatten, page_of _ (by decide +kernel), ?_, ?_, ?_, by decide +kernel⟩
  all_goals
    simp only [List.flatten_cons, List.flatten_nil, List.cons_append, List.nil_append, List.append_nil, List.mem_cons, List.not_mem_nil,
      or_false, Seg.tag.injEq, reduceCtorEq, false_or]
  · rintro t (rfl | rfl | rfl) <;> exact opens_of (by decide +kernel)
  · rintro - t (rfl | rfl | rfl) <;> exact settled_of (by decide +kernel)
  · have sty : ∀ t : List Char, t.head? ≠ some 's' → ¬ Styled t := by
      rintro t h ⟨u, rfl | rfl⟩ <;> exact h rfl
    rintro - t (rfl | rfl | rfl)
    · refine .inr ⟨sty _ (by decide +kernel), "pr".toList, 'e', some 1, [⟨2, 'i', "d=\"a".toList, '"'⟩],
        ⟨by decide +kernel, by decide +kernel, by decide +kernel, ?_, ⟨'p', by decide +kernel, by decide +kernel⟩, .inr (.inl rfl)⟩,
        steady_of (by decide +kernel)⟩
      intro w hw
      simp only [List.mem_cons, List.not_mem_nil, or_false] at hw
      subst hw
      exact fair_of (by decide +kernel)
    · exact .inl ⟨apart_of (by decide +kernel), settled_of (by decide +kernel)⟩
    · refine .inr ⟨sty _ (by decide +kernel), "im".toList, 'g', none, [⟨1, 'w', "idth=\"10".toList, '"'⟩, ⟨2, 'a', "lt=\"x".toList, '"'⟩,
        ⟨1, 'd', "ata-x=\"1".toList, '"'⟩], ⟨by decide +kernel, by decide +kernel, by decide +kernel, ?_, ⟨'i', by decide +kernel, by decide +kernel⟩, .inl rfl⟩,
        steady_of (by decide +kernel)⟩
      intro w hw
      simp only [List.mem_cons, List.not_mem_nil, or_false] at hw
      rcases hw with rfl | rfl | rfl <;> exact fair_of (by decide +kernel)

/-- On pages with a `pre` or `textarea` and tags with single white space or of words, the second run changes nothing exactly if no width
or height in quotes has too many blanks behind it. -/
theorem C67_pre_partial {T : Tables} (hT : T.Ok) (P : List Seg) (p : List Char) (hP : Page P) (hp : Pre p) (hm : Seg.tag p ∈ P)
    (hop : ∀ t, Seg.tag t ∈ P → Opens t)
    (ha : ∀ t, Seg.tag t ∈ P → (Apart t ∧ Settled t) ∨ (¬ Styled t ∧ ∃ m c e l, AttrsOf T.word t m c e l))
    (o : List Char) (ho : minify T (render P) = some o) :
    minify T o = some o ↔
      ∀ t, Seg.tag t ∈ P → ¬ Styled t → ∀ m c e l, AttrsOf T.word t m c e l → Steady T.word none l := by
  constructor
  · intro h t ht hst m c e l hl
    by_cases hd : Listed ('<' :: t ++ ['>'])
    · cases l with
      | nil => exact trivial
      | cons w l =>
        exfalso
        have hb : ' ' ∈ t ++ ['>'] := by rw [hl.1, spread, blanks]; simp [List.replicate_succ]
        obtain ⟨s, hs', e'⟩ := hd
        have hb : ' ' ∈ '<' :: t ++ ['>'] := by simp at hb ⊢; exact hb
        rw [e'] at hb
        exact (show ∀ s ∈ listed, ' ' ∉ s.toList by decide +kernel) s hs' hb
    · obtain ⟨Q, h1, h2, h3⟩ := minify_pre hT hP hp hm
      have : o = trim (render Q) := Option.some.inj (ho.symm.trans h1)
      subst this
      obtain ⟨t', k1, t1, k2, k3⟩ := rewritten_to h3 ht hd
      obtain ⟨p1, p2, -⟩ := page_tag hP ht
      have e1 : t = t1 := by
        rcases condTag_cases hT p1 p2 with k | ⟨k, -⟩
        · rw [k] at k2
          exact List.append_inj_left' (List.cons.inj k2).2 rfl
        · exact absurd k hst
      subst e1
      exact attrs_steady hT p1 p2 hl k3 (again_tags hT h2 h k1)
  · intro h
    refine C67_page_partial hT P hP hop (fun hn => absurd ⟨p, hm, hp⟩ hn) (fun _ t ht => ?_) o ho
    rcases ha t ht with k | ⟨k, m, c, e, l, k1⟩
    · exact .inl k
    · exact .inr ⟨k, m, c, e, l, k1, h t ht k m c e l k1⟩

/-- A page that the second run changes: the one above. -/
example : ∃ P : List Seg, Page P ∧ Pre "pre".toList ∧ Seg.tag "pre".toList ∈ P ∧ (∀ t, Seg.tag t ∈ P → Opens t) ∧
    (∀ t, Seg.tag t ∈ P → (Apart t ∧ Settled t) ∨ (¬ Styled t ∧ ∃ m c e l, AttrsOf ascii.word t m c e l)) ∧
    (¬ ∀ t, Seg.tag t ∈ P → ¬ Styled t → ∀ m c e l, AttrsOf ascii.word t m c e l → Steady ascii.word none l) ∧
    minify ascii (render P) = some "<pre><img width=1  data-x=\"2\">".toList := by
  have sty : ∀ t : List Char, t.head? ≠ some 's' → ¬ Styled t := by
    rintro t h ⟨u, rfl | rfl⟩ <;> exact h rfl
  have img : AttrsOf ascii.word "img width=\"1\"  data-x=\"2\"".toList "im".toList 'g' none
      [⟨0, 'w', "idth=\"1".toList, '"'⟩, ⟨1, 'd', "ata-x=\"2".toList, '"'⟩] := by
    refine ⟨by decide +kernel, by decide +kernel, by decide +kernel, ?_, ⟨'i', by decide +kernel, by decide +kernel⟩, .inl rfl⟩
    intro w hw
    simp only [List.mem_cons, List.not_mem_nil, or_false] at hw
    rcases hw with rfl | rfl <;> exact fair_of (by decide +kernel)
  refine ⟨[[.tag "pre".toList], [.tag "img width=\"1\"  data-x=\"2\"".toList]].flatten, page_of _ (by decide +kernel),
    ⟨"pre".toList, "pre".toList, [], .inl rfl, by simp, by decide +kernel⟩, by simp, ?_, ?_, ?_, by decide +kernel⟩
  all_goals
    simp only [List.flatten_cons, List.flatten_nil, List.cons_append, List.nil_append, List.append_nil, List.mem_cons, List.not_mem_nil,
      or_false, Seg.tag.injEq, reduceCtorEq, false_or]
  · rintro t (rfl | rfl) <;> exact opens_of (by decide +kernel)
  · rintro t (rfl | rfl)
    · exact .inl ⟨apart_of (by decide +kernel), settled_of (by decide +kernel)⟩
    · exact .inr ⟨sty _ (by decide +kernel), _, _, _, _, img⟩
  · intro h
    have := (h _ (.inr rfl) (sty _ (by decide +kernel)) _ _ _ _ img).2.1 '1' (by decide +kernel) (by decide +kernel) (by decide +kernel)
    rcases this with h | h
    · exact absurd h (by decide)
    · exact absurd h (by decide +kernel)

end Verif.Html
