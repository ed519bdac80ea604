import Verif.Proofs.HtmlPlain
/-!
# Properties of the HTML minifier: C49 - C52, C60 - C63, C67
-/
set_option linter.unusedSimpArgs false
namespace Verif.Html
open Verif.Spec.Html

/-! ## C49: no white space at the ends -/

theorem C49_trimmed (T : Tables) (s o : List Char) (h : minify T s = some o) : Trimmed o := by
  rw [minify] at h
  cases hu : unquoteAttributes T (condenseWhitespace T (cleanUnneededTags (condense T (removeComments s)))) with
  | none => rw [hu] at h; simp at h
  | some x =>
    rw [hu] at h
    have : trim x = o := by simpa using h
    obtain ⟨a, b, -, -, -, h1, h2⟩ := trim_spec x
    rw [this] at h1 h2
    exact ⟨h1, h2⟩

example : minify ascii " <p>a </p>\n<body> ".toList = some "<p>a </p>".toList := by decide +kernel

/-! ## C50: comments -/

/-- The property as stated: a comment is kept if its text starts with `[`. -/
def C50_full : Prop := ∀ s : List Char, Comments (fun body => ∃ u, body = '[' :: u) s (removeComments s)

/-- `<!-- [x -->` and `<!--<!--[-->` are kept as well. -/
theorem C50_full_false : ¬ C50_full := by
  intro h
  have h := h "<!-- [x -->".toList
  have e : removeComments "<!-- [x -->".toList = "<!-- [x -->".toList := by decide +kernel
  rw [e] at h
  have hc : CommentAt "<!-- [x -->".toList " [x ".toList [] := by
    refine ⟨by decide +kernel, ?_⟩
    intro u v e
    have hl := congrArg List.length e
    have e1 : " [x ".toList ++ "-->".toList = [' ', '[', 'x', ' ', '-', '-', '>'] := by decide +kernel
    have e2 : "-->".toList = ['-', '-', '>'] := by decide +kernel
    rw [e1, e2] at e
    match u, e with
    | [], e => simp at e
    | [_], e => simp at e
    | [_, _], e => simp at e
    | [_, _, _], e => simp at e
    | [_, _, _, _], e => simp at e; exact e.2.2.2.2
    | [_, _, _, _, _], e => simp at e
    | [_, _, _, _, _, _], e => simp at e
    | _ :: _ :: _ :: _ :: _ :: _ :: _ :: u, e => simp at e
  have h2 : Comments (fun body => ∃ u, body = '[' :: u) "<!-- [x -->".toList [' '] :=
    .drop hc (by rintro ⟨u, hu⟩; simp at hu) .nil
  have := comments_unique h h2
  exact absurd this (by decide +kernel)

/-- For every page: the pass replaces each comment by one blank, except for those with a `[` after blanks and repetitions of
`<!--`, which it keeps; it changes nothing else. This determines the result. -/
theorem C50_pass (s o : List Char) : removeComments s = o ↔ Comments Conditional s o :=
  ⟨fun h => h ▸ removeComments_spec s, fun h => comments_unique (removeComments_spec s) h⟩

example : removeComments "a<!-- b -->c<!--[if d]>e<![endif]-->f<!-- g".toList =
    "a c<!--[if d]>e<![endif]-->f<!-- g".toList := by decide +kernel

private theorem conditional_append {s : List Char} (h : Conditional s) (x : List Char) : Conditional (s ++ x) := by
  induction h with
  | here => exact .here
  | blank hw _ ih => exact .blank hw ih
  | again _ ih => rw [List.append_assoc]; exact .again ih

/-- The rule as stated, if a `[` after a `<!--` and blanks follows that `<!--` directly. -/
theorem C50_partial (s : List Char) (hs : ∀ a u, s = a ++ "<!--".toList ++ u → Conditional u → ∃ v, u = '[' :: v) :
    Comments (fun body => ∃ u, body = '[' :: u) s (removeComments s) := by
  have h := removeComments_spec s
  generalize removeComments s = o at h
  have key : ∀ s body rest, CommentAt s body rest →
      (∀ a u, s = a ++ "<!--".toList ++ u → Conditional u → ∃ v, u = '[' :: v) →
      ((∃ u, body = '[' :: u) ↔ Conditional body) ∧
      (∀ a u, rest = a ++ "<!--".toList ++ u → Conditional u → ∃ v, u = '[' :: v) := by
    intro s body rest hc hs
    refine ⟨⟨?_, ?_⟩, ?_⟩
    · rintro ⟨u, rfl⟩; exact .here
    · intro hb
      obtain ⟨v, hv⟩ := hs [] (body ++ ("-->".toList ++ rest)) (by rw [hc.1]; simp) (conditional_append hb _)
      cases hb with
      | here => exact ⟨_, rfl⟩
      | blank hw _ =>
        have := (List.cons.inj hv).1
        subst this
        exact absurd hw (by decide +kernel)
      | again _ =>
        have e : "<!--".toList = ['<', '!', '-', '-'] := by decide +kernel
        rw [e] at hv
        have := (List.cons.inj hv).1
        exact absurd this (by decide)
    · intro a u e
      exact hs ("<!--".toList ++ body ++ "-->".toList ++ a) u (by rw [hc.1, e]; simp)
  induction h with
  | nil => exact .nil
  | @char c s o hn _ ih =>
    exact .char hn (ih fun a u e => hs (c :: a) u (by rw [e]; rfl))
  | drop hc hk _ ih =>
    obtain ⟨k1, k2⟩ := key _ _ _ hc hs
    exact .drop hc (fun h => hk (k1.1 h)) (ih k2)
  | keep hc hk _ ih =>
    obtain ⟨k1, k2⟩ := key _ _ _ hc hs
    exact .keep hc (k1.2 hk) (ih k2)

example : (∀ a u, "<!-- b --><!--[if d]>".toList = a ++ "<!--".toList ++ u → Conditional u → ∃ v, u = '[' :: v) ∧
    removeComments "<!-- b --><!--[if d]-->".toList = " <!--[if d]-->".toList := by
  refine ⟨?_, by decide +kernel⟩
  intro a u e hu
  have e0 : "<!-- b --><!--[if d]>".toList =
    ['<', '!', '-', '-', ' ', 'b', ' ', '-', '-', '>', '<', '!', '-', '-', '[', 'i', 'f', ' ', 'd', ']', '>'] := by decide +kernel
  have e1 : "<!--".toList = ['<', '!', '-', '-'] := by decide +kernel
  rw [e0, e1] at e
  match a, e with
  | [], e =>
    have : u = ' ' :: 'b' :: " --><!--[if d]>".toList := by simpa using e.symm
    subst this
    rw [conditional_cons (by rintro ⟨u, h⟩; rw [e1] at h; simp at h), conditional_cons (by rintro ⟨u, h⟩; rw [e1] at h; simp at h)] at hu
    rcases hu with h | ⟨-, h | ⟨h, -⟩⟩
    · exact absurd h (by decide)
    · exact absurd h (by decide)
    · exact absurd h (by decide +kernel)
  | [_], e => simp at e
  | [_, _], e => simp at e
  | [_, _, _], e => simp at e
  | [_, _, _, _], e => simp at e
  | [_, _, _, _, _], e => simp at e
  | [_, _, _, _, _, _], e => simp at e
  | [_, _, _, _, _, _, _], e => simp at e
  | [_, _, _, _, _, _, _, _], e => simp at e
  | [_, _, _, _, _, _, _, _, _], e => simp at e
  | [_, _, _, _, _, _, _, _, _, _], e => exact ⟨"if d]>".toList, by simp at e; simp [e.2.2.2.2.2.2.2.2.2.2]⟩
  | _ :: _ :: _ :: _ :: _ :: _ :: _ :: _ :: _ :: _ :: _ :: a, e =>
    have hm : '<' ∈ "!--[if d]>".toList := by
      have : "!--[if d]>".toList = a ++ ['<', '!', '-', '-'] ++ u := by simp at e; simp [e.2.2.2.2.2.2.2.2.2.2.2]
      rw [this]; simp
    exact absurd hm (by decide +kernel)

/-- Doing it again changes nothing. -/
theorem C50_again (s : List Char) : removeComments (removeComments s) = removeComments s :=
  (C50_pass _ _).2 (comments_again (removeComments_spec s))

/-! ## C51: white space -/

/-- A page that has `<pre` or `<textarea` somewhere, in any case, is only trimmed. -/
theorem C51_pre {T : Tables} (hT : T.Ok) (s : List Char) (h : Mentions "<pre".toList s ∨ Mentions "<textarea".toList s) :
    condenseWhitespace T s = trim s := (condenseWhitespace_spec hT s).1 h

example : Mentions "<pre".toList " a  <PrE> b\n ".toList ∧
    condenseWhitespace ascii " a  <PrE> b\n ".toList = "a  <PrE> b".toList :=
  ⟨⟨" a  ".toList, "<PrE".toList, "> b\n ".toList, by decide +kernel, by decide +kernel⟩, by decide +kernel⟩

/-- In any other page, exactly the gaps between two tags, the gaps of two or more characters and the line breaks become one
blank; nothing else changes. -/
theorem C51_gaps {T : Tables} (hT : T.Ok) (s o : List Char) (h1 : ¬ Mentions "<pre".toList s)
    (h2 : ¬ Mentions "<textarea".toList s) : condenseWhitespace T s = o ↔ Gaps squeeze none s o :=
  ⟨fun h => h ▸ (condenseWhitespace_spec hT s).2 h1 h2, fun h => gaps_unique ((condenseWhitespace_spec hT s).2 h1 h2) h⟩

/-- So it has no line break and no two white space characters in a row. -/
theorem C51_single {T : Tables} (hT : T.Ok) (s : List Char) (h1 : ¬ Mentions "<pre".toList s)
    (h2 : ¬ Mentions "<textarea".toList s) :
    '\r' ∉ condenseWhitespace T s ∧ '\n' ∉ condenseWhitespace T s ∧ Apart (condenseWhitespace T s) := by
  have h := (condenseWhitespace_spec hT s).2 h1 h2
  exact ⟨(gaps_nobreak h).1, (gaps_nobreak h).2, gaps_apart h⟩

example : (¬ Mentions "<pre".toList " a  b\nc ".toList) ∧ (¬ Mentions "<textarea".toList " a  b\nc ".toList) ∧
    condenseWhitespace ascii " a  b\nc ".toList = " a b c ".toList :=
  ⟨fun h => absurd (mentions_mem h (by decide +kernel)) (by decide +kernel),
    fun h => absurd (mentions_mem h (by decide +kernel)) (by decide +kernel), by decide +kernel⟩

/-- Doing it again changes nothing. -/
theorem C51_again {T : Tables} (hT : T.Ok) (s : List Char) :
    condenseWhitespace T (condenseWhitespace T s) = condenseWhitespace T s := condenseWhitespace_again hT s

/-! ## C52: tags -/

def C52_full : Prop := ∀ s a t b : List Char, Listed t → cleanUnneededTags s ≠ a ++ t ++ b

/-- `<bo<head>dy>`: the `<body>` that shows after the removal of `<head>` stays. -/
theorem C52_full_false : ¬ C52_full := by
  intro h
  exact h "<bo<head>dy>".toList [] "<body>".toList [] ⟨"<body>", by decide, rfl⟩ (by decide +kernel)

/-- For every page: nothing is removed but listed tags. -/
theorem C52_removal (s : List Char) : Removal s (cleanUnneededTags s) := clean_removal s

example : cleanUnneededTags "<html><body>a<p></li></p>".toList = "a<p></p>".toList := by decide +kernel

/-- For every page in which tags do not contain tags: the listed tags are left out, all of them, and nothing else. -/
theorem C52_flat_partial (s o : List Char) (hf : Flat s) :
    (cleanUnneededTags s = o ↔ Without Listed s o) ∧ ∀ a t b, Listed t → cleanUnneededTags s ≠ a ++ t ++ b := by
  have h := clean_without hf
  refine ⟨⟨fun e => e ▸ h, fun h' => without_unique (fun t ht => listed_shape ht) h h'⟩, ?_⟩
  intro a t b ht
  exact without_none (fun t ht => listed_shape ht) hf h a t b ht

example : Flat "<body>a</li> > b <= c << d <!-- e --> < </html>".toList ∧
    cleanUnneededTags "<body>a</li> > b <= c << d <!-- e --> < </html>".toList = "a > b <= c << d <!-- e --> < ".toList :=
  ⟨flat_of (by decide +kernel), by decide +kernel⟩

/-- A page without any listed tag stays as it is. -/
theorem C52_absent (s : List Char) (h : ∀ a t b, Listed t → s ≠ a ++ t ++ b) : cleanUnneededTags s = s := clean_absent h

/-- A page with tags and an end tag that are not listed. -/
example : ∀ a t b, Listed t → "<p>a</p>".toList ≠ a ++ t ++ b := by
  intro a t b ht h
  have hall : listed.all (fun t => (List.range 9).all (fun n => !t.toList.isPrefixOf ("<p>a</p>".toList.drop n))) = true := by
    decide +kernel
  obtain ⟨u, hu, rfl⟩ := ht
  have hl := congrArg List.length h
  have := List.all_eq_true.1 (List.all_eq_true.1 hall u hu) a.length (by simp at hl ⊢; omega)
  rw [h, List.append_assoc, List.drop_left] at this
  simp [List.isPrefixOf_iff_prefix.2 (List.prefix_append u.toList b)] at this

/-! ## C60: no panic -/

theorem C60_no_panic (T : Tables) (s : List Char) : ∃ o, minify T s = some o := by
  obtain ⟨o, h, -⟩ := minify_some T s
  exact ⟨o, h⟩

/-- The panicking operation is reached. -/
example : minify ascii "<pre><a b=\"c\"  d='e'   f=\"g\">".toList = some "<pre><a b=\"c\" d='e' f=\"g\">".toList := by
  decide +kernel

/-! ## C61: not larger -/

theorem C61_size (T : Tables) (s o : List Char) (h : minify T s = some o) : bytes o ≤ bytes s := by
  obtain ⟨o', h1, h2⟩ := minify_some T s
  rw [h] at h1
  rw [Option.some.inj h1]; exact h2.size

/-! ## C62: nothing is invented -/

/-- Leaving white space aside, the result is the source with characters left out. -/
theorem C62_ink (T : Tables) (s o : List Char) (h : minify T s = some o) : (ink o).Sublist (ink s) := by
  obtain ⟨o', h1, h2⟩ := minify_some T s
  rw [h] at h1
  rw [Option.some.inj h1]; exact h2.ink

example : minify ascii "<body> <img  width=\"1\">é <!-- x --> ".toList = some "<img width=1>é".toList := by decide +kernel

/-! ## C63: pages without tags -/

/-- A page without `<`: the white space is squeezed, the ends are trimmed, and that is all. -/
theorem C63_plain {T : Tables} (hT : T.Ok) (s o : List Char) (h : '<' ∉ s) (hg : Gaps squeeze none s o) :
    minify T s = some (trim o) := minify_plain hT h hg

example : Gaps squeeze none "a > b".toList "a > b".toList ∧ minify ascii " a  > b\n".toList = some "a > b".toList := by
  refine ⟨gaps_id ?_ (by decide +kernel) (by decide +kernel) (by decide +kernel) none, by decide +kernel⟩
  have e0 : "a > b".toList = ['a', ' ', '>', ' ', 'b'] := by decide +kernel
  rw [e0]
  have h := gaps_apart (squeeze_spec ['a', ' ', '>', ' ', 'b'])
  have e : pass2 (pass1 ['a', ' ', '>', ' ', 'b']) = ['a', ' ', '>', ' ', 'b'] := by decide +kernel
  rwa [e] at h

/-! ## C67: minifying twice -/

def C67_full : Prop := ∀ (T : Tables), T.Ok → ∀ s o, minify T s = some o → minify T o = some o

/-- `<bo<head>dy>x`: the second run removes the `<body>` that the first run brought about. -/
theorem C67_full_false : ¬ C67_full := by
  intro h
  have h := h ascii ascii_ok "<bo<head>dy>x".toList "<body>x".toList (by decide +kernel)
  have e : minify ascii "<body>x".toList = some "x".toList := by decide +kernel
  rw [e] at h
  exact absurd h (by decide +kernel)

/-- For pages without `<`. -/
theorem C67_plain_partial {T : Tables} (hT : T.Ok) (s o : List Char) (h : '<' ∉ s) (hm : minify T s = some o) :
    minify T o = some o := minify_plain_again hT h hm

example : '<' ∉ "a >\n b".toList ∧ minify ascii "a >\n b".toList = some "a > b".toList := by decide +kernel

end Verif.Html
