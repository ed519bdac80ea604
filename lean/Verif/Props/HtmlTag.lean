import Verif.Proofs.HtmlInline
import Verif.Proofs.HtmlPlain
import Verif.Proofs.HtmlCheck
/-!
# C64, C65, C66, C68, C77: what the HTML minifier does to tags and to the text between them
-/
set_option linter.unusedSimpArgs false
namespace Verif.Html
open Verif.Spec.Html

/-! ## Checks for the examples -/

private def tameB : Reader → List Char → Bool
  | _, [] => true
  | r, c :: s =>
    (c != '"' || (match r.st with
      | .beforeValue _ => true
      | .dq n _ => match s.head? with
        | some d => blank d || d == '>' || d == '/' && !sized n
        | none => false
      | _ => false)) &&
    (!isWhitespace c || (if r.st.quoted then (match s.head? with
      | some d => !isWhitespace d
      | none => true) else blank c)) && tameB (r.step c) s

private theorem tame_of {r : Reader} {s : List Char} (h : tameB r s = true) : Tame r s := by
  induction s generalizing r with
  | nil => trivial
  | cons c s ih =>
    simp only [tameB, Bool.and_eq_true, Bool.or_eq_true, bne_iff_ne, ne_eq, Bool.not_eq_true'] at h
    refine ⟨⟨?_, ?_⟩, ih h.2⟩
    · intro hc
      rcases h.1.1 with h1 | h1
      · exact absurd hc h1
      · split at h1
        · rename_i n hn; exact .inl ⟨n, hn⟩
        · rename_i n v hn
          refine .inr ⟨n, v, hn, ?_⟩
          split at h1
          · rename_i d hd
            simp only [Bool.or_eq_true, beq_iff_eq, Bool.and_eq_true, Bool.not_eq_true'] at h1
            exact ⟨d, hd, h1.elim (fun h => h.elim .inl fun h => .inr (.inl h)) fun h => .inr (.inr h)⟩
          · cases h1
        · cases h1
    · intro hc
      rcases h.1.2 with h1 | h1
      · rw [hc] at h1; cases h1
      · split
        · rename_i hq
          rw [if_pos hq] at h1
          intro d hd
          rw [hd] at h1
          simpa using h1
        · rename_i hq
          rw [if_neg hq] at h1; exact h1

private def safeB : Reader → List Char → Bool
  | _, [] => true
  | r, c :: s =>
    (!("type=\"".toList.isPrefixOf (c :: s)) || r.st.between) &&
    (c != '=' || (match r.st with
      | .beforeName | .afterQuoted | .slash => false
      | _ => true)) &&
    (c != '"' || s.head? != some '/' || (match r.st with
      | .dq n _ => n != "type".toList
      | _ => true)) && safeB (r.step c) s

private theorem safe_of {r : Reader} {s : List Char} (h : safeB r s = true) : TypeSafe r s := by
  induction s generalizing r with
  | nil => trivial
  | cons c s ih =>
    simp only [safeB, Bool.and_eq_true, Bool.or_eq_true, bne_iff_ne, ne_eq, Bool.not_eq_true'] at h
    refine ⟨?_, ?_, ?_, ih h.2⟩
    rotate_left 2
    · intro hc v hv hd
      rcases h.1.2 with (h1 | h1) | h1
      · exact h1 hc
      · exact h1 hd
      · rw [hv] at h1; simp at h1
    · intro hc
      rcases h.1.1.1 with h1 | h1
      · rw [List.isPrefixOf_iff_prefix.2 hc] at h1; cases h1
      · exact h1
    · intro hc
      rcases h.1.1.2 with h1 | h1
      · exact absurd hc h1
      · refine ⟨?_, ?_, ?_⟩ <;> intro e <;> rw [e] at h1 <;> cases h1

private def tightB : Reader → List Char → Bool
  | _, [] => true
  | r, c :: s => (!isWhitespace c || !r.st.quoted || c == ' ') && tightB (r.step c) s

private theorem tight_of {r : Reader} {s : List Char} (h : tightB r s = true) : Tight r s := by
  induction s generalizing r with
  | nil => trivial
  | cons c s ih =>
    simp only [tightB, Bool.and_eq_true, Bool.or_eq_true, Bool.not_eq_true', beq_iff_eq] at h
    refine ⟨?_, ih h.2⟩
    intro hc hq
    rcases h.1 with (h1 | h1) | h1
    · rw [hc] at h1; cases h1
    · rw [hq] at h1; cases h1
    · exact h1

private theorem kept_of {t : List Char} (h : (tameB Reader.init ('<' :: t ++ ['>']) && safeB Reader.init ('<' :: t ++ ['>'])) = true) :
    Kept t := by
  rw [Bool.and_eq_true] at h
  exact ⟨tame_of h.1, fun _ => safe_of h.2⟩

/-! ## C64: type attributes -/

/-- Only default types are dropped, from whatever tag. -/
def C64_full : Prop := ∀ (T : Tables), T.Ok → ∀ (s : List Char) n as b, readTag s = some (n, as, b) →
  ∃ bs b', readTag (condense T s) = some (n, bs, b') ∧ effective n bs = effective n as

/-- A module becomes an ordinary script. -/
theorem C64_full_false : ¬ C64_full := by
  intro h
  obtain ⟨bs, b', h1, h2⟩ := h ascii ascii_ok "<script type=\"module\">".toList "script".toList
    [("type".toList, "module".toList)] false (by decide +kernel)
  have e : readTag (condense ascii "<script type=\"module\">".toList) = some ("script".toList, [], false) := by decide +kernel
  rw [e] at h1
  have h3 := (Prod.mk.inj (Prod.mk.inj (Option.some.inj h1)).2).1
  rw [← h3] at h2
  exact absurd h2 (by decide +kernel)

/-- Even the name of an attribute or of the tag can be cut. -/
example : readTag (condense ascii "<script data-type=\"x\">".toList) = some ("script".toList, [("data-".toList, [])], false) ∧
    readTag (condense ascii "<scriptype=\"x\">".toList) = some ("scrip".toList, [], false) :=
  ⟨by decide +kernel, by decide +kernel⟩

/-- Tags other than `style` and `script` are kept as they are. -/
theorem C64_other {T : Tables} (hT : T.Ok) (t : List Char) (h1 : '<' ∉ t) (h2 : '>' ∉ t) (h3 : ¬ Styled t) :
    condense T ('<' :: t ++ ['>']) = '<' :: t ++ ['>'] := by
  rcases condTag_cases hT h1 h2 with h | ⟨h, -⟩
  · exact h
  · exact absurd h h3

example : ¬ Styled "input type=\"text\"".toList := by
  rintro ⟨u, h | h⟩
  · exact absurd (congrArg (·.head?) h) (by simp)
  · exact absurd (congrArg (·.head?) h) (by simp)

/-- In a tag whose quotes are where they should be, and where every `type="` begins an attribute: the name of the tag is kept,
and the attributes that are dropped are called `type`. -/
theorem C64_partial {T : Tables} (hT : T.Ok) (t : List Char) (h1 : '<' ∉ t) (h2 : '>' ∉ t)
    (ht : Tame Reader.init ('<' :: t ++ ['>'])) (hs : TypeSafe Reader.init ('<' :: t ++ ['>'])) (n : List Char) (as) (b : Bool)
    (hr : readTag ('<' :: t ++ ['>']) = some (n, as, b)) :
    ∃ bs b', readTag (condense T ('<' :: t ++ ['>'])) = some (n, bs, b') ∧ Untyped as bs ∧
      ((∀ v, ("type".toList, v) ∈ as → defaultType n v = true) → effective n bs = effective n as) := by
  rcases condTag_cases hT h1 h2 with h | ⟨-, h⟩
  · refine ⟨as, b, ?_, .refl as, fun _ => rfl⟩
    rw [show condense T ('<' :: t ++ ['>']) = _ from h]; exact hr
  · obtain ⟨bs, b', g1, g2⟩ := condense_read hT ht hs hr
    exact ⟨bs, b', by rw [show condense T ('<' :: t ++ ['>']) = _ from h]; exact g1, g2, untyped_effective g2⟩

example : Tame Reader.init ('<' :: "script  async type=\"text/javascript\" src=\"a b.js\"".toList ++ ['>']) ∧
    TypeSafe Reader.init ('<' :: "script  async type=\"text/javascript\" src=\"a b.js\"".toList ++ ['>']) ∧
    readTag ('<' :: "script  async type=\"text/javascript\" src=\"a b.js\"".toList ++ ['>']) = some ("script".toList,
      [("async".toList, []), ("type".toList, "text/javascript".toList), ("src".toList, "a b.js".toList)], false) ∧
    readTag (condense ascii ('<' :: "script  async type=\"text/javascript\" src=\"a b.js\"".toList ++ ['>'])) =
      some ("script".toList, [("async".toList, []), ("src".toList, "a b.js".toList)], false) :=
  ⟨tame_of (by decide +kernel), safe_of (by decide +kernel), by decide +kernel, by decide +kernel⟩

/-! ## C65: preformatted text -/

def C65_full : Prop := ∀ (T : Tables), T.Ok → ∀ (P : List Seg) (p o : List Char), (∀ x ∈ P, x.Ok) → Pre p → Seg.tag p ∈ P →
  minify T (render P) = some o → trim (bare false o) = trim (outside P)

/-- A comment between two letters becomes a blank. -/
theorem C65_full_false : ¬ C65_full := by
  intro h
  have h := h ascii ascii_ok [.tag "pre".toList, .text "a".toList, .comment "c".toList, .text "b".toList, .tag "/pre".toList]
    "pre".toList "<pre>a b</pre>".toList (by
      have n : '<' ∉ "c".toList := by decide +kernel
      intro x hx
      simp only [List.mem_cons, List.not_mem_nil, or_false] at hx
      rcases hx with rfl | rfl | rfl | rfl | rfl
      · refine ⟨by decide +kernel, by decide +kernel, sharp_of (by decide +kernel), ?_⟩
        intro u e
        exact absurd (congrArg (·.head?) e) (by simp)
      · exact tagless_of (by decide +kernel)
      · intro u v e
        have e0 : "c".toList ++ "-->".toList = ['c', '-', '-', '>'] := by decide +kernel
        have e1 : "-->".toList = ['-', '-', '>'] := by decide +kernel
        rw [e0, e1] at e
        match u, e with
        | [], e => simp at e
        | [_], e => simp at e; exact e.2
        | _ :: _ :: u, e =>
          have := congrArg List.length e
          simp at this
          omega
      · exact tagless_of (by decide +kernel)
      · refine ⟨by decide +kernel, by decide +kernel, sharp_of (by decide +kernel), ?_⟩
        intro u e
        exact absurd (congrArg (·.head?) e) (by simp))
    ⟨"pre".toList, "pre".toList, [], .inl rfl, by simp, by decide +kernel⟩ (by simp) (by decide +kernel)
  exact absurd h (by decide +kernel)

/-- A page with a `pre` or `textarea` tag: every text is kept character by character, every comment that is not a conditional
one becomes one blank, the listed tags go, every start tag whose quotes are where they should be reads as before, and every other
tag, such as the ends of a conditional comment, is kept as it is; then the page is trimmed. -/
theorem C65_partial {T : Tables} (hT : T.Ok) (P : List Seg) (p : List Char) (hP : Page P) (hp : Pre p) (hm : Seg.tag p ∈ P) :
    ∃ Q, minify T (render P) = some (trim (render Q)) ∧
      Rewritten (fun t t' => (Kept t → ReadsAs t t') ∧ (NotStart t → t' = t)) P Q := by
  obtain ⟨Q, h1, -, h3⟩ := minify_pre hT hP hp hm
  refine ⟨Q, h1, rewritten_mono h3 ?_⟩
  rintro t t' ht ⟨t1, k1, k2⟩
  have := page_tag hP ht
  refine ⟨fun hk => tag_kept hT this.1 this.2.1 hk k1 k2, fun hn => ?_⟩
  rw [condTag_notStart hT this.1 this.2.1 hn] at k1
  have e1 : t = t1 := List.append_inj_left' (List.cons.inj k1).2 rfl
  subst e1
  rw [tagOut_notStart hT this.1 hn] at k2
  exact (List.append_inj_left' (List.cons.inj (Option.some.inj k2)).2 rfl).symm

/-- So the text outside of tags is that of the source, with a blank for every comment that is not a conditional one. -/
theorem C65_text_partial {T : Tables} (hT : T.Ok) (P : List Seg) (p o : List Char) (hP : Page P) (hp : Pre p)
    (hm : Seg.tag p ∈ P) (ho : minify T (render P) = some o) : trim (bare false o) = trim (shown P) := by
  obtain ⟨Q, h1, h2, h3⟩ := minify_pre hT hP hp hm
  rw [ho] at h1
  rw [Option.some.inj h1, bare_trim h2, rewritten_shown h3]

/-- With a comment that goes and one that stays. -/
example : ∃ P : List Seg, Page P ∧ Pre "PRE id=\"a\"".toList ∧ Seg.tag "PRE id=\"a\"".toList ∈ P ∧ Kept "PRE id=\"a\"".toList ∧
    NotStart "/pre".toList ∧ NotStart "!--[if  IE]".toList ∧
    minify ascii (render P) = some "<PRE id=\"a\">x\n  y  </pre> <!--[if  IE]>a <b><![endif]-->".toList := by
  refine ⟨[[.tag "body".toList], [.tag "PRE id=\"a\"".toList], [.text "x\n  y  ".toList], [.tag "/pre".toList], [.comment " c ".toList],
    [.tag "!--[if  IE]".toList, .text "a ".toList, .tag "b".toList, .tag "![endif]--".toList]].flatten, page_of _ (by decide +kernel), ?_,
    by simp, kept_of (by decide +kernel), ⟨'/', _, rfl, by simp⟩, ⟨'!', _, rfl, by simp⟩, by decide +kernel⟩
  exact ⟨"pre".toList, "PRE".toList, " id=\"a\"".toList, .inl rfl, by decide +kernel, by decide +kernel⟩

/-! ## C66: attributes -/

def C66_full : Prop := ∀ (T : Tables), T.Ok → ∀ t o, '>' ∉ t → tidyTag T (t ++ ['>']) = some o → readTag o = readTag (t ++ ['>'])

/-- `<img width="100"/>` becomes `<img width=100/>`, where the slash belongs to the value. -/
theorem C66_full_false : ¬ C66_full := by
  intro h
  have h := h ascii ascii_ok "<img width=\"100\"/".toList "<img width=100/>".toList (by decide +kernel) (by decide +kernel)
  have e : readTag "<img width=100/>".toList = some ("img".toList, [("width".toList, "100/".toList)], false) := by decide +kernel
  rw [e] at h
  exact absurd h (by decide +kernel)

/-- Other ways to go wrong: quotes in quotes, blanks in quotes. -/
example : readTag ((tidyTag ascii "<a title='width=\"1\"'>".toList).getD []) = some ("a".toList, [("title".toList, "width=1".toList)], false) ∧
    readTag ((tidyTag ascii "<a title=\"a  b\">".toList).getD []) = some ("a".toList, [("title".toList, "a b".toList)], false) :=
  ⟨by decide +kernel, by decide +kernel⟩

/-- For a tag in which every `"` opens or closes a value and is followed by white space, the end of the tag or (unless the attribute
is a width or height) a slash, and in which white space inside of quotes is single: a browser reads the same name, the same attributes in the same order and the same end. -/
theorem C66_partial {T : Tables} (t o : List Char) (ht : '>' ∉ t) (h : Tame Reader.init (t ++ ['>']))
    (ho : tidyTag T (t ++ ['>']) = some o) : readTag o = readTag (t ++ ['>']) := tidyTag_tame ht h ho

example : Tame Reader.init ("<img  width=\"100\"   alt=\"a b\" title='x' hidden ".toList ++ ['>']) ∧
    tidyTag ascii ("<img  width=\"100\"   alt=\"a b\" title='x' hidden ".toList ++ ['>']) =
      some "<img width=100 alt=\"a b\" title='x' hidden >".toList ∧
    readTag ("<img  width=\"100\"   alt=\"a b\" title='x' hidden ".toList ++ ['>']) = some ("img".toList,
      [("width".toList, "100".toList), ("alt".toList, "a b".toList), ("title".toList, "x".toList), ("hidden".toList, [])], false) :=
  ⟨tame_of (by decide +kernel), by decide +kernel, by decide +kernel⟩

example : Tame Reader.init ("<input  id=\"reverse\"/".toList ++ ['>']) ∧
    tidyTag ascii ("<input  id=\"reverse\"/".toList ++ ['>']) = some "<input id=\"reverse\"/>".toList ∧
    readTag ("<input  id=\"reverse\"/".toList ++ ['>']) = some ("input".toList, [("id".toList, "reverse".toList)], true) :=
  ⟨tame_of (by decide +kernel), by decide +kernel, by decide +kernel⟩

/-! ## C68: the text between tags -/

def C68_full : Prop := ∀ (T : Tables), T.Ok → ∀ (P : List Seg) (o : List Char), (∀ x ∈ P, x.Ok) →
  minify T (render P) = some o → trim (collapse false (bare false o)) = trim (collapse false (outside P))

/-- A comment between two letters becomes a blank. -/
theorem C68_full_false : ¬ C68_full := by
  intro h
  have h := h ascii ascii_ok [.text "a".toList, .comment "c".toList, .text "b".toList] "a b".toList (by
      intro x hx
      simp only [List.mem_cons, List.not_mem_nil, or_false] at hx
      rcases hx with rfl | rfl | rfl
      · exact tagless_of (by decide +kernel)
      · intro u v e
        have e0 : "c".toList ++ "-->".toList = ['c', '-', '-', '>'] := by decide +kernel
        have e1 : "-->".toList = ['-', '-', '>'] := by decide +kernel
        rw [e0, e1] at e
        match u, e with
        | [], e => simp at e
        | [_], e => simp at e; exact e.2
        | _ :: _ :: u, e =>
          have := congrArg List.length e
          simp at this
          omega
      · exact tagless_of (by decide +kernel)) (by decide +kernel)
  exact absurd h (by decide +kernel)

/-- For every page: the result has the same tags as the source without the listed tags and the comments that are not conditional
ones, one by one: a start tag whose quotes are where they should be is read as before, another tag is the same but for gaps that are
one blank instead. So is the text between them. -/
theorem C68_partial {T : Tables} (hT : T.Ok) (P : List Seg) (hP : Page P) :
    ∃ P' Q, minify T (render P) = some (trim (render Q)) ∧ (∀ x ∈ Q, Seg.Plain x) ∧ Rewritten (· = ·) P P' ∧
      Alike (fun t t' => (Kept t → Tight Reader.init ('<' :: t ++ ['>']) → ReadsAs t t') ∧
        (NotStart t → Soft t t')) P' Q :=
  minify_page hT hP

example : ∃ P : List Seg, Page P ∧ (∀ t, Seg.tag t ∈ P → Kept t ∧ Tight Reader.init ('<' :: t ++ ['>'])) ∧
    minify ascii (render P) = some "<p class=\"a b\" hidden >x < y</p><!-- [if IE] > a <= b <![endif]-->".toList := by
  refine ⟨[[.tag "body".toList], [.text "\n  ".toList], [.tag "p  class=\"a b\"\n hidden ".toList], [.text "x\n <  y".toList],
    [.tag "/p".toList], [.tag "!-- [if\n IE] ".toList, .text "\na <=  b ".toList, .tag "![endif]--".toList]].flatten,
    page_of _ (by decide +kernel), ?_, by decide +kernel⟩
  intro t ht
  simp only [List.flatten_cons, List.flatten_nil, List.cons_append, List.nil_append, List.append_nil, List.mem_cons, List.not_mem_nil,
    or_false, Seg.tag.injEq, reduceCtorEq, false_or] at ht
  rcases ht with rfl | rfl | rfl | rfl | rfl <;> exact ⟨kept_of (by decide +kernel), tight_of (by decide +kernel)⟩

/-! ## C77: scripts and style sheets inside of a page -/

/-- The same element, and a script or a style sheet says the same to the syntax. -/
def SaysSame (a b : List Char × List Char) : Prop :=
  b.1 = a.1 ∧
  (a.1 = "script".toList → Spec.Ecma.lines Spec.Ecma.usualRule Spec.Ecma.usual b.2 = Spec.Ecma.lines Spec.Ecma.usualRule Spec.Ecma.usual a.2) ∧
  (a.1 = "style".toList → sheetToks b.2 = sheetToks a.2)

def C77_full : Prop := ∀ (T : Tables), T.Ok → ∀ (P Q : List Seg), Page P → (∀ t, Seg.tag t ∈ P → Sound t) → (∀ x ∈ Q, Seg.Plain x) →
  minify T (render P) = some (render Q) → Matched SaysSame (elements none P) (elements none Q)

private def soundB (t : List Char) : Bool :=
  (match t with
   | c :: _ => (c == '/' || c == '!' || c == '?') && t.all fun c => !isWhitespace c || blank c
   | [] => false) ||
  (tameB Reader.init ('<' :: t ++ ['>']) && safeB Reader.init ('<' :: t ++ ['>']) && tightB Reader.init ('<' :: t ++ ['>']) &&
    (readTag ('<' :: t ++ ['>'])).isSome)

private theorem sound_of {t : List Char} (h : soundB t = true) : Sound t := by
  unfold soundB at h
  rw [Bool.or_eq_true] at h
  rcases h with h | h
  · cases t with
    | nil => cases h
    | cons c u =>
      simp only [Bool.and_eq_true, Bool.or_eq_true, beq_iff_eq, List.all_eq_true, Bool.not_eq_true'] at h
      refine .inl ⟨⟨c, u, rfl, ?_⟩, fun d hd hw => ?_⟩
      · rcases h.1 with (h | h) | h
        · exact .inl h
        · exact .inr (.inl h)
        · exact .inr (.inr h)
      · rcases h.2 d hd with h | h
        · rw [hw] at h; cases h
        · exact h
  · simp only [Bool.and_eq_true] at h
    exact .inr ⟨kept_of (by rw [Bool.and_eq_true]; exact h.1.1), tight_of h.1.2, h.2⟩

private theorem sound_tags {P : List Seg} (h : (tags P).all soundB = true) : ∀ t, Seg.tag t ∈ P → Sound t := by
  intro t ht
  rw [List.all_eq_true] at h
  exact sound_of (h t (List.mem_filterMap.mpr ⟨_, ht, rfl⟩))

/-- A comment up to the end of the line swallows what follows. -/
theorem C77_full_false : ¬ C77_full := by
  intro h
  have h := h ascii ascii_ok [.tag "script".toList, .text "// x\nf()".toList, .tag "/script".toList]
    [.tag "script".toList, .text "// x f()".toList, .tag "/script".toList]
    (page_of [[.tag "script".toList], [.text "// x\nf()".toList], [.tag "/script".toList]] (by decide +kernel))
    (sound_tags (by decide +kernel)) (by
      intro x hx
      simp only [List.mem_cons, List.not_mem_nil, or_false] at hx
      rcases hx with rfl | rfl | rfl
      · exact ⟨by decide +kernel, by decide +kernel, sharp_of (by decide +kernel)⟩
      · exact tagless_of (by decide +kernel)
      · exact ⟨by decide +kernel, by decide +kernel, sharp_of (by decide +kernel)⟩) (by decide +kernel)
  have e1 : elements none [.tag "script".toList, .text "// x\nf()".toList, .tag "/script".toList] =
    [("script".toList, "// x\nf()".toList)] := by decide +kernel
  have e2 : elements none [.tag "script".toList, .text "// x f()".toList, .tag "/script".toList] =
    [("script".toList, "// x f()".toList)] := by decide +kernel
  rw [e1, e2] at h
  cases h with
  | cons h _ => exact absurd (h.2.1 rfl) (by decide +kernel)

/-- For every page whose tags are sound: the result is a page, and however it is read, its scripts, style sheets and other elements
without tags inside are those of the source, one by one. A script in which no `<` begins a tag says the same if it has no comments up to the end of a line, no
line break that matters, no broken tokens and only single blanks inside of tokens. A style sheet in which no `<` begins a tag says the same if it has no
errors and no escaped line breaks, and only single blanks inside of tokens. -/
theorem C77_partial {T : Tables} (hT : T.Ok) {P : List Seg} (hP : Page P) (ht : ∀ t, Seg.tag t ∈ P → Sound t) :
    (∃ Q, (∀ x ∈ Q, Seg.Plain x) ∧ minify T (render P) = some (render Q)) ∧
    ∀ Q, (∀ x ∈ Q, Seg.Plain x) → minify T (render P) = some (render Q) →
      Matched (fun a b => b.1 = a.1 ∧ (Tagless a.2 → Soft a.2 b.2 ∧
        (∀ rule goal, easyScript goal a.2 = true → (∀ c ∈ a.2, isWhitespace c = true → (Spec.Ecma.white c || Spec.Ecma.lineEnd c) = true) →
          (∀ p ∈ Spec.Ecma.lines rule goal a.2, p.1 = false) → Spec.Ecma.lines rule goal b.2 = Spec.Ecma.lines rule goal a.2) ∧
        (easySheet a.2 = true → sheetToks b.2 = sheetToks a.2))) (elements none P) (elements none Q) := by
  obtain ⟨h1, h2⟩ := minify_elements hT hP ht
  refine ⟨h1, fun Q hQ e => ?_⟩
  refine matched_imp (h2 Q hQ e) ?_
  rintro a b ⟨k1, k2⟩
  exact ⟨k1, fun hl => ⟨k2 hl, fun rule goal g1 g2 g3 => Spec.Ecma.soft_lines rule goal g1 g2 g3 (k2 hl),
    fun g => Spec.CssSyntax.soft_sheet g (k2 hl)⟩⟩

/-- If all scripts and style sheets of the page are of this kind, they all say the same. -/
theorem C77_all_partial {T : Tables} (hT : T.Ok) {P Q : List Seg} (hP : Page P) (ht : ∀ t, Seg.tag t ∈ P → Sound t)
    (hQ : ∀ x ∈ Q, Seg.Plain x) (e : minify T (render P) = some (render Q))
    (hs : ∀ s, ("script".toList, s) ∈ elements none P → Tagless s ∧ easyScript Spec.Ecma.usual s = true ∧
      (∀ c ∈ s, isWhitespace c = true → (Spec.Ecma.white c || Spec.Ecma.lineEnd c) = true) ∧ ∀ p ∈ Spec.Ecma.lines Spec.Ecma.usualRule Spec.Ecma.usual s, p.1 = false)
    (hc : ∀ s, ("style".toList, s) ∈ elements none P → Tagless s ∧ easySheet s = true) :
    Matched SaysSame (elements none P) (elements none Q) := by
  refine matched_mem ((C77_partial hT hP ht).2 Q hQ e) ?_
  rintro ⟨n, s⟩ b hm ⟨k1, k2⟩
  refine ⟨k1, fun (hn : n = _) => ?_, fun (hn : n = _) => ?_⟩
  · obtain ⟨g1, g2, g3, g4⟩ := hs s (hn ▸ hm)
    exact (k2 g1).2.1 _ _ g2 g3 g4
  · obtain ⟨g1, g2⟩ := hc s (hn ▸ hm)
    exact (k2 g1).2.2 g2

example : let P := [Seg.tag "head".toList, .tag "script\n type=\"text/javascript\"".toList, .text "\n  var a = 'x y';\n  f( /* b\n c */ a <  1 );\n".toList,
      .tag "/script\n".toList, .comment " p ".toList, .tag "style".toList, .text "\np > a,\n  b { c: url( d.png ) \"e f\";\n}".toList, .tag "/style".toList,
      .tag "/head".toList]
    let Q := [Seg.tag "script".toList, .text " var a = 'x y'; f( /* b c */ a < 1 ); ".toList, .tag "/script ".toList, .text " ".toList,
      .tag "style".toList, .text " p > a, b { c: url( d.png ) \"e f\"; }".toList, .tag "/style".toList]
    Page P ∧ (∀ t, Seg.tag t ∈ P → Sound t) ∧ minify ascii (render P) = some (render Q) ∧
    (∀ s, ("script".toList, s) ∈ elements none P → Tagless s ∧ easyScript Spec.Ecma.usual s = true ∧
      (∀ c ∈ s, isWhitespace c = true → (Spec.Ecma.white c || Spec.Ecma.lineEnd c) = true) ∧ ∀ p ∈ Spec.Ecma.lines Spec.Ecma.usualRule Spec.Ecma.usual s, p.1 = false) ∧
    (∀ s, ("style".toList, s) ∈ elements none P → Tagless s ∧ easySheet s = true) ∧ (elements none P).length = 2 := by
  intro P Q
  have e : elements none P = [("script".toList, "\n  var a = 'x y';\n  f( /* b\n c */ a <  1 );\n".toList),
    ("style".toList, "\np > a,\n  b { c: url( d.png ) \"e f\";\n}".toList)] := by decide +kernel
  refine ⟨page_of (P.map fun x => [x]) (by decide +kernel), sound_tags (by decide +kernel), by decide +kernel, ?_, ?_, by decide +kernel⟩
  · rw [e]
    intro s hs
    simp only [List.mem_cons, List.not_mem_nil, or_false, Prod.mk.injEq] at hs
    rcases hs with ⟨-, rfl⟩ | ⟨h, -⟩
    · exact ⟨tagless_of (by decide +kernel), by decide +kernel, by decide +kernel, by decide +kernel⟩
    · exact absurd h (by decide +kernel)
  · rw [e]
    intro s hs
    simp only [List.mem_cons, List.not_mem_nil, or_false, Prod.mk.injEq] at hs
    rcases hs with ⟨h, -⟩ | ⟨-, rfl⟩
    · exact absurd h (by decide +kernel)
    · exact ⟨tagless_of (by decide +kernel), by decide +kernel⟩

end Verif.Html
