import Verif.Proofs.CssSize
/-!
# Properties of `css::minify` (C12 - C16, C21, C22)
-/
set_option linter.unusedSimpArgs false

namespace Verif.Css
open Spec.Css

/-- An `is_alphabetic` for the examples. -/
def asciiAlpha (c : Char) : Bool := c.isAlpha

theorem asciiAlpha_ok : AlphaOk asciiAlpha := by
  intro c h
  simp only [isBlank, Bool.or_eq_true, beq_iff_eq] at h
  rcases h with ((h | h) | h) | h <;> subst h <;> rfl

private theorem tokenize_ok {alpha : Char → Bool} {s out : List Char} (h : minify alpha s = .ok out) :
    ∃ ts, rawTokens alpha s = .ok ts ∧ out = display (cleanTokens ts) := by
  unfold minify tokenize at h
  cases hr : rawTokens alpha s with
  | ok ts => rw [hr] at h; simp at h; exact ⟨ts, rfl, h.symm⟩
  | err e => rw [hr] at h; simp [Bind.bind, Out.bind] at h
  | panic e => rw [hr] at h; simp [Bind.bind, Out.bind] at h

/-! ## C12: no panic -/

/-- C12: `css::minify` returns `Ok` or `Err` for every string. -/
theorem C12_no_panic (alpha : Char → Bool) (s : List Char) : (minify alpha s).isPanic = false := by
  obtain ⟨h1, h2⟩ := rawTokens_eq alpha s
  unfold minify tokenize
  rw [h1]
  revert h2
  cases aloop alpha (s.length + 1) {} s <;> intro h2 <;> first | rfl | cases h2

/-- Not vacuous: both outcomes occur, also around multi-byte characters. -/
example : minify asciiAlpha "é\\é /* ü */ {a:\"ö\\\"\"}".toList = .ok "é\\é {a:\"ö\\\"\"}".toList ∧
    minify asciiAlpha "a{b:'é".toList = .err "Unclosed string" := by decide +kernel

/-! ## C13: when it fails -/

/-- C13: `css::minify` fails exactly when the style sheet has a problem, with the message of the first one. -/
theorem C13_errors (alpha : Char → Bool) (hA : AlphaOk alpha) (s : List Char) :
    match problem 0 false (items s) with
    | some e => minify alpha s = .err e
    | none => ∃ out, minify alpha s = .ok out := by
  have h := irun_problem (alpha := alpha) (items s) (st := {}) (d := 0) rfl
  have hr := rawTokens_items hA s
  unfold minify tokenize
  revert h
  cases problem 0 false (items s) with
  | some e =>
    intro h
    have h : irun alpha {} (items s) = .err e := h
    rw [hr, h]; rfl
  | none =>
    rintro ⟨v, h⟩
    rw [hr, h]; exact ⟨_, rfl⟩

/-- C13, as an equivalence. -/
theorem C13_err_iff (alpha : Char → Bool) (hA : AlphaOk alpha) (s : List Char) (e : String) :
    minify alpha s = .err e ↔ problem 0 false (items s) = some e := by
  have h := C13_errors alpha hA s
  revert h
  cases problem 0 false (items s) with
  | some e' =>
    intro h
    have h : minify alpha s = .err e' := h
    rw [h]; simp
  | none => rintro ⟨out, h⟩; rw [h]; simp

/-- Not vacuous: each of the five problems is reported, and brackets in strings, comments and escapes do not count. -/
example : minify asciiAlpha "a}".toList = .err "Too much '}'" ∧ minify asciiAlpha "a[b[".toList = .err "Already in attribute selector" ∧
    minify asciiAlpha "a]".toList = .err "Unexpected ']'" ∧ minify asciiAlpha "/* a".toList = .err "Unclosed comment" ∧
    minify asciiAlpha "'a".toList = .err "Unclosed string" ∧
    minify asciiAlpha "'}'/*}*/\\}".toList = .ok "'}'\\}".toList := by decide +kernel

/-! ## C14: the content stays -/

/-- C14 as one would like it: false, see `C14_full_false`. -/
def C14_full : Prop := ∀ alpha s out, AlphaOk alpha → minify alpha s = .ok out →
  Keeps (segs (items s)).acc (segs (items out)).acc

/-- `/ *=` becomes `/*=`, the beginning of a comment. -/
theorem C14_full_false : ¬ C14_full := by
  intro h
  have := h asciiAlpha "/ *=".toList "/*=".toList asciiAlpha_ok (by decide +kernel)
  have e1 : (segs (items "/ *=".toList)).acc = [(false, .chr '='), (true, .chr '*'), (false, .chr '/')] := by decide +kernel
  have e2 : (segs (items "/*=".toList)).acc = [(false, .openComment)] := by decide +kernel
  rw [e1, e2] at this
  exact absurd this.1 (by simp)

/-- C14, without `/ *=`: the output has the same words, punctuation, literals, escapes and licences in the same order; a
blank in the output is a blank (or comment) of the input or follows a licence or an at-word, and whatever separates two words,
literals, groups is still there. Missing: `/ *=`. -/
theorem C14_content_partial (alpha : Char → Bool) (hA : AlphaOk alpha) (s out : List Char) (h : minify alpha s = .ok out)
    (hs : slashStarEq (segs (items s)).acc = false) : Keeps (segs (items s)).acc (segs (items out)).acc := by
  obtain ⟨ts, hr, rfl⟩ := tokenize_ok h
  exact (minify_spec hA hr hs).2.2

private theorem segs_solids (is : List Item) (S : Segs) :
    (is.foldl push S).acc.map Prod.snd = (solids is).reverse ++ S.acc.map Prod.snd := by
  induction is generalizing S with
  | nil => rfl
  | cons i is ih =>
    rw [List.foldl_cons, ih]
    cases i <;> simp [push, solids, List.filter_cons]

private theorem keeps_solids : ∀ {xs ys : List (Bool × Item)}, Keeps xs ys → xs.map Prod.snd = ys.map Prod.snd
  | [], [], _ => rfl
  | [], _ :: _, h => h.elim
  | (_, _) :: _, [], h => h.elim
  | (g, x) :: xs, (g', x') :: ys, h => by
    simp only [List.map_cons]; rw [h.1, keeps_solids h.2.2.2]

/-- C14, the order of the content. Missing: `/ *=`. -/
theorem C14_solids_partial (alpha : Char → Bool) (hA : AlphaOk alpha) (s out : List Char) (h : minify alpha s = .ok out)
    (hs : slashStarEq (segs (items s)).acc = false) : solids (items out) = solids (items s) := by
  have := keeps_solids (C14_content_partial alpha hA s out h hs)
  unfold segs at this
  rw [segs_solids, segs_solids] at this
  simpa using this.symm

/-- What C14 should also say, that no blank next to an escape or a pseudo-element is lost, is false. -/
theorem C14_escape_false : minify asciiAlpha "a{b:c \\-d}".toList = .ok "a{b:c\\-d}".toList ∧
    minify asciiAlpha ".a ::before{}".toList = .ok ".a::before{}".toList := by decide +kernel

/-- Not vacuous: the hypotheses hold for a sheet with strings, comments, licences, at-rules, and the gaps are as stated. -/
example : minify asciiAlpha "/*! l */ @media  a , b { .c  .d > e { f : 'g h'  1px /* x */ 2px ; } }".toList =
      .ok "/*! l */\n@media a,b{.c .d>e{f:'g h' 1px 2px;}}".toList ∧
    slashStarEq (segs (items "/*! l */ @media  a , b { .c  .d > e { f : 'g h'  1px /* x */ 2px ; } }".toList)).acc = false := by
  decide +kernel

/-! ## C15, C16: strings, licences, comments -/

/-- C15 as one would like it: false, see `C15_full_false`. -/
def C15_full : Prop := ∀ alpha s out, AlphaOk alpha → minify alpha s = .ok out → strings (items out) = strings (items s)

theorem C15_full_false : ¬ C15_full := by
  intro h
  have := h asciiAlpha "/ *='a'".toList "/*='a'".toList asciiAlpha_ok (by decide +kernel)
  revert this; decide +kernel

private theorem strings_solids (is : List Item) : strings is = strings (solids is) := by
  induction is with
  | nil => rfl
  | cons i is ih => cases i <;> simp_all [strings, solids, List.filter_cons]

private theorem licenses_solids (is : List Item) : licenses is = licenses (solids is) := by
  induction is with
  | nil => rfl
  | cons i is ih => cases i <;> simp_all [licenses, solids, List.filter_cons]

/-- C15: the string literals survive verbatim and in order. Missing: `/ *=`. -/
theorem C15_strings_partial (alpha : Char → Bool) (hA : AlphaOk alpha) (s out : List Char) (h : minify alpha s = .ok out)
    (hs : slashStarEq (segs (items s)).acc = false) : strings (items out) = strings (items s) := by
  rw [strings_solids, C14_solids_partial alpha hA s out h hs, ← strings_solids]

/-- Not vacuous. -/
example : strings (items "a{b:'c \\' d'  \"/* e */\"}".toList) = ["'c \\' d'".toList, "\"/* e */\"".toList] ∧
    minify asciiAlpha "a{b:'c \\' d'  \"/* e */\"}".toList = .ok "a{b:'c \\' d' \"/* e */\"}".toList := by decide +kernel

/-- C16, licences: same texts, same order. Missing: `/ *=`. -/
theorem C16_licenses_partial (alpha : Char → Bool) (hA : AlphaOk alpha) (s out : List Char) (h : minify alpha s = .ok out)
    (hs : slashStarEq (segs (items s)).acc = false) : licenses (items out) = licenses (items s) := by
  rw [licenses_solids, C14_solids_partial alpha hA s out h hs, ← licenses_solids]

private theorem titems_no_comment {p : Option Token} {ts : List Token} (h : FOk p ts) :
    ∀ b, Item.comment b ∉ titems true p ts := by
  induction ts generalizing p with
  | nil => intro b hb; cases hb
  | cons t ts ih =>
    obtain ⟨hok, hc, hts⟩ := h
    intro b hb
    rw [titems, List.mem_append] at hb
    rcases hb with hb | hb
    · cases t with
      | comment b => cases hc
      | license b => simp [tokItems] at hb
      | char c => simp only [tokItems, List.mem_singleton] at hb; split at hb <;> cases hb
      | other w =>
        simp only [tokItems, List.mem_map] at hb
        obtain ⟨c, _, hc⟩ := hb
        split at hc <;> cases hc
      | sel s =>
        simp only [tokItems, List.mem_append, List.mem_map] at hb
        rcases hb with ⟨c, _, hc⟩ | hb
        · cases hc
        · split at hb
          · simp at hb
          · cases hb
      | str b => simp [tokItems] at hb
      | selOp o => cases o <;> simp [tokItems, SelOp.display] at hb
      | operator o => exact hok
    · exact ih hts b hb

/-- C16, comments: the output has no ordinary comment. Missing: `/ *=`. -/
theorem C16_no_comment_partial (alpha : Char → Bool) (hA : AlphaOk alpha) (s out : List Char) (h : minify alpha s = .ok out)
    (hs : slashStarEq (segs (items s)).acc = false) : ∀ b, Item.comment b ∉ items out := by
  obtain ⟨ts, hr, rfl⟩ := tokenize_ok h
  obtain ⟨h1, h2, _⟩ := minify_spec hA hr hs
  rw [h1]
  exact titems_no_comment h2

/-- C16 as one would like it: false, see `C16_full_false`. -/
def C16_full : Prop := ∀ alpha s out, AlphaOk alpha → minify alpha s = .ok out →
  licenses (items out) = licenses (items s) ∧ ∀ b, Item.comment b ∉ items out

theorem C16_full_false : ¬ C16_full := by
  intro h
  have := (h asciiAlpha "/ *=a;/*! b */".toList "/*=a;/*! b */\n".toList asciiAlpha_ok (by decide +kernel)).1
  revert this; decide +kernel

/-- Not vacuous: both kinds of licence are kept, the comment goes. -/
example : minify asciiAlpha "/*! a */b/* c *//** d */".toList = .ok "/*! a */\nb /*! d */\n".toList ∧
    licenses (items "/*! a */b/* c *//** d */".toList) = [" a ".toList, " d ".toList] := by decide +kernel

/-! ## C21: the size -/

/-- C21: the output is at most as long as the input plus one byte per licence and one per at sign (both outside strings,
comments and escapes). -/
theorem C21_size (alpha : Char → Bool) (hA : AlphaOk alpha) (s out : List Char) (h : minify alpha s = .ok out) :
    blen out ≤ blen s + (licenses (items s)).length + atSigns (items s) := by
  obtain ⟨ts, hr, rfl⟩ := tokenize_ok h
  rw [rawTokens_items hA] at hr
  cases hi : irun alpha {} (items s) with
  | ok v =>
    rw [hi] at hr
    simp only [Out.bind_ok, Out.ok.injEq] at hr
    have h1 := irun_size hi
    have h2 := clean_size false 0 none ts
    have h3 := itemsFrom_size .code s
    have h4 : toksSize ts = toksSize v := by rw [← hr]; simp [toksSize, List.sum_reverse]
    have e1 : toksSize ({} : IS).v = 0 := rfl
    have e2 : wordSize ({} : IS).w = 0 := rfl
    have e3 : pending .code = 0 := rfl
    unfold cleanTokens items at *
    omega
  | err e => rw [hi] at hr; simp [Bind.bind, Out.bind] at hr
  | panic e => rw [hi] at hr; simp [Bind.bind, Out.bind] at hr

/-- C21: without licences and at-rules the output is never longer. -/
theorem C21_no_growth (alpha : Char → Bool) (hA : AlphaOk alpha) (s out : List Char) (h : minify alpha s = .ok out)
    (hl : licenses (items s) = []) (ha : atSigns (items s) = 0) : blen out ≤ blen s := by
  have := C21_size alpha hA s out h
  rw [hl, ha] at this
  simpa using this

/-- The bound is reached: `/**a*/@b{` grows by two bytes. -/
example : minify asciiAlpha "/**a*/@b{".toList = .ok "/*!a*/\n@b {".toList ∧
    blen "/*!a*/\n@b {".toList = blen "/**a*/@b{".toList + 2 ∧ (licenses (items "/**a*/@b{".toList)).length = 1 ∧
    atSigns (items "/**a*/@b{".toList) = 1 := by decide +kernel

/-! ## C22: writers -/

/-- C22: on success the writer has received exactly `to_string()`. -/
theorem C22_write_ok {σ : Type} (alpha : Char → Bool) (k : Sink σ) (hk : k.Lawful) (st : σ) (s : List Char) (ts : List Token)
    (ht : tokenize alpha s = .ok ts) (h : (writeChunks k st (chunks ts)).2 = true) :
    ∃ out, minify alpha s = .ok out ∧ k.contents (writeChunks k st (chunks ts)).1 = k.contents st ++ utf8 out := by
  refine ⟨display ts, by simp [minify, ht], ?_⟩
  rw [writeChunks_ok hk st _ h]
  simp [chunks, display, List.flatMap_def]

/-- C22: when the writer fails, at whatever point, it has received a prefix of `to_string()`. -/
theorem C22_write_fail {σ : Type} (alpha : Char → Bool) (k : Sink σ) (hk : k.Lawful) (st : σ) (s : List Char) (ts : List Token)
    (ht : tokenize alpha s = .ok ts) (h : (writeChunks k st (chunks ts)).2 = false) :
    ∃ out p, minify alpha s = .ok out ∧ p <+: utf8 out ∧
      k.contents (writeChunks k st (chunks ts)).1 = k.contents st ++ p := by
  obtain ⟨p, hp, he⟩ := writeChunks_fail hk st _ h
  refine ⟨display ts, p, by simp [minify, ht], ?_, he⟩
  simpa [chunks, display, List.flatMap_def] using hp

/-- C22: a writer that never fails makes `write` succeed. -/
theorem C22_write_total {σ : Type} (k : Sink σ) (ht : ∀ s b, (k.writeAll s b).2 = true) (st : σ) (ts : List Token) :
    (writeChunks k st (chunks ts)).2 = true :=
  writeChunks_of_total ht st _

/-- Not vacuous: a sink with room for four bytes fails within the second rule; with room for ten it succeeds. -/
example : (match tokenize asciiAlpha "a { b : c }".toList with
    | .ok ts => ((writeChunks roomSink ([], 4) (chunks ts)).2, (writeChunks roomSink ([], 4) (chunks ts)).1.1,
        (writeChunks roomSink ([], 10) (chunks ts)).2)
    | _ => (true, [], false)) = (false, utf8 "a{b:".toList, true) := by decide +kernel

end Verif.Css
