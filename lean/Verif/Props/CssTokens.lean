import Verif.Proofs.CssTokens
import Verif.Props.CssBlanks
/-!
# The tokens of a style sheet (C69)
-/
set_option linter.unusedSimpArgs false

namespace Verif.Css
open Spec.Css Spec.CssSyntax

/-- C69 as stated, and as `fuzz/fuzz_targets/cssparser.rs` checks it: a style sheet without parse errors keeps its tokens. -/
def C69_full : Prop :=
  ∀ (alpha : Char → Bool) (s out : List Char), AlphaOk alpha → wellFormed s → minify alpha s = .ok out → Spec.CssSyntax.toks out = Spec.CssSyntax.toks s

/-- C69 is false: the sum of `c` and `1` becomes `c` and the number `+1`. -/
theorem C69_full_false : ¬ C69_full := by
  intro h
  have := h asciiAlpha "a{b:c + 1}".toList "a{b:c+1}".toList asciiAlpha_ok (by unfold wellFormed; decide +kernel) (by decide +kernel)
  exact absurd this (by decide +kernel)

/-- More sheets without parse errors whose tokens change: a word that starts with `@` inside an address gets a blank, a descendant is
glued to its ancestor before an escape, an escape loses the blank that ends it, what looks like a comment in an address becomes a blank,
`--` and `>` become the end of a HTML comment, a name and a parenthesis become a function, a name and a signed number become one number. -/
theorem C69_full_false_more :
    ∀ p ∈ [("@font-face{src:url(/@fonts/y)}", "@font-face {src:url(/@fonts /y)}"), (".a \\:b{c:d}", ".a\\:b{c:d}"),
        ("a{b:\\26  B}", "a{b:\\26 B}"), ("a{b:url(x/*y*/z)}", "a{b:url(x z)}"), ("-- > a{}", "-->a{}"), ("a:not (b){c:d}", "a:not(b){c:d}"),
        ("a{b:1e +5}", "a{b:1e+5}")],
      minify asciiAlpha p.1.toList = .ok p.2.toList ∧ (Spec.CssSyntax.toks p.1.toList).all (fun t => t != Tok.badString && t != Tok.badUrl) = true ∧
        Spec.CssSyntax.toks p.2.toList ≠ Spec.CssSyntax.toks p.1.toList := by decide +kernel

private theorem no_open (is : List Item) : ∀ (d : Nat) (b : Bool), problem d b is = none → .openStr ∉ is ∧ .openComment ∉ is := by
  induction is with
  | nil => intro d b _; simp
  | cons i is ih =>
    intro d b h
    have key : i ≠ .openStr → i ≠ .openComment → (∃ d b, problem d b is = none) → .openStr ∉ i :: is ∧ .openComment ∉ i :: is := by
      rintro h1 h2 ⟨d, b, h⟩
      have := ih d b h
      refine ⟨?_, ?_⟩ <;> simp only [List.mem_cons, not_or]
      · exact ⟨fun h => h1 h.symm, this.1⟩
      · exact ⟨fun h => h2 h.symm, this.2⟩
    rw [problem.eq_def] at h
    split at h
    · rename_i e; cases e
    · cases h
    · cases h
    · rename_i e; cases e; exact key (by simp) (by simp) ⟨_, _, h⟩
    · rename_i e
      cases e
      split at h
      · cases h
      · exact key (by simp) (by simp) ⟨_, _, h⟩
    · rename_i e
      cases e
      split at h
      · cases h
      · exact key (by simp) (by simp) ⟨_, _, h⟩
    · rename_i e
      cases e
      split at h
      · exact key (by simp) (by simp) ⟨_, _, h⟩
      · cases h
    · rename_i h1 h2 _ _ _ _ e
      cases e
      exact key (fun e => h1 e) (fun e => h2 e) ⟨_, _, h⟩

/-- C69, the part that holds: the output has the same CSS tokens as the source, in the same order, if

* no gap that is removed keeps two tokens apart, and no blank is put into a word that only looks like the name of an at-rule (`risky`),
* escapes outside of strings are not hexadecimal, and strings have no line breaks in them (`tame`),
* there are no parse errors, and no address without quotes looks like other code (`plainTok`). -/
theorem C69_tokens_partial (alpha : Char → Bool) (hA : AlphaOk alpha) (s out : List Char) (h : minify alpha s = .ok out)
    (ht : tame (items s) = true) (hp : ∀ t ∈ Spec.CssSyntax.toks s, plainTok t = true) (hr : risky alpha [] (marks (items s)).acc = false) :
    Spec.CssSyntax.toks out = Spec.CssSyntax.toks s := by
  obtain ⟨ks, k, h1, _, h3⟩ := C19_output alpha hA s out h
  have hc := C13_errors alpha hA s
  have hn : problem 0 false (items s) = none := by
    cases e : problem 0 false (items s) with
    | none => rfl
    | some e' => rw [e] at hc; simp only at hc; rw [h] at hc; cases hc
  have ho := no_open _ _ _ hn
  rw [h3]
  exact text_toks ho.1 ho.2 ht hp h1 hr

/-- Not vacuous: selectors with an escape, combinators, signed numbers and dimensions, a licence, an at-rule and `calc`. -/
example :
    let s := ".sm\\:flex > p + .b { color : #fff ; margin : -1px +.5em 1e3px 50% ; } /*! lic */ @media screen and (min-width : 10px) { a { b : calc( 1px + 2px ) url( x.png ) } }".toList
    minify asciiAlpha s = .ok
        ".sm\\:flex>p+.b{color:#fff;margin:-1px+.5em 1e3px 50%;}/*! lic */\n@media screen and (min-width:10px){a{b:calc(1px + 2px ) url(x.png)}}".toList ∧
      tame (items s) = true ∧ (Spec.CssSyntax.toks s).all plainTok = true ∧ risky asciiAlpha [] (marks (items s)).acc = false := by decide +kernel

private theorem keep_words {alpha : Char → Bool} {xs r : List Mark} {c p : Char} (hl : lastChr xs = some p) (hp : isPunct p = false)
    (hc : isPunct c = false) (hm : mediaWord xs = false) : keepRule alpha xs (.chr c) r = true := by
  cases xs with
  | nil => cases hl
  | cons m xs =>
    obtain ⟨g, y⟩ := m
    have hy : (∃ d, y = .lit d) ∨ y = .chr p := by
      cases y with
      | chr d => exact .inr (by simpa [lastChr] using hl)
      | lit d => exact .inl ⟨d, rfl⟩
      | _ => cases hl
    have ho : opens (.chr c) = true := by simp [opens, hc]
    have hcl : closes y = true := by
      rcases hy with ⟨d, rfl⟩ | rfl
      · rfl
      · simp [closes, hp]
    have hL : isLicense y = false := by
      rcases hy with ⟨d, rfl⟩ | rfl <;> rfl
    have hne : ∀ d, isPunct d = true → (y == Item.chr d) = false := by
      intro d hd
      rcases hy with ⟨e, rfl⟩ | rfl
      · rfl
      · simp only [beq_eq_false_iff_ne, ne_eq, Item.chr.injEq]
        rintro rfl
        rw [hp] at hd; cases hd
    have h1 := hne ']' (by decide +kernel)
    have h2 := hne '*' (by decide +kernel)
    have h3 := hne '/' (by decide +kernel)
    have h4 := hne '+' (by decide +kernel)
    simp [keepRule, recorded, ending, lastIs, lastLicense, hcl, hL, h1, h2, h3, h4, hm, ho]

private theorem no_media {xs : List Mark} (h : ∀ m ∈ xs, m.2 ≠ .chr '@') : mediaWord xs = false := by
  have key : ∀ xs : List Mark, (∀ m ∈ xs, m.2 ≠ .chr '@') → (lastWord xs).1.head? ≠ some '@' := by
    intro xs
    induction xs with
    | nil => intro _; simp [lastWord]
    | cons m xs ih =>
      intro h
      obtain ⟨g, x⟩ := m
      cases hw : isWordChr x with
      | false => rw [lastWord_none hw]; simp
      | true =>
        cases x with
        | chr c =>
          have hc : isPunct c = false := by simpa [isWordChr] using hw
          by_cases hcont : g = .none ∧ wordEnd xs = true
          · rw [Spec.CssSyntax.lastWord_cont hc hcont]
            have h1 := ih (fun m hm => h m (by simp [hm]))
            have h2 := lastWord_ne hcont.2
            cases hl : (lastWord xs).1 with
            | nil => exact absurd hl h2
            | cons a w => rw [hl] at h1; simpa using h1
          · rw [Spec.CssSyntax.lastWord_new hc hcont]
            have := h (g, .chr c) (by simp)
            simpa using this
        | _ => cases hw
  have := key xs h
  unfold mediaWord
  split
  · rename_i e; rw [e] at this; simp at this
  · rfl

private theorem ahead_some (x : Item) (r : List Mark) : ahead x r = [] ∨ ∃ c t, x = .chr c ∧ ahead x r = c :: t := by
  cases x with
  | chr c => obtain ⟨t, ht⟩ := ahead_chr c r; exact .inr ⟨c, t, rfl, ht⟩
  | _ => exact .inl rfl

private theorem calm {alpha : Char → Bool} (xs : List Mark) : ∀ r : List Mark,
    (∀ m ∈ xs, m.2 ≠ .chr '@' ∧ m.2 ≠ .chr '+') →
    (∀ m ∈ xs, m.1 ≠ .none → m.2 ≠ .chr '(' ∧ m.2 ≠ .chr '\\' ∧ m.2 ≠ .chr '>' ∧ m.2 ≠ .chr '*') → risky alpha r xs = false := by
  induction xs with
  | nil => intro r _ _; rfl
  | cons m xs ih =>
    intro r h1 h2
    obtain ⟨g, x⟩ := m
    have hm : mediaWord xs = false := no_media (fun m hm => (h1 m (by simp [hm])).1)
    simp only [risky, hm, Bool.and_false, Bool.false_and, Bool.or_false,
      ih ((g, x) :: r) (fun m hm => h1 m (by simp [hm])) (fun m hm => h2 m (by simp [hm]))]
    by_cases hg : g = .none
    · simp [hg]
    · have hx := h2 (g, x) (by simp) hg
      have hx1 := h1 (g, x) (by simp)
      simp only at hx hx1
      cases hk : keepRule alpha xs x r with
      | true => simp
      | false =>
        have hgl : glues (lastChr xs) (ahead x r) = false := by
          rcases ahead_some x r with e | ⟨c, t, rfl, e⟩
          · rw [e, glues_nil]
          · rw [e]
            cases hl : lastChr xs with
            | none => rfl
            | some p =>
              have hp : p ≠ '+' := by
                rintro rfl
                cases xs with
                | nil => cases hl
                | cons m xs =>
                  obtain ⟨g', y⟩ := m
                  have hy := (h1 (g', y) (by simp)).2
                  cases y with
                  | chr d => simp only [lastChr, Option.some.injEq] at hl; subst hl; exact hy rfl
                  | lit d => simp only [lastChr, Option.some.injEq] at hl; exact absurd hl (by decide)
                  | _ => cases hl
              have hw : (!isPunct p && !isPunct c) = false := by
                cases hp : isPunct p with
                | true => simp
                | false =>
                  cases hc : isPunct c with
                  | true => simp
                  | false => rw [keep_words hl hp hc hm] at hk; cases hk
              simp only [ne_eq, Item.chr.injEq] at hx hx1
              have e1 : (c == '(') = false := by simpa using hx.1
              have e2 : (c == '\\') = false := by simpa using hx.2.1
              have e3 : (c == '>') = false := by simpa using hx.2.2.1
              have e4 : (c == '*') = false := by simpa using hx.2.2.2
              have e5 : (c == '+') = false := by simpa using hx1.2
              have e6 : (p == '+') = false := by simpa using hp
              simp [glues, e1, e2, e3, e4, e5, e6]
              simpa using hw
        simp [hgl]

/-- C69 for simple sheets: without `@` and `+`, and without blanks or comments before `(`, `>`, `*` and escapes, the tokens are kept. Any
words, numbers, strings, comments and blanks are allowed. -/
theorem C69_simple_partial (alpha : Char → Bool) (hA : AlphaOk alpha) (s out : List Char) (h : minify alpha s = .ok out)
    (ht : tame (items s) = true) (hp : ∀ t ∈ Spec.CssSyntax.toks s, plainTok t = true)
    (h1 : ∀ m ∈ (marks (items s)).acc, m.2 ≠ .chr '@' ∧ m.2 ≠ .chr '+')
    (h2 : ∀ m ∈ (marks (items s)).acc, m.1 ≠ .none → m.2 ≠ .chr '(' ∧ m.2 ≠ .chr '\\' ∧ m.2 ≠ .chr '>' ∧ m.2 ≠ .chr '*') :
    Spec.CssSyntax.toks out = Spec.CssSyntax.toks s :=
  C69_tokens_partial alpha hA s out h ht hp (calm _ _ h1 h2)

/-- Not vacuous. -/
example :
    let s := "/* x */ a.b  #c , p::first-line {\n color : rgb( 1 , 2 , 3 ) ; font : \"a b\" , 1.5e3px / 20% x\\:y !important }".toList
    minify asciiAlpha s = .ok " a.b #c,p::first-line{color:rgb(1,2,3);font:\"a b\",1.5e3px/20% x\\:y !important}".toList ∧
      tame (items s) = true ∧ (Spec.CssSyntax.toks s).all plainTok = true ∧
      (∀ m ∈ (marks (items s)).acc, m.2 ≠ .chr '@' ∧ m.2 ≠ .chr '+') ∧
      (∀ m ∈ (marks (items s)).acc, m.1 ≠ .none → m.2 ≠ .chr '(' ∧ m.2 ≠ .chr '\\' ∧ m.2 ≠ .chr '>' ∧ m.2 ≠ .chr '*') := by
  decide +kernel

end Verif.Css
