import Verif.Proofs.CssCalm
import Verif.Props.Css
/-!
# Properties of the blanks of `css::minify` (C17 - C20)
-/
set_option linter.unusedSimpArgs false

namespace Verif.Css
open Spec.Css

private theorem tokenize_ok {alpha : Char → Bool} {s out : List Char} (h : minify alpha s = .ok out) :
    ∃ ts, rawTokens alpha s = .ok ts ∧ out = display (cleanTokens ts) := by
  unfold minify tokenize at h
  cases hr : rawTokens alpha s with
  | ok ts => rw [hr] at h; simp at h; exact ⟨ts, rfl, h.symm⟩
  | err e => rw [hr] at h; simp [Bind.bind, Out.bind] at h
  | panic e => rw [hr] at h; simp [Bind.bind, Out.bind] at h

private theorem sites_of_cleaned {alpha : Char → Bool} {P : List Mark → Gap → Item → List Mark → Gap → Prop}
    (hP : ∀ xs g x r k, (g = .none → k = false) → (g = .blank → k = keepRule alpha xs x r) →
      (g = .comment → (keepRule alpha xs x r = true → k = true) ∧
        (quiet alpha xs = true → splitOp xs x = false → k = keepRule alpha xs x r)) → P xs g x r (if k || autoGap xs g x then .blank else .none))
    (acc : List Mark) : ∀ (r : List Mark) (ks : List Bool), Cleaned alpha r acc ks → Sites P r acc (outMarks acc ks) := by
  induction acc with
  | nil => intro r ks h; cases ks <;> first | trivial | exact h.elim
  | cons m acc ih =>
    intro r ks h
    obtain ⟨g, x⟩ := m
    cases ks with
    | nil => exact h.elim
    | cons k ks =>
      obtain ⟨h1, h2, h3, h4⟩ := h
      exact ⟨rfl, hP acc g x r k h1 h2 h3, ih _ _ h4⟩

private theorem minify_sites {alpha : Char → Bool} (hA : AlphaOk alpha) {s out : List Char} (h : minify alpha s = .ok out)
    (hs : slashStarEq (segs (items s)).acc = false) {P : List Mark → Gap → Item → List Mark → Gap → Prop}
    (hP : ∀ xs g x r k, (g = .none → k = false) → (g = .blank → k = keepRule alpha xs x r) →
      (g = .comment → (keepRule alpha xs x r = true → k = true) ∧
        (quiet alpha xs = true → splitOp xs x = false → k = keepRule alpha xs x r)) → P xs g x r (if k || autoGap xs g x then .blank else .none)) :
    Sites P [] (marks (items s)).acc (marks (items out)).acc := by
  obtain ⟨ts, hr, rfl⟩ := tokenize_ok h
  obtain ⟨ks, k, h1, _, _, h4⟩ := minify_marks hA hr
  rw [h4 hs]
  exact sites_of_cleaned hP _ _ _ h1

/-! ## The text of the output -/

/-- C19, C20: the whole output. Without ordinary comments, the output is the items of the source, with one blank in exactly
the gaps that `keepRule` keeps (`tailRule` at the end), a line feed after every licence and one more blank after the name of
an at-rule. -/
theorem C19_output (alpha : Char → Bool) (hA : AlphaOk alpha) (s out : List Char) (h : minify alpha s = .ok out) :
    ∃ ks k, Cleaned alpha [] (marks (items s)).acc ks ∧ CleanedTail alpha (marks (items s)) k ∧
      out = text (marks (items s)).acc ks ++ autoText (marks (items s)).acc false ++ (if k then [' '] else []) := by
  obtain ⟨ts, hr, rfl⟩ := tokenize_ok h
  obtain ⟨ks, k, h1, h2, h3, _⟩ := minify_marks hA hr
  exact ⟨ks, k, h1, h2, h3⟩

private theorem cleaned_unique {alpha : Char → Bool} (acc : List Mark) : ∀ (r : List Mark) (ks ks' : List Bool),
    (∀ m ∈ acc, m.1 ≠ .comment) → Cleaned alpha r acc ks → Cleaned alpha r acc ks' → ks = ks' := by
  induction acc with
  | nil => intro r ks ks' _ h h'; cases ks <;> cases ks' <;> first | rfl | exact h.elim | exact h'.elim
  | cons m acc ih =>
    intro r ks ks' hn h h'
    obtain ⟨g, x⟩ := m
    cases ks with
    | nil => exact h.elim
    | cons k ks =>
      cases ks' with
      | nil => exact h'.elim
      | cons k' ks' =>
        rw [ih _ _ _ (fun m hm => hn m (by simp [hm])) h.2.2.2 h'.2.2.2]
        have hg := hn (g, x) (by simp)
        cases g with
        | none => rw [h.1 rfl, h'.1 rfl]
        | blank => rw [h.2.1 rfl, h'.2.1 rfl]
        | comment => exact absurd rfl hg

/-- C19: two style sheets with the same items, and gaps (of any size) in the same places, have the same output; ordinary comments
excluded. -/
theorem C19_gap_size (alpha : Char → Bool) (hA : AlphaOk alpha) (s s' out out' : List Char) (h : minify alpha s = .ok out)
    (h' : minify alpha s' = .ok out') (hm : marks (items s) = marks (items s'))
    (hn : ∀ m ∈ (marks (items s)).acc, m.1 ≠ .comment) (hg : (marks (items s)).gap ≠ .comment) : out = out' := by
  obtain ⟨ks, k, h1, h2, h3⟩ := C19_output alpha hA s out h
  obtain ⟨ks', k', h1', h2', h3'⟩ := C19_output alpha hA s' out' h'
  rw [← hm] at h1' h2' h3'
  have hks := cleaned_unique _ _ _ _ hn h1 h1'
  have hk : k = k' := by
    cases hg' : (marks (items s)).gap with
    | none => rw [h2.1 hg', h2'.1 hg']
    | blank => rw [h2.2.1 hg', h2'.2.1 hg']
    | comment => exact absurd hg' hg
  rw [h3, h3', hks, hk]

/-- Not vacuous. -/
example : marks (items "a  .b\t{ c :\n\n d }".toList) = marks (items "a .b { c : d }".toList) ∧
    minify asciiAlpha "a  .b\t{ c :\n\n d }".toList = .ok "a .b{c:d}".toList := by decide +kernel

/-! ## C17: the descendant combinator -/

/-- C17 as stated: a blank between two compound selectors is kept. -/
def C17_full : Prop :=
  ∀ (alpha : Char → Bool) (s out : List Char), AlphaOk alpha → minify alpha s = .ok out → slashStarEq (segs (items s)).acc = false →
    Sites (fun xs g x r g' => g ≠ .none → compoundEnd alpha xs = true → compoundStart alpha xs x r = true → g' = .blank)
      [] (marks (items s)).acc (marks (items out)).acc

/-- C17 is false: `a ::before` selects something else than `a::before`; so do `* *`, `* [a]` and `:not(a) *`. -/
theorem C17_full_false : ¬ C17_full := by
  intro h
  have := h asciiAlpha "a ::before".toList "a::before".toList asciiAlpha_ok (by decide +kernel) (by decide +kernel)
  have e1 : (marks (items "a ::before".toList)).acc = ("erofeb".toList.map fun c => (Gap.none, Item.chr c)) ++
    [(.none, .chr ':'), (.blank, .chr ':'), (.none, .chr 'a')] := by decide +kernel
  have e2 : (marks (items "a::before".toList)).acc = ("erofeb".toList.map fun c => (Gap.none, Item.chr c)) ++
    [(.none, .chr ':'), (.none, .chr ':'), (.none, .chr 'a')] := by decide +kernel
  rw [e1, e2] at this
  obtain ⟨_, _, _, _, _, _, _, _, _, _, _, _, _, _, _, h8, _⟩ := this
  exact absurd (h8 (by simp) (by decide +kernel) (by decide +kernel)) (by simp)

/-- More sheets whose selectors change. -/
theorem C17_full_false_more :
    minify asciiAlpha "* *{}".toList = .ok "**{}".toList ∧ minify asciiAlpha "* [a]{}".toList = .ok "*[a]{}".toList ∧
    minify asciiAlpha ":not(a) *{}".toList = .ok ":not(a)*{}".toList ∧
    minify asciiAlpha "a \\31 b{}".toList = .ok "a\\31 b{}".toList := by decide +kernel

/-- C17, the part that holds: a blank (or an ordinary comment) between two compound selectors is kept after `]`; before a
selector word or a pseudo-class (one colon); between a word or a parenthesis and `[`; and between a word and `*`. Missing: before
`::`, and `* *`, `* [`, `) *`. -/
theorem C17_descendant_partial (alpha : Char → Bool) (hA : AlphaOk alpha) (s out : List Char) (h : minify alpha s = .ok out)
    (hs : slashStarEq (segs (items s)).acc = false) :
    Sites (fun xs g x r g' => g ≠ .none → compoundEnd alpha xs = true → compoundStart alpha xs x r = true →
        lastIs ']' xs = true ∨ selAt alpha xs x r = true ∨ (x = .chr '[' ∧ lastIs '*' xs = false) ∨ (x = .chr '*' ∧ selWord alpha xs = true) →
        g' = .blank)
      [] (marks (items s)).acc (marks (items out)).acc := by
  refine minify_sites hA h hs ?_
  intro xs g x r k h1 h2 h3 hg hce hcs hx
  by_cases hauto : autoGap xs g x = true
  · simp [hauto]
  have key : keepRule alpha xs x r = true → (if k || autoGap xs g x then Gap.blank else Gap.none) = Gap.blank := by
    intro hk
    have : k = true := by
      cases g with
      | none => exact absurd rfl hg
      | blank => rw [h2 rfl, hk]
      | comment => exact (h3 rfl).1 hk
    simp [this]
  apply key
  simp only [compoundEnd, Bool.and_eq_true, Bool.or_eq_true] at hce
  obtain ⟨hsel, hce⟩ := hce
  have hmedia : mediaWord xs = false := by
    rw [Bool.eq_false_iff]; intro hm; apply hauto
    unfold autoGap; rw [hm]
    cases g with
    | none => exact absurd rfl hg
    | _ => simp
  have hsw : selWord alpha xs = true → wordEnd xs = true := by
    intro h; simp only [selWord, Bool.and_eq_true] at h; exact h.1
  have hnopunct : ∀ c, isPunct c = true → selWord alpha xs = true → lastIs c xs = false := fun c hc h => lastIs_word (hsw h) hc
  have hexcl : ∀ c d, c ≠ d → lastIs c xs = true → lastIs d xs = false := by
    intro c d hcd hc
    cases xs with
    | nil => rfl
    | cons m xs =>
      simp only [lastIs, beq_iff_eq] at hc
      simp [lastIs, hc, hcd]
  rw [keepRule_eq]
  have hrec : recorded xs = true := by
    rcases hce with ((hw | hb) | hp) | hst
    · exact recorded_word (hsw hw)
    · cases xs with
      | nil => simp [lastIs] at hb
      | cons m xs => simp only [lastIs, beq_iff_eq] at hb; simp [recorded, ending, closes, hb]
    · cases xs with
      | nil => simp [lastIs] at hp
      | cons m xs => simp only [lastIs, beq_iff_eq] at hp; simp [recorded, ending, closes, hp]
    · simp [recorded, hst]
  rw [hrec, Bool.true_and]
  have hnotcurly : (x == .chr '{') = false := by
    rw [beq_eq_false_iff_ne]
    rintro rfl
    simp [compoundStart, selAt, pseudoAt, isPunct] at hcs
  by_cases hrb : lastIs ']' xs = true
  · rw [if_pos hrb, hnotcurly]; rfl
  · rw [if_neg hrb]
    by_cases hic : inCalc alpha xs = true
    · rw [if_pos hic]
    · rw [if_neg hic]
      have opensOf : selAt alpha xs x r = true → (opens x || pseudoAt xs x r || opAt x r) = true := by
        intro h
        unfold selAt at h
        cases x with
        | chr c =>
          simp only [Bool.or_eq_true, Bool.and_eq_true] at h
          rcases h with ⟨⟨h, _⟩, _⟩ | h
          · simp [opens] at h ⊢; simp [h]
          · rw [h]; simp
        | _ => simp [pseudoAt] at h
      rcases hx with hx | hx | ⟨hx, hst⟩ | ⟨hx, hw⟩
      · exact absurd hx hrb
      · by_cases hst : lastIs '*' xs = true
        · rw [if_pos hst, hx]; simp
        · rw [if_neg hst]
          rcases hce with ((hw | hb) | hp) | hst'
          · rw [hnopunct '/' (by decide) hw, hnopunct '+' (by decide) hw, lastLicense_word (hsw hw), hmedia, opensOf hx]; simp
          · exact absurd hb hrb
          · have hlic : lastLicense xs = false := by
              cases xs with
              | nil => rfl
              | cons m xs => simp only [lastIs, beq_iff_eq] at hp; simp [lastLicense, isLicense, hp]
            rw [hexcl _ '/' (by decide) hp, hexcl _ '+' (by decide) hp, hlic, hmedia, opensOf hx]; simp
          · exact absurd hst' hst
      · rw [if_neg (by simp [hst])]
        have hopen : (opens x || pseudoAt xs x r || opAt x r) = true := by rw [hx]; rfl
        rcases hce with ((hw | hb) | hp) | hst'
        · rw [hnopunct '/' (by decide) hw, hnopunct '+' (by decide) hw, lastLicense_word (hsw hw), hmedia, hopen]; simp
        · exact absurd hb hrb
        · have hlic : lastLicense xs = false := by
            cases xs with
            | nil => rfl
            | cons m xs => simp only [lastIs, beq_iff_eq] at hp; simp [lastLicense, isLicense, hp]
          rw [hexcl _ '/' (by decide) hp, hexcl _ '+' (by decide) hp, hlic, hmedia, hopen]; simp
        · rw [hst] at hst'; cases hst'
      · have hst : lastIs '*' xs = false := hnopunct '*' (by decide) hw
        rw [hst, hnopunct '/' (by decide) hw, hnopunct '+' (by decide) hw, lastLicense_word (hsw hw), hw, hx]
        have hop : opAt (.chr '*') r = false := by
          rw [hx] at hcs
          rw [Bool.eq_false_iff]; intro ho
          simp [compoundStart, ho, selAt, pseudoAt, isPunct] at hcs
        rw [hop]; simp

/-- Not vacuous: all the pairs that are covered. -/
example : minify asciiAlpha "[a]  *, a .b :c #d, e [f]  g, h  *  i, :not( j ) k, l /* x */ m { }".toList =
    .ok "[a] *,a .b :c #d,e [f] g,h * i,:not(j) k,l m{}".toList ∧
    slashStarEq (segs (items "[a]  *, a .b :c #d, e [f]  g, h  *  i, :not( j ) k, l /* x */ m { }".toList)).acc = false ∧
    compoundEnd asciiAlpha (marks (items "a".toList)).acc = true ∧
    compoundStart asciiAlpha (marks (items "a".toList)).acc (.chr '.') [(.none, .chr 'b')] = true := by decide +kernel

/-! ## C18: `calc` -/

/-- C18 as stated: inside `calc(...)` a gap between two items is kept, whatever the items. -/
def C18_full : Prop :=
  ∀ (alpha : Char → Bool) (s out : List Char), AlphaOk alpha → minify alpha s = .ok out → slashStarEq (segs (items s)).acc = false →
    Sites (fun xs g _ _ g' => g ≠ .none → inCalc alpha xs = true → g' = .blank) [] (marks (items s)).acc (marks (items out)).acc

/-- C18 is false for the blanks after a parenthesis or a comma. -/
theorem C18_full_false : ¬ C18_full := by
  intro h
  have := h asciiAlpha "a{b:calc( 1)}".toList "a{b:calc(1)}".toList asciiAlpha_ok (by decide +kernel) (by decide +kernel)
  have e1 : (marks (items "a{b:calc( 1)}".toList)).acc = (.none, .chr '}') :: (Gap.none, Item.chr ')') :: (.blank, .chr '1') ::
    ("(clac:b{a".toList.map fun c => (Gap.none, Item.chr c)) := by decide +kernel
  have e2 : (marks (items "a{b:calc(1)}".toList)).acc = (.none, .chr '}') :: (Gap.none, Item.chr ')') :: (.none, .chr '1') ::
    ("(clac:b{a".toList.map fun c => (Gap.none, Item.chr c)) := by decide +kernel
  rw [e1, e2] at this
  obtain ⟨_, _, _, _, _, h8, _⟩ := this
  exact absurd (h8 (by simp) (by decide +kernel)) (by simp)

/-- Also, other functions that take sums, such as `max`, are not treated like `calc`, nor is `calc` in the block of an at-rule
after a colon without a blank; there a sum loses its blanks, which makes it invalid. -/
theorem C18_full_false_more :
    minify asciiAlpha "a{b:max(1px + 2px, 3px)}".toList = .ok "a{b:max(1px+2px,3px)}".toList ∧
    minify asciiAlpha "@page{margin:calc(1px + 2px)}".toList = .ok "@page {margin:calc(1px+2px)}".toList := by decide +kernel

/-- C18, the part that holds: inside `calc(...)` every gap after a word, a literal, a closing parenthesis or bracket, `*`, `/` or
`+` becomes exactly one blank (with `{` after `]` excepted). Missing: the gaps after other characters, such as `(` and `,`. -/
theorem C18_calc_partial (alpha : Char → Bool) (hA : AlphaOk alpha) (s out : List Char) (h : minify alpha s = .ok out) :
    ∃ ks, ∃ k : Bool, out = text (marks (items s)).acc ks ++ autoText (marks (items s)).acc false ++ (if k then [' '] else []) ∧
      KeptIn (fun xs g x => g ≠ .none ∧ inCalc alpha xs = true ∧ recorded xs = true ∧ ¬(lastIs ']' xs = true ∧ x = .chr '{'))
        (marks (items s)).acc ks := by
  obtain ⟨ks, k, h1, _, h3⟩ := C19_output alpha hA s out h
  refine ⟨ks, k, h3, ?_⟩
  clear h3
  revert h1
  generalize (marks (items s)).acc = acc
  generalize ([] : List Mark) = r
  intro h1
  induction acc generalizing r ks with
  | nil => cases ks <;> first | trivial | exact h1.elim
  | cons m acc ih =>
    obtain ⟨g, x⟩ := m
    cases ks with
    | nil => exact h1.elim
    | cons k ks =>
      obtain ⟨a1, a2, a3, a4⟩ := h1
      refine ⟨?_, ih _ _ a4⟩
      rintro ⟨hg, hc, hr, hx⟩
      have hk : keepRule alpha acc x r = true := by
        rw [keepRule_eq, hr, hc]
        by_cases hb : lastIs ']' acc = true
        · have : ¬ x = .chr '{' := fun e => hx ⟨hb, e⟩
          simp [hb, this]
        · simp [hb]
      cases g with
      | none => exact absurd rfl hg
      | blank => rw [a2 rfl, hk]
      | comment => exact (a3 rfl).1 hk

/-- C18, `inCalc` at any nesting depth: after a value `calc` (not itself inside another `calc`) and its parenthesis, everything is
inside as long as no more parentheses have been closed than opened since. -/
theorem C18_nesting (alpha : Char → Bool) (g : Gap) (xs ys : List Mark) (hc : calcWord alpha xs = true) (ho : calcState alpha xs = none)
    (hy : ∀ zs ws, ys = ws ++ zs → 0 ≤ parens zs) : inCalc alpha (ys ++ (g, .chr '(') :: xs) = true := by
  have key : ∀ ys : List Mark, (∀ zs ws, ys = ws ++ zs → 0 ≤ parens zs) →
      calcState alpha (ys ++ (g, .chr '(') :: xs) = some (parens ys + 1) := by
    intro ys
    induction ys with
    | nil =>
      intro _
      simp [calcState, isWordChr, isPunct, hc, ho, parens]
    | cons m ys ih =>
      intro hy
      obtain ⟨g', x⟩ := m
      have h0 := hy ((g', x) :: ys) [] rfl
      have ih := ih fun zs ws e => hy zs ((g', x) :: ws) (by simp [e])
      rw [List.cons_append, calcState]
      have hs : (if (g' != .none || !isWordChr x) && calcWord alpha (ys ++ (g, .chr '(') :: xs) then
          some ((calcState alpha (ys ++ (g, .chr '(') :: xs)).getD 0) else calcState alpha (ys ++ (g, .chr '(') :: xs)) =
          some (parens ys + 1) := by
        rw [ih]; split <;> rfl
      simp only [hs]
      simp only [parens] at h0 ⊢
      by_cases h1 : x = .chr '('
      · simp [h1]; omega
      · by_cases h2 : x = .chr ')'
        · have hne : ¬ (parens ys + 1 - 1 = 0) := by
            simp [h1, h2] at h0; omega
          simp [h1, h2]
          simp [h2] at h0
          constructor <;> omega
        · simp [h1, h2]
  have := key ys hy
  unfold inCalc calcNow
  rw [this]
  split <;> rfl

/-- Not vacuous: nested parentheses, blanks and comments. -/
example : minify asciiAlpha "a{b:calc( (1px  +  2px)  *  (3 - calc(4 /*x*/ +  5))  -  6px );c : d}".toList =
      .ok "a{b:calc((1px + 2px) * (3 - calc(4 + 5)) - 6px );c:d}".toList ∧
    calcWord asciiAlpha (marks (items "a{b:calc".toList)).acc = true ∧
    calcState asciiAlpha (marks (items "a{b:calc".toList)).acc = none ∧
    inCalc asciiAlpha (marks (items "a{b:calc((1px)".toList)).acc = true ∧
    inCalc asciiAlpha (marks (items "a{b:calc((1px))".toList)).acc = false := by decide +kernel

/-! ## C19: blanks that go -/

/-- After these characters no blank is needed. -/
def tightAfter (xs : List Mark) : Bool :=
  lastIs '{' xs || lastIs '}' xs || lastIs ';' xs || lastIs ',' xs || lastIs ':' xs || lastIs '>' xs || lastIs '(' xs ||
    lastIs '[' xs || lastIs '+' xs || lastIs '~' xs || lastIs '|' xs

/-- Before these characters no blank is needed. -/
def tightBefore (x : Item) : Bool :=
  x == .chr '{' || x == .chr '}' || x == .chr ';' || x == .chr ',' || x == .chr '>' || x == .chr ')' || x == .chr ']' || x == .chr '+'

/-- C19 as stated: outside `calc` there is no blank next to such a character, other than after a licence or the name of an at-rule. -/
def C19_full : Prop :=
  ∀ (alpha : Char → Bool) (s out : List Char), AlphaOk alpha → minify alpha s = .ok out → slashStarEq (segs (items s)).acc = false →
    Sites (fun xs g x _ g' => inCalc alpha xs = false → autoGap xs g x = false → tightAfter xs = true ∨ tightBefore x = true → g' = .none)
      [] (marks (items s)).acc (marks (items out)).acc

/-- C19 is false after `]`, and where the source has a comment. -/
theorem C19_full_false : ¬ C19_full := by
  intro h
  have := h asciiAlpha "[a] >b".toList "[a] >b".toList asciiAlpha_ok (by decide +kernel) (by decide +kernel)
  have e1 : (marks (items "[a] >b".toList)).acc = (Gap.none, Item.chr 'b') :: (.blank, .chr '>') ::
    ("]a[".toList.map fun c => (Gap.none, Item.chr c)) := by decide +kernel
  rw [e1] at this
  obtain ⟨_, _, _, h8, _⟩ := this
  exact absurd (h8 (by decide +kernel) (by decide +kernel) (by decide +kernel)) (by simp)

theorem C19_full_false_more :
    minify asciiAlpha "a{b:c /**/ /**/;}".toList = .ok "a{b:c ;}".toList ∧ minify asciiAlpha "/* x */ a{}".toList = .ok " a{}".toList := by
  decide +kernel

/-- C19, the part that holds: except after `]`, there is no blank next to these characters. Ordinary comments may stand in quiet
places, that is, after all characters that end no group, licences and names of at-rules, but not between `~` and `=`. -/
theorem C19_tight_partial (alpha : Char → Bool) (hA : AlphaOk alpha) (s out : List Char) (h : minify alpha s = .ok out)
    (hs : slashStarEq (segs (items s)).acc = false) :
    Sites (fun xs g x _ g' => (g = .comment → quiet alpha xs = true ∧ splitOp xs x = false) → lastIs ']' xs = false → inCalc alpha xs = false → autoGap xs g x = false →
        tightAfter xs = true ∨ tightBefore x = true → g' = .none)
      [] (marks (items s)).acc (marks (items out)).acc := by
  refine minify_sites hA h hs ?_
  intro xs g x r k h1 h2 h3 hg hb hc ha ht
  have hk : keepRule alpha xs x r = false := by
    rw [keepRule_eq, hb, hc]
    rcases ht with ht | ht
    · cases xs with
      | nil => simp [tightAfter, lastIs] at ht
      | cons m xs =>
        obtain ⟨g', y⟩ := m
        simp only [tightAfter, lastIs, Bool.or_eq_true, beq_iff_eq] at ht
        have hne : y ≠ .chr '=' := by rintro rfl; simp at ht
        have hat := attrOp_not (g := g') (xs := xs) hne
        have : (∀ d, y = .chr d → isPunct d = true) ∧ (y = .chr '+' ∨ recorded ((g', y) :: xs) = false) := by
          unfold recorded ending
          simp only [hat]
          rcases ht with ((((((((((h | h) | h) | h) | h) | h) | h) | h) | h) | h) | h) <;> subst h <;>
            exact ⟨by intro d e; cases e; decide, by first | exact Or.inl rfl | exact Or.inr rfl⟩
        rcases this.2 with h | h
        · subst h; simp [lastIs, lastLicense, isLicense]
        · rw [h]; rfl
    · have hx : ∃ d, x = .chr d ∧ d ∈ "{};,>)]+".toList := by
        simp only [tightBefore, Bool.or_eq_true, beq_iff_eq] at ht
        rcases ht with ((((((h | h) | h) | h) | h) | h) | h) | h <;> exact ⟨_, h, by decide⟩
      obtain ⟨d, rfl, hd⟩ := hx
      have e1 : ∀ d ∈ "{};,>)]+".toList, opens (.chr d) = false ∧ (Item.chr d == .chr '=') = false ∧ (Item.chr d == .chr '*') = false ∧
          (Item.chr d == .chr '(') = false ∧ (Item.chr d == .chr ':') = false ∧ (Item.chr d == .chr '~') = false ∧
          (Item.chr d == .chr '|') = false ∧ (Item.chr d == .chr '$') = false ∧ (Item.chr d == .chr '^') = false ∧ isPunct d = true := by
        decide +kernel
      obtain ⟨o1, o2, o3, o4, o5, o6, o7, o8, o9, o10⟩ := e1 d hd
      have hop : opAt (.chr d) r = false := by
        cases r with
        | nil => rfl
        | cons m r => obtain ⟨g', y⟩ := m; simp only [opAt, attrOp, o3, o6, o7, o8, o9]; simp
      have hps : pseudoAt xs (.chr d) r = false := by unfold pseudoAt; rw [o5]; rfl
      have hsa : selAt alpha xs (.chr d) r = false := by unfold selAt; rw [hps]; simp [o10]
      simp [o1, o2, o3, o4, hop, hps, hsa]
  have hk0 : k = false := by
    cases g with
    | none => exact h1 rfl
    | blank => rw [h2 rfl, hk]
    | comment => rw [(h3 rfl).2 (hg rfl).1 (hg rfl).2, hk]
  rw [hk0, ha]; rfl

/-- Not vacuous. -/
example : minify asciiAlpha " a > b , c + d { e : f ; /* x */ /* y */ g : h ( i , j ) ; } k ~ l { }".toList =
      .ok "a>b,c+d{e:f;g:h (i,j);}k~l{}".toList ∧
    quiet asciiAlpha (marks (items " a > b , c + d { e : f ;".toList)).acc = true := by decide +kernel

/-! ## C20: minifying twice -/

/-- C20 as stated. -/
def C20_full : Prop :=
  ∀ (alpha : Char → Bool) (s out : List Char), AlphaOk alpha → minify alpha s = .ok out → minify alpha out = .ok out

/-- C20 is false: the second time, the blank that is printed after the name of an at-rule is kept as well. -/
theorem C20_full_false : ¬ C20_full := by
  intro h
  have := h asciiAlpha "@m*".toList "@m *".toList asciiAlpha_ok (by decide +kernel)
  revert this; decide +kernel

/-- More sheets that the second time changes, such as all those that begin with a comment; the sum of the fourth one becomes
invalid. -/
theorem C20_full_false_more :
    minify asciiAlpha "/* x */ a{}".toList = .ok " a{}".toList ∧ minify asciiAlpha " a{}".toList = .ok "a{}".toList ∧
    minify asciiAlpha ": a (".toList = .ok ":a (".toList ∧ minify asciiAlpha ":a (".toList = .ok ":a(".toList ∧
    minify asciiAlpha "a{b:c /**/ /**/;}".toList = .ok "a{b:c ;}".toList ∧ minify asciiAlpha "a{b:c ;}".toList = .ok "a{b:c;}".toList ∧
    minify asciiAlpha "@page{margin: calc(1px + 2px)}".toList = .ok "@page {margin:calc(1px + 2px)}".toList ∧
    minify asciiAlpha "@page {margin:calc(1px + 2px)}".toList = .ok "@page {margin:calc(1px+2px)}".toList := by decide +kernel

/-- C20, the part that holds: a style sheet that is `calm`, that is `stable` with blanks in place of its ordinary comments and that
has no `/ *=` is not changed by minifying it again. Missing: the sheets that are not calm and stable; some of them change, as
above. -/
theorem C20_idempotent_partial (alpha : Char → Bool) (hA : AlphaOk alpha) (s out : List Char) (h : minify alpha s = .ok out)
    (hs : slashStarEq (segs (items s)).acc = false) (hcm : calm alpha [] (marks (items s)).acc = true)
    (hct : calmTail alpha (marks (items s)) = true) (hst : stable alpha [] (uncomment (marks (items s)).acc) = true)
    (htl : stableTail alpha ⟨uncomment (marks (items s)).acc, plainGap (marks (items s)).gap⟩ = true) :
    minify alpha out = .ok out := by
  have hsol := C14_solids_partial alpha hA s out h hs
  have hacc : ∃ out2, minify alpha out = .ok out2 := by
    have e1 := C13_errors alpha hA s
    have e2 := C13_errors alpha hA out
    rw [← problem_solids, hsol, problem_solids] at e2
    cases hp : problem 0 false (items s) with
    | none => rw [hp] at e2; exact e2
    | some e => rw [hp] at e1; simp only at e1; rw [h] at e1; cases e1
  obtain ⟨out2, h2⟩ := hacc
  rw [h2]
  congr 1
  obtain ⟨ts, hr, rfl⟩ := tokenize_ok h
  obtain ⟨ks, k, c1, c2, c3, c4⟩ := minify_marks hA hr
  have hmild := calm_mild hcm
  have c4 := c4 hs
  have c1 := cleaned_un hcm (fun _ _ _ _ => trivial) c1
  have c2 := cleanedTail_un hmild hct c2
  have hlast := lastLicense_un (marks (items s)).acc
  have hmedia := mediaWord_un hmild
  rw [← text_un hmild, ← autoText_un hmild] at c3
  rw [← outMarks_un hmild, ← hlast, ← hmedia] at c4
  obtain ⟨ks', k', d1, d2, d3⟩ := C19_output alpha hA _ out2 h2
  rw [c4] at d1 d2 d3
  simp only at d1 d3
  generalize uncomment (marks (items s)).acc = acc at *
  generalize plainGap (marks (items s)).gap = gap at *
  have hsim := sim_out _ _ _ hst c1
  have hks := same_ks _ _ _ _ _ hst c1 d1 (by
    cases acc <;> trivial)
  rw [hks, text_sim _ _ _ hst c1] at d3
  have hauto : autoText (outMarks acc ks) false = autoText acc false := by
    unfold autoText; rw [hsim.lastLicense_eq, hsim.mediaWord_eq]
  simp only [stableTail, Bool.and_eq_true, Bool.not_eq_true', bne_iff_ne, ne_eq] at htl
  obtain ⟨⟨t1, t2⟩, t3⟩ := htl
  have hnb : ¬ badCalc acc := by
    rintro ⟨b1, b2⟩
    simp [b1, b2] at t2
  have hk : k' = k := by
    obtain ⟨e1, e2, e3⟩ := d2
    simp only at e1 e2
    rw [tailRule_sim hsim hnb] at e2
    obtain ⟨f1, f2, f3⟩ := c2
    cases hg : gap with
    | comment => exact absurd hg t1
    | blank =>
      rw [f2 hg]
      cases ht : tailRule alpha acc with
      | true => rw [e2 (by simp [f2 hg, ht]), ht]
      | false =>
        by_cases hl : (lastLicense acc || mediaWord acc) = true
        · rw [e2 (by rw [Bool.or_assoc, hl]; simp), ht]
        · exact e1 (by rw [Bool.or_assoc, Bool.eq_false_iff.2 hl, f2 hg, ht]; rfl)
    | none =>
      rw [f1 hg]
      by_cases hl : (lastLicense acc || mediaWord acc) = true
      · rw [e2 (by rw [Bool.or_assoc, hl]; simp)]
        rw [hg, hl] at t3
        have hic : inCalc alpha acc = false := by simpa using t3
        unfold tailRule
        have hb : lastIs ']' acc = false := by
          rw [Bool.or_eq_true] at hl
          rcases hl with hl | hl
          · exact lastLicense_lastIs hl _
          · exact lastIs_word (mediaWord_wordEnd hl) (by decide)
        have : (lastIs '*' acc || lastIs '/' acc || lastIs '+' acc ||
            lastLicense acc || mediaWord acc) = true := by
          rw [Bool.or_assoc, hl]; simp
        rw [hb, hic, this]; simp
      · exact e1 (by rw [Bool.or_assoc, Bool.eq_false_iff.2 hl, f1 hg]; rfl)
  rw [d3, hauto, hk, ← c3]

/-- Not vacuous: a sheet with selectors, at-rules, licences, `calc`, strings and comments is calm and stable. -/
example :
    let s := "/*! l */ /* x */ a  .b > c:hover , d [ e ~= 'f' ] { g : calc( ( 1px  +  2px ) * 3 ) ; } /* y */ @media (max-width: 9px) { h /* z */ * i { /* y */ j : k (l) } } /* x */".toList
    calm asciiAlpha [] (marks (items s)).acc = true ∧ calmTail asciiAlpha (marks (items s)) = true ∧
    stable asciiAlpha [] (uncomment (marks (items s)).acc) = true ∧
    stableTail asciiAlpha ⟨uncomment (marks (items s)).acc, plainGap (marks (items s)).gap⟩ = true ∧
    slashStarEq (segs (items s)).acc = false ∧
    minify asciiAlpha s = .ok
      "/*! l */\na .b>c:hover,d [e ~= 'f']{g:calc((1px + 2px ) * 3 );}@media (max-width:9px){h * i{j:k (l)}}".toList := by decide +kernel

end Verif.Css
