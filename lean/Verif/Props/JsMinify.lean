import Verif.Proofs.JsSize
/-!
# Properties of `js::minify` and of the writer (C26, C27, C30 - C33, C44, C53, C54)
-/
set_option linter.unusedSimpArgs false
namespace Verif.Js
open Spec.Js

/-- The source used to show that hypotheses can be met: it has comments, a licence, every kind of literal, numbers with
superfluous zeros and both word operators. -/
def sample : List Char :=
  ("/*! l */;;var /* c */ a = /[b]c/gig // x\n , c = `t${ '}' + `u` }` + 'u' / 0012;\n\tif (a in c || 1.50 >= a) " ++
    "{ return new T(\"// no\", '/*') instanceof R }").toList

theorem sample_ok : Closed sample ∧ Readable (lex sample) := by
  unfold Closed Readable
  decide +kernel

/-! ## C26: comments -/

/-- What is left of a script when comments (closed or not) and blanks do not count. -/
def uncomment (ls : List Lexeme) : List Lexeme :=
  ls.filter fun
    | .blank _ => false
    | .comment _ => false
    | .openLine _ => false
    | .openBlock _ => false
    | _ => true

def licences (ls : List Lexeme) : List (List Char) :=
  ls.filterMap fun
    | .license b => some b
    | _ => none

def isComment : Lexeme → Bool
  | .comment _ => true
  | .openLine _ => true
  | .openBlock _ => true
  | _ => false

def C26_full : Prop :=
  (∀ s s', uncomment (lex s) = uncomment (lex s') → minify s = minify s') ∧
  ∀ s out, minify s = .ok out → (∀ l ∈ lex out, isComment l = false) ∧ licences (lex out) = licences (lex s)

/-- C26 does not hold: the text of a comment at the very end, without a line break, is written into the output, and blanks
between slashes are removed so that a comment appears. -/
theorem C26_full_false : ¬C26_full := by
  rintro ⟨h, -⟩
  exact absurd (h "// abc".toList [] (by decide +kernel)) (by decide +kernel)

theorem C26_second_half_false :
    ¬∀ s out, minify s = .ok out → (∀ l ∈ lex out, isComment l = false) ∧ licences (lex out) = licences (lex s) := by
  intro h
  have := (h "a / / b".toList "a//b".toList (by decide +kernel)).1
  exact absurd this (by decide +kernel)

/-- C26, partial: comments and blanks of closed sources have no influence on the output at all. Missing are the sources
with an unclosed literal or comment. -/
theorem C26_no_influence_partial (s s' : List Char) (h : Closed s) (h' : Closed s') (he : uncomment (lex s) = uncomment (lex s')) :
    minify s = minify s' := by
  have key : ∀ s, Closed s → uncomment (lex s) = (lex s).filter solid := by
    intro s h
    refine List.filter_congr fun l hl => ?_
    have := h l hl
    cases l <;> first | rfl | cases this
  rw [key s h, key s' h'] at he
  rw [minify_closed h, minify_closed h']
  unfold minimal strip
  rw [he]

private theorem blind_licence : Blind (fun | .license b => some b | _ => (none : Option (List Char))) where
  blank _ := rfl
  comment _ := rfl
  semi := rfl
  short l := by
    cases l with
    | word w => by_cases h : isInteger w = true <;> simp [shorten, h]
    | _ => rfl

/-- C26, partial: for closed sources whose minified form is `Readable`, the output has no comments and exactly the licences of
the source. Missing are the sources for which the writer glues lexemes together. -/
theorem C26_output_partial (s : List Char) (h : Closed s) (hs : Readable (lex s)) :
    ∃ out, minify s = .ok out ∧ (∀ l ∈ lex out, isComment l = false) ∧ licences (lex out) = licences (lex s) := by
  refine ⟨_, minify_closed h, ?_, ?_⟩
  · intro l hl
    have hc := closed_minimal h hs l hl
    rw [lex_readable h hs] at hl
    rcases spaced_mem _ l hl with hl | rfl
    · obtain ⟨l', hl', rfl⟩ := List.mem_map.1 hl
      have h2 := (strip_solid (closed_lex h) l' hl').2.1
      rw [← (shorten_class l').1] at h2
      generalize shorten l' = l at h2 hc
      cases l <;> first | rfl | (cases h2; done) | (cases hc; done)
    · rfl
  · rw [lex_readable h hs]
    exact blind_licence.minimal _

/-- Not vacuous: the sample meets the hypotheses, with comments and a licence; and so does a pair for the first theorem. -/
example : licences (lex sample) = [" l ".toList] ∧ (∃ l ∈ lex sample, isComment l = true) ∧
    uncomment (lex "a /* b */ + c".toList) = uncomment (lex "a // x\n+c".toList) := by
  decide +kernel

/-! ## C27: literals -/

/-- The spelling of a literal that has to survive: of a regex without its flags. -/
def literal : Lexeme → Option (List Char)
  | .str t => some t
  | .regex b _ => some ('/' :: b ++ ['/'])
  | _ => none

/-- The words occur in the text, in this order and without overlap. -/
inductive InOrder : List (List Char) → List Char → Prop
  | nil (s : List Char) : InOrder [] s
  | cons (p w : List Char) {ws : List (List Char)} {s : List Char} : InOrder ws s → InOrder (w :: ws) (p ++ w ++ s)

private theorem InOrder.pre {ws : List (List Char)} {s : List Char} (h : InOrder ws s) (p : List Char) : InOrder ws (p ++ s) := by
  cases h with
  | nil => exact .nil _
  | @cons p' w ws s h =>
    have : p ++ (p' ++ w ++ s) = (p ++ p') ++ w ++ s := by simp only [List.append_assoc]
    rw [this]
    exact .cons _ _ h

private theorem inOrder_textOf (ls : List Lexeme) : InOrder (ls.filterMap literal) (textOf ls) := by
  induction ls with
  | nil => exact .nil _
  | cons l ls ih =>
    rw [textOf_cons, List.filterMap_cons]
    cases l with
    | str t => exact .cons [] t ih
    | regex b fl =>
      have : text (.regex b fl) ++ textOf ls = [] ++ ('/' :: b ++ ['/']) ++ (fl ++ textOf ls) := by simp [text]
      rw [this]
      exact .cons [] _ (ih.pre fl)
    | _ => exact ih.pre _

private theorem blind_literal : Blind literal where
  blank _ := rfl
  comment _ := rfl
  semi := rfl
  short l := by
    cases l with
    | word w => by_cases h : isInteger w = true <;> simp [shorten, h, literal]
    | _ => rfl

/-- C27: the string, template and regex literals of a closed source appear verbatim, in order, in the output. -/
theorem C27_verbatim (s : List Char) (h : Closed s) :
    ∃ out, minify s = .ok out ∧ InOrder ((lex s).filterMap literal) out := by
  refine ⟨_, minify_closed h, ?_⟩
  rw [← blind_literal.minimal]
  exact inOrder_textOf _

/-- C27: if moreover the minified form is `Readable`, they are the literals of the output. -/
theorem C27_read_back (s : List Char) (h : Closed s) (hs : Readable (lex s)) :
    ∃ out, minify s = .ok out ∧ (lex out).filterMap literal = (lex s).filterMap literal := by
  refine ⟨_, minify_closed h, ?_⟩
  rw [lex_readable h hs]
  exact blind_literal.minimal _

example : (lex sample).filterMap literal =
    ["/[b]c/".toList, "`t${ '}' + `u` }`".toList, "'u'".toList, "\"// no\"".toList, "'/*'".toList] := by decide +kernel

/-! ## C30: words -/

/-- Keywords and identifiers. -/
def isNameToken : Token → Bool
  | .keyword _ => true
  | .other _ => true
  | _ => false

/-- Tokens that begin like a word. -/
def isWordToken : Token → Bool
  | .keyword _ => true
  | .other _ => true
  | .number _ => true
  | .float _ => true
  | .createdVarDecl _ => true
  | .createdVar _ => true
  | _ => false

/-- Where the writer puts a blank. -/
def blankBetween : Token → Token → Bool
  | .keyword _, .createdVar _ => false
  | .other _, .createdVar _ => false
  | .keyword _, t => isWordToken t
  | .other _, t => isWordToken t
  | .char _, _ => false
  | .str _, _ => false
  | _, .keyword .kIn => true
  | _, .keyword .kInstanceOf => true
  | _, _ => false

/-- The texts of the tokens with these blanks. -/
def withBlanks : List Token → List Char
  | [] => []
  | [t] => t.display
  | a :: b :: ts => a.display ++ (if blankBetween a b then [' '] else []) ++ withBlanks (b :: ts)

private theorem blankBetween_eq (a b : Token) :
    (spaceAfter a (some b)).toList ++ (if spaceBefore (some a) b then [' '] else []) = if blankBetween a b then [' '] else [] := by
  cases b with
  | keyword k => cases a <;> cases k <;> rfl
  | _ => cases a <;> rfl

private theorem displayFrom_withBlanks : ∀ (ts : List Token) (a : Token) (prev : Option Token),
    displayFrom prev (a :: ts) = (if spaceBefore prev a then [' '] else []) ++ withBlanks (a :: ts)
  | [], a, prev => by
    have hsa : spaceAfter a none = none := by cases a <;> rfl
    simp only [displayFrom, List.head?_nil, hsa, withBlanks]
    simp
  | b :: ts, a, prev => by
    have hun : displayFrom prev (a :: b :: ts) = (if spaceBefore prev a then [' '] else []) ++ a.display ++
        (spaceAfter a (some b)).toList ++ displayFrom (some a) (b :: ts) := rfl
    rw [hun, displayFrom_withBlanks ts b (some a), withBlanks, ← blankBetween_eq]
    simp only [List.append_assoc]

/-- C30, exactly: for every list of tokens, the text written is that of the tokens, with a single blank between two of them
exactly if `blankBetween` says so. -/
theorem C30_exact (ts : List Token) : display ts = withBlanks ts := by
  cases ts with
  | nil => rfl
  | cons a ts =>
    show displayFrom none (a :: ts) = _
    rw [displayFrom_withBlanks ts a none]
    rfl

def C30_full : Prop := ∀ a b, isWordToken a = true → isWordToken b = true → blankBetween a b = true

/-- C30 does not hold: there is no blank after a number, nor before a generated name (`return` and `r_aa` become
`returnr_aa`). -/
theorem C30_full_false : ¬C30_full := fun h =>
  absurd (h (.keyword .kReturn) (.createdVar "r_aa".toList) rfl rfl) (by decide)

theorem C30_full_false_text :
    display [.keyword .kReturn, .createdVar "r_aa".toList] = "returnr_aa".toList ∧
    minify "a; 5 b".toList = .ok "a;5b".toList := by decide +kernel

/-- C30, partial: exactly one blank is written between a keyword or identifier and any word but a generated name. Missing are words
after numbers and generated names after words: they are not separated. -/
theorem C30_words_partial (pre post : List Token) (a b : Token) (ha : isNameToken a = true) (hb : isWordToken b = true)
    (hc : ∀ s, b ≠ .createdVar s) :
    display (pre ++ a :: b :: post) = display (pre ++ [a]) ++ [' '] ++ display (b :: post) := by
  rw [C30_exact, C30_exact, C30_exact]
  have hab : blankBetween a b = true := by
    cases a <;> first | (cases ha; done) | skip
    all_goals cases b <;> first | rfl | (cases hb; done) | exact absurd rfl (hc _)
  have step : ∀ (c d : Token) (us : List Token), withBlanks (c :: d :: us) =
      c.display ++ (if blankBetween c d then [' '] else []) ++ withBlanks (d :: us) := fun _ _ _ => rfl
  induction pre with
  | nil =>
    simp only [List.nil_append]
    rw [step, hab]; rfl
  | cons c pre ih =>
    cases pre with
    | nil =>
      simp only [List.cons_append, List.nil_append] at ih ⊢
      rw [step c, step c, ih]; simp only [List.append_assoc]
    | cons d pre =>
      simp only [List.cons_append] at ih ⊢
      rw [step c, step c, ih]; simp only [List.append_assoc]

example : isNameToken (.keyword .kVar) = true ∧ isWordToken (.number 5) = true ∧
    display [.keyword .kVar, .other ['a'], .op .equal, .number 5, .keyword .kIn, .other ['b']] = "var a=5 in b".toList := by
  decide +kernel

/-! ## C31: operators -/

/-- The solid lexemes in their shortest spelling, without the semicolons that come first: what a reader of the output should
see. -/
def meaning (s : List Char) : List Lexeme := (strip (lex s)).map shorten

def C31_full : Prop := ∀ s out, Closed s → minify s = .ok out → meaning out = meaning s

/-- C31 does not hold: `a = = b` becomes `a==b`. -/
theorem C31_full_false : ¬C31_full := by
  intro h
  have hc : Closed "a = = b".toList := by unfold Closed; decide +kernel
  exact absurd (h _ "a==b".toList hc (by decide +kernel)) (by decide +kernel)

/-- C31: the operators `++` and `--` are not known to the tokenizer, so `a + +b` becomes `a++b`. -/
theorem C31_increment_false : ¬∀ s out, minify s = .ok out → ("++".toList <:+: out) → "++".toList <:+: s := by
  intro h
  have h1 : minify "a + +b".toList = .ok "a++b".toList := by decide +kernel
  have := h _ _ h1 ⟨['a'], ['b'], by decide +kernel⟩
  obtain ⟨p, q, hp⟩ := this
  have hs : "a + +b".toList = ['a', ' ', '+', ' ', '+', 'b'] := by decide +kernel
  have hpp : "++".toList = ['+', '+'] := by decide +kernel
  rw [hs, hpp] at hp
  match p, hp with
  | [], hp => simp at hp
  | [_], hp => simp at hp
  | [_, _], hp => simp at hp
  | [_, _, _], hp => simp at hp
  | [_, _, _, _], hp => simp at hp
  | _ :: _ :: _ :: _ :: _ :: p, hp =>
    have hl := congrArg List.length hp
    simp at hl
    omega

/-- C31, the part that holds: if the source is closed and its minified form `Readable`, then the output is read as the same lexemes as the
source, operators included. Missing are the sources that are not `Readable` (lexemes that merge when they are written next to each other);
whether `Readable` holds can be computed from the lexemes. -/
theorem C31_same_meaning_partial (s : List Char) (h : Closed s) (hs : Readable (lex s)) :
    ∃ out, minify s = .ok out ∧ meaning out = meaning s := by
  refine ⟨_, minify_closed h, ?_⟩
  unfold meaning
  rw [lex_readable h hs, strip_minimal, List.map_map]
  congr 1
  funext l
  exact shorten_idem l

/-- C31: and no other source is read as before. -/
theorem C31_iff (s : List Char) (h : Closed s) : ∃ out, minify s = .ok out ∧ (meaning out = meaning s ↔ Readable (lex s)) := by
  refine ⟨_, minify_closed h, fun hm => readable_of_meaning h hm, fun hr => ?_⟩
  obtain ⟨out, h1, h2⟩ := C31_same_meaning_partial s h hr
  rw [minify_closed h] at h1
  cases h1
  exact h2

/-- Scripts that are readable: a division where a regex could be, and a number before a dot; and scripts that are not. -/
example : (∀ s ∈ ["i++ / 2", "x = 1.5 . 1", "1 . a"].map String.toList, Closed s ∧ Readable (lex s)) ∧
    ∀ s ∈ ["i++ / 2;\nj / 3", "a = = b", "1 .\n1", "a / /c/", "/a/ in b;/c/ g"].map String.toList, Closed s ∧ ¬Readable (lex s) := by
  unfold Closed Readable
  decide +kernel

example : meaning "a == /* c */ b ;c += 01".toList =
    [.word ['a'], .punct "==".toList, .word ['b'], .punct [';'], .word ['c'], .punct "+=".toList, .word ['1']] ∧
    safeFrom [] (meaning "a == /* c */ b ;c += 01".toList) = true := by decide +kernel

/-! ## C32: writers -/

/-- C32: on success the writer has received exactly `to_string()`. -/
theorem C32_write_ok {σ : Type} (k : Sink σ) (hk : k.Lawful) (st : σ) (ts : List Token) (h : (write k st ts).2 = true) :
    k.contents (write k st ts).1 = k.contents st ++ utf8 (display ts) := by
  have tok : ∀ (st : σ) (t : Token), (writeToken k st t).2 = true → k.contents (writeToken k st t).1 = k.contents st ++ utf8 t.display := by
    intro st t h
    have simple : ∀ cs : List (List Char), cs.flatten = t.display → (writeChunks k st cs).2 = true →
        k.contents (writeChunks k st cs).1 = k.contents st ++ utf8 t.display := by
      intro cs hcs h
      rw [writeChunks_ok hk st cs h, hcs]
    cases t with
    | license x => exact simple _ (by simp [Token.display]) h
    | regex r g i =>
      unfold writeToken at h ⊢
      simp only at h ⊢
      have hx := writeChunks_ok hk st [['/'], r, ['/']]
      generalize writeChunks k st [['/'], r, ['/']] = x at h hx ⊢
      have hy : (if g = true then writeChunks k x.1 [['g']] else (x.1, true)).2 = true →
          k.contents (if g = true then writeChunks k x.1 [['g']] else (x.1, true)).1 =
            k.contents x.1 ++ utf8 (if g then ['g'] else []) := by
        cases g with
        | true => intro h; exact writeChunks_ok hk x.1 [['g']] h
        | false => intro _; simp [utf8]
      generalize (if g = true then writeChunks k x.1 [['g']] else (x.1, true)) = y at h hy ⊢
      obtain ⟨y1, y2⟩ := y
      cases y2 with
      | false => cases h
      | true =>
        simp only [Bool.not_true, Bool.false_eq_true, if_false] at h ⊢
        have hz : (if i = true then writeChunks k y1 [['i']] else (y1, true)).2 = true →
            k.contents (if i = true then writeChunks k y1 [['i']] else (y1, true)).1 =
              k.contents y1 ++ utf8 (if i then ['i'] else []) := by
          cases i with
          | true => intro h; exact writeChunks_ok hk y1 [['i']] h
          | false => intro _; simp [utf8]
        generalize (if i = true then writeChunks k y1 [['i']] else (y1, true)) = z at h hz ⊢
        obtain ⟨z1, z2⟩ := z
        cases z2 with
        | false => cases h
        | true =>
          simp only [Bool.not_true, Bool.false_eq_true, if_false] at h ⊢
          have h1 := hz rfl
          have h2 := hy rfl
          have h3 := hx h
          simp only at h1 h2 h3
          rw [h1, h2, h3]
          simp only [Token.display, utf8_append, List.append_assoc, List.flatten_cons, List.flatten_nil, List.append_nil]
          rfl
    | _ => exact simple _ (by simp) h
  have main : ∀ (ts : List Token) (st : σ) (prev : Option Token), (writeFrom k st prev ts).2 = true →
      k.contents (writeFrom k st prev ts).1 = k.contents st ++ utf8 (displayFrom prev ts) := by
    intro ts
    induction ts with
    | nil => intro st prev _; simp [writeFrom, displayFrom, utf8]
    | cons t ts ih =>
      intro st prev h
      rw [writeFrom] at h ⊢
      have h1 := writeChunks_ok hk st (if spaceBefore prev t = true then [[' ']] else [])
      generalize writeChunks k st (if spaceBefore prev t = true then [[' ']] else []) = a at h h1 ⊢
      obtain ⟨a1, a2⟩ := a
      cases a2 with
      | false => cases h
      | true =>
        simp only at h ⊢
        have e1 : k.contents a1 = _ := h1 rfl
        have h2 := tok a1 t
        generalize writeToken k a1 t = b at h h2 ⊢
        obtain ⟨b1, b2⟩ := b
        cases b2 with
        | false => cases h
        | true =>
          simp only at h ⊢
          have e2 : k.contents b1 = _ := h2 rfl
          have h3 := writeChunks_ok hk b1 (match spaceAfter t ts.head? with | some c => [[c]] | none => [])
          generalize writeChunks k b1 (match spaceAfter t ts.head? with | some c => [[c]] | none => []) = c at h h3 ⊢
          obtain ⟨c1, c2⟩ := c
          cases c2 with
          | false => cases h
          | true =>
            simp only at h ⊢
            have e3 : k.contents c1 = _ := h3 rfl
            rw [ih c1 (some t) h, e3, e2, e1, displayFrom]
            simp only [utf8_append, List.append_assoc]
            cases spaceBefore prev t <;> cases spaceAfter t ts.head? <;> simp [utf8]
  exact main ts st none h

/-- A writer that does not recover: after an error it takes nothing more. -/
def Stops {σ : Type} (k : Sink σ) : Prop :=
  ∀ s b, (k.writeAll s b).2 = false → ∀ b', (k.writeAll (k.writeAll s b).1 b').2 = false ∧
    k.contents (k.writeAll (k.writeAll s b).1 b').1 = k.contents (k.writeAll s b).1

def C32_full : Prop := ∀ {σ : Type} (k : Sink σ), k.Lawful → ∀ st ts, (write k st ts).2 = false →
  ∃ p, p <+: utf8 (display ts) ∧ k.contents (write k st ts).1 = k.contents st ++ p

/-- A sink that refuses its second write and accepts all others. -/
def hiccup : Sink (List UInt8 × Nat) where
  writeAll := fun (s, n) b => if n = 1 then ((s, n + 1), false) else ((s ++ b, n + 1), true)
  contents := Prod.fst

theorem hiccup_lawful : hiccup.Lawful where
  ok := by
    rintro ⟨s, n⟩ b h
    unfold hiccup at h ⊢
    by_cases hn : n = 1 <;> simp_all
  fail := by
    rintro ⟨s, n⟩ b h
    unfold hiccup at h ⊢
    by_cases hn : n = 1
    · exact ⟨[], List.nil_prefix, by simp [hn]⟩
    · simp_all

/-- C32 does not hold for writers that recover after an error: the flags of a regex are written even though its body could
not be written. -/
theorem C32_full_false : ¬C32_full := by
  intro h
  obtain ⟨p, hp, he⟩ := h hiccup hiccup_lawful ([], 0) [.regex ['a'] true false] (by decide)
  have h1 : (write hiccup ([], 0) [.regex ['a'] true false]).1 = ([47, 103], 3) := by decide
  have h2 : utf8 (display [.regex ['a'] true false]) = [47, 97, 47, 103] := by decide
  rw [h1] at he
  rw [h2] at hp
  have : p = [47, 103] := by simpa [hiccup] using he.symm
  subst this
  exact absurd hp (by decide)

private theorem writeChunks_stops {σ : Type} {k : Sink σ} (hs : Stops k) : ∀ (cs : List (List Char)) (st : σ),
    (writeChunks k st cs).2 = false → ∀ b', (k.writeAll (writeChunks k st cs).1 b').2 = false ∧
    k.contents (k.writeAll (writeChunks k st cs).1 b').1 = k.contents (writeChunks k st cs).1 := by
  intro cs
  induction cs with
  | nil => intro st h; cases h
  | cons c cs ih =>
    intro st h
    have hc := hs st (utf8 c)
    rw [writeChunks] at h ⊢
    generalize k.writeAll st (utf8 c) = a at h hc ⊢
    obtain ⟨a1, a2⟩ := a
    cases a2 with
    | false => exact hc rfl
    | true => exact ih a1 h

/-- C32, partial: a failing writer has received a prefix of `to_string()`, if it does not recover after an error or if the
tokens have no regex with flags. Missing are writers that recover. -/
theorem C32_write_fail_partial {σ : Type} (k : Sink σ) (hk : k.Lawful) (st : σ) (ts : List Token)
    (hs : Stops k ∨ ∀ t ∈ ts, ∀ r g i, t = .regex r g i → g = false ∧ i = false) (h : (write k st ts).2 = false) :
    ∃ p, p <+: utf8 (display ts) ∧ k.contents (write k st ts).1 = k.contents st ++ p := by
  have tok : ∀ (st : σ) (t : Token), t ∈ ts → (writeToken k st t).2 = false →
      ∃ p, p <+: utf8 t.display ∧ k.contents (writeToken k st t).1 = k.contents st ++ p := by
    intro st t ht h
    have simple : ∀ cs : List (List Char), cs.flatten = t.display → (writeChunks k st cs).2 = false →
        ∃ p, p <+: utf8 t.display ∧ k.contents (writeChunks k st cs).1 = k.contents st ++ p := by
      intro cs hcs h
      obtain ⟨p, h1, h2⟩ := writeChunks_fail hk st cs h
      exact ⟨p, by rwa [hcs] at h1, h2⟩
    cases t with
    | license x => exact simple _ (by simp [Token.display]) h
    | regex r g i =>
      have hd : utf8 (Token.regex r g i).display = utf8 [['/'], r, ['/']].flatten ++
          (utf8 (if g then ['g'] else []) ++ utf8 (if i then ['i'] else [])) := by
        simp only [Token.display, utf8_append, List.append_assoc, List.flatten_cons, List.flatten_nil, List.append_nil]
        rfl
      rw [hd]
      unfold writeToken at h ⊢
      simp only at h ⊢
      have hx1 := writeChunks_ok hk st [['/'], r, ['/']]
      have hx2 := writeChunks_fail hk st [['/'], r, ['/']]
      have hx3 : Stops k → _ := fun hs => writeChunks_stops hs [['/'], r, ['/']] st
      generalize writeChunks k st [['/'], r, ['/']] = x at h hx1 hx2 hx3 ⊢
      obtain ⟨x1, x2⟩ := x
      -- writing one more chunk
      have one : ∀ (s : σ) (c : Char) , writeChunks k s [[c]] = k.writeAll s (utf8 [c]) := by
        intro s c
        rw [writeChunks]
        generalize k.writeAll s (utf8 [c]) = a
        obtain ⟨a1, a2⟩ := a
        cases a2 <;> rfl
      cases x2 with
      | false =>
        obtain ⟨p, h1, h2⟩ := hx2 rfl
        have goal : ∀ z : σ × Bool, k.contents z.1 = k.contents x1 →
            ∃ p, p <+: utf8 [['/'], r, ['/']].flatten ++ (utf8 (if g then ['g'] else []) ++ utf8 (if i then ['i'] else [])) ∧
              k.contents z.1 = k.contents st ++ p := by
          intro z hz
          exact ⟨p, h1.trans (List.prefix_append _ _), by rw [hz, h2]⟩
        apply goal
        rcases hs with hs | hs
        · have hst := hx3 hs rfl
          simp only at hst
          cases g with
          | true =>
            simp only [if_true, one]
            have := hst (utf8 ['g'])
            rw [this.1]
            simp only [Bool.not_false, if_true]
            exact this.2
          | false =>
            simp only [Bool.false_eq_true, if_false, Bool.not_true]
            cases i with
            | true =>
              simp only [if_true, one]
              have := hst (utf8 ['i'])
              rw [this.1]
              simp only [Bool.not_false, if_true]
              exact this.2
            | false => simp
        · obtain ⟨rfl, rfl⟩ := hs _ ht r g i rfl
          simp
      | true =>
        have h1 := hx1 rfl
        simp only at h1
        cases g with
        | true =>
          simp only [if_true, one] at h ⊢
          have hg1 := hk.ok x1 (utf8 ['g'])
          have hg2 := hk.fail x1 (utf8 ['g'])
          generalize k.writeAll x1 (utf8 ['g']) = y at h hg1 hg2 ⊢
          obtain ⟨y1, y2⟩ := y
          cases y2 with
          | false =>
            simp only [Bool.not_false, if_true]
            obtain ⟨p, h2, h3⟩ := hg2 rfl
            refine ⟨utf8 [['/'], r, ['/']].flatten ++ p, ?_, ?_⟩
            · exact (List.prefix_append_right_inj _).2 (h2.trans (List.prefix_append _ _))
            · simp only at h3; rw [h3, h1, List.append_assoc]
          | true =>
            simp only [Bool.not_true, Bool.false_eq_true, if_false] at h ⊢
            cases i with
            | false => simp at h
            | true =>
              simp only [if_true, one] at h ⊢
              have hi2 := hk.fail y1 (utf8 ['i'])
              generalize k.writeAll y1 (utf8 ['i']) = z at h hi2 ⊢
              obtain ⟨z1, z2⟩ := z
              cases z2 with
              | true => simp at h
              | false =>
                simp only [Bool.not_false, if_true]
                obtain ⟨p, h2, h3⟩ := hi2 rfl
                refine ⟨utf8 [['/'], r, ['/']].flatten ++ (utf8 ['g'] ++ p), ?_, ?_⟩
                · exact (List.prefix_append_right_inj _).2 ((List.prefix_append_right_inj _).2 h2)
                · have := hg1 rfl
                  simp only at h3 this
                  rw [h3, this, h1]; simp only [List.append_assoc]
        | false =>
          simp only [Bool.false_eq_true, if_false, Bool.not_true] at h ⊢
          cases i with
          | false => simp at h
          | true =>
            simp only [if_true, one] at h ⊢
            have hi2 := hk.fail x1 (utf8 ['i'])
            generalize k.writeAll x1 (utf8 ['i']) = z at h hi2 ⊢
            obtain ⟨z1, z2⟩ := z
            cases z2 with
            | true => simp at h
            | false =>
              simp only [Bool.not_false, if_true]
              obtain ⟨p, h2, h3⟩ := hi2 rfl
              refine ⟨utf8 [['/'], r, ['/']].flatten ++ ([] ++ p), ?_, ?_⟩
              · refine (List.prefix_append_right_inj _).2 ?_
                simpa [utf8] using h2
              · simp only at h3; rw [h3, h1]; simp only [List.append_assoc, List.nil_append]
    | _ => exact simple _ (by simp) h
  have tokOk : ∀ (st : σ) (t : Token), (writeToken k st t).2 = true → k.contents (writeToken k st t).1 = k.contents st ++ utf8 t.display := by
    intro st t h
    have hd : display [t] = t.display := by rw [C30_exact]; rfl
    have hw : write k st [t] = writeToken k st t := by
      have hsa : spaceAfter t none = none := by cases t <;> rfl
      unfold write
      rw [writeFrom]
      simp only [spaceBefore, Bool.false_eq_true, if_false, List.head?_nil, hsa]
      rw [writeChunks]
      simp only
      generalize writeToken k st t = a
      obtain ⟨a1, a2⟩ := a
      cases a2 <;> simp [writeChunks, writeFrom]
    have := C32_write_ok k hk st [t] (by rw [hw]; exact h)
    rwa [hw, hd] at this
  have main : ∀ (us : List Token) (st : σ) (prev : Option Token), (∀ t ∈ us, t ∈ ts) → (writeFrom k st prev us).2 = false →
      ∃ p, p <+: utf8 (displayFrom prev us) ∧ k.contents (writeFrom k st prev us).1 = k.contents st ++ p := by
    intro us
    induction us with
    | nil => intro st prev _ h; cases h
    | cons t us ih =>
      intro st prev hsub h
      have hdisp : utf8 (displayFrom prev (t :: us)) = utf8 (if spaceBefore prev t then [[' ']] else []).flatten ++
          (utf8 t.display ++ (utf8 (match spaceAfter t us.head? with | some c => [[c]] | none => []).flatten ++
            utf8 (displayFrom (some t) us))) := by
        rw [displayFrom]
        simp only [utf8_append, List.append_assoc]
        cases spaceBefore prev t <;> cases spaceAfter t us.head? <;> simp [utf8]
      rw [hdisp]
      rw [writeFrom] at h ⊢
      have h1 := writeChunks_ok hk st (if spaceBefore prev t = true then [[' ']] else [])
      have h1' := writeChunks_fail hk st (if spaceBefore prev t = true then [[' ']] else [])
      generalize writeChunks k st (if spaceBefore prev t = true then [[' ']] else []) = a at h h1 h1' ⊢
      obtain ⟨a1, a2⟩ := a
      cases a2 with
      | false =>
        obtain ⟨p, hp, he⟩ := h1' rfl
        exact ⟨p, hp.trans (List.prefix_append _ _), he⟩
      | true =>
        simp only at h ⊢
        have e1 : k.contents a1 = _ := h1 rfl
        have h2 := tokOk a1 t
        have h2' := tok a1 t (hsub t List.mem_cons_self)
        generalize writeToken k a1 t = b at h h2 h2' ⊢
        obtain ⟨b1, b2⟩ := b
        cases b2 with
        | false =>
          obtain ⟨p, hp, he⟩ := h2' rfl
          refine ⟨_ ++ p, (List.prefix_append_right_inj _).2 (hp.trans (List.prefix_append _ _)), ?_⟩
          simp only at he ⊢
          rw [he, e1, List.append_assoc]
        | true =>
          simp only at h ⊢
          have e2 : k.contents b1 = _ := h2 rfl
          have h3 := writeChunks_ok hk b1 (match spaceAfter t us.head? with | some c => [[c]] | none => [])
          have h3' := writeChunks_fail hk b1 (match spaceAfter t us.head? with | some c => [[c]] | none => [])
          generalize writeChunks k b1 (match spaceAfter t us.head? with | some c => [[c]] | none => []) = c at h h3 h3' ⊢
          obtain ⟨c1, c2⟩ := c
          cases c2 with
          | false =>
            obtain ⟨p, hp, he⟩ := h3' rfl
            refine ⟨_ ++ (_ ++ p), (List.prefix_append_right_inj _).2 ((List.prefix_append_right_inj _).2
              (hp.trans (List.prefix_append _ _))), ?_⟩
            simp only at he ⊢
            rw [he, e2, e1]; simp only [List.append_assoc]
          | true =>
            simp only at h ⊢
            have e3 : k.contents c1 = _ := h3 rfl
            obtain ⟨p, hp, he⟩ := ih c1 (some t) (fun x hx => hsub x (List.mem_cons_of_mem _ hx)) h
            refine ⟨_ ++ (_ ++ (_ ++ p)), (List.prefix_append_right_inj _).2 ((List.prefix_append_right_inj _).2
              ((List.prefix_append_right_inj _).2 hp)), ?_⟩
            rw [he, e3, e2, e1]; simp only [List.append_assoc]
  exact main ts st none (fun _ h => h) h

/-- C32: a writer that never fails makes `write` succeed. -/
theorem C32_write_total {σ : Type} (k : Sink σ) (ht : ∀ s b, (k.writeAll s b).2 = true) (st : σ) (ts : List Token) :
    (write k st ts).2 = true := by
  have wc := fun st cs => writeChunks_of_total (k := k) ht st cs
  have tok : ∀ (st : σ) (t : Token), (writeToken k st t).2 = true := by
    intro st t
    cases t with
    | regex r g i =>
      unfold writeToken
      simp only
      have h1 := wc st [['/'], r, ['/']]
      generalize writeChunks k st [['/'], r, ['/']] = x at h1 ⊢
      have h2 := wc x.1 [['g']]
      cases g <;> cases i <;> simp [h1, h2, wc]
    | _ => exact wc _ _
  have main : ∀ (ts : List Token) (st : σ) (prev : Option Token), (writeFrom k st prev ts).2 = true := by
    intro ts
    induction ts with
    | nil => intro st prev; rfl
    | cons t ts ih =>
      intro st prev
      rw [writeFrom]
      have h1 := wc st (if spaceBefore prev t = true then [[' ']] else [])
      generalize writeChunks k st (if spaceBefore prev t = true then [[' ']] else []) = a at h1 ⊢
      obtain ⟨a1, a2⟩ := a
      simp only at h1
      subst h1
      simp only
      have h2 := tok a1 t
      generalize writeToken k a1 t = b at h2 ⊢
      obtain ⟨b1, b2⟩ := b
      simp only at h2
      subst h2
      simp only
      have h3 := wc b1 (match spaceAfter t ts.head? with | some c => [[c]] | none => [])
      generalize writeChunks k b1 (match spaceAfter t ts.head? with | some c => [[c]] | none => []) = c at h3 ⊢
      obtain ⟨c1, c2⟩ := c
      simp only at h3
      subst h3
      exact ih c1 (some t)
  exact main ts st none

/-- `roomSink` with room left may accept a shorter text after an error, but a full one stops; this sink always stops. -/
def stopSink : Sink (List UInt8 × Nat × Bool) where
  writeAll := fun (s, n, dead) b =>
    if dead then ((s, n, true), false)
    else if b.length ≤ n then ((s ++ b, n - b.length, false), true) else ((s ++ b.take n, 0, true), false)
  contents := Prod.fst

/-- Not vacuous: there is a lawful sink that stops, with any failure point. -/
theorem stopSink_ok : stopSink.Lawful ∧ Stops stopSink := by
  refine ⟨⟨?_, ?_⟩, ?_⟩
  · rintro ⟨s, n, d⟩ b h
    unfold stopSink at h ⊢
    cases d
    · by_cases hb : b.length ≤ n <;> simp_all
    · simp at h
  · rintro ⟨s, n, d⟩ b h
    unfold stopSink at h ⊢
    cases d
    · by_cases hb : b.length ≤ n
      · simp_all
      · exact ⟨b.take n, List.take_prefix _ _, by simp [hb]⟩
    · exact ⟨[], List.nil_prefix, by simp⟩
  · rintro ⟨s, n, d⟩ b h b'
    have dead : ∀ s n, (stopSink.writeAll (s, n, true) b').2 = false ∧
        stopSink.contents (stopSink.writeAll (s, n, true) b').1 = s := by
      intro s n; simp [stopSink]
    have : ∃ s' n', (stopSink.writeAll (s, n, d) b).1 = (s', n', true) := by
      unfold stopSink at h ⊢
      cases d
      · by_cases hb : b.length ≤ n
        · simp [hb] at h
        · exact ⟨_, _, by simp [hb]; exact ⟨rfl, rfl⟩⟩
      · exact ⟨s, n, by simp⟩
    obtain ⟨s', n', he⟩ := this
    rw [he]
    exact dead s' n'

example : (write stopSink ([], 2, false) [.regex "ab".toList true false]).1.1 = [47, 97] ∧
    (write stopSink ([], 2, false) [.regex "ab".toList true false]).2 = false := by decide

/-! ## C33: numbers -/

/-- What a JavaScript engine takes an integer literal for: with a superfluous zero in front and only octal digits it is read
in base eight. -/
def jsValue (w : List Char) : Nat :=
  match w with
  | '0' :: c :: r => if (c :: r).all (fun c => '0' ≤ c && c ≤ '7') then (c :: r).foldl (fun n c => 8 * n + digit c) 0 else value w
  | w => value w

def C33_full : Prop := ∀ w, isInteger w = true → ∃ out, minify w = .ok out ∧ isInteger out = true ∧ jsValue out = jsValue w

/-- C33 does not hold for the old octal literals: `010` becomes `10`. -/
theorem C33_full_false : ¬C33_full := by
  intro h
  obtain ⟨out, h1, -, h3⟩ := h "010".toList (by decide +kernel)
  have : minify "010".toList = .ok "10".toList := by decide +kernel
  rw [this] at h1
  cases h1
  exact absurd h3 (by decide +kernel)

/-- The integers of a script, by value, and its other numbers, by spelling. -/
def numbers (ls : List Lexeme) : List (Nat ⊕ List Char) :=
  ls.filterMap fun
    | .word w => if isInteger w then some (.inl (value w)) else if isFloat w then some (.inr w) else none
    | _ => none

private theorem blind_number : Blind (fun
    | .word w => if isInteger w then some (.inl (value w)) else if isFloat w then some (.inr w) else none
    | _ => (none : Option (Nat ⊕ List Char))) where
  blank _ := rfl
  comment _ := rfl
  semi := rfl
  short l := by
    cases l with
    | word w =>
      by_cases h : isInteger w = true
      · have h2 := shortest_ok h
        have e : shorten (.word w) = .word (shortest w) := by simp [shorten, h]
        rw [e]
        simp only [h2.1, if_true, h2.2.1, h]
      · have e : shorten (.word w) = .word w := by simp [shorten, h]
        rw [e]
    | _ => rfl

/-- C33, partial: if the source is closed and its minified form `Readable`, the numbers of the output are those of the source:
integers with the same decimal value, others with the same spelling. Missing are octal literals (their value changes) and
sources whose lexemes merge. -/
theorem C33_numbers_partial (s : List Char) (h : Closed s) (hs : Readable (lex s)) :
    ∃ out, minify s = .ok out ∧ numbers (lex out) = numbers (lex s) := by
  refine ⟨_, minify_closed h, ?_⟩
  rw [lex_readable h hs]
  exact blind_number.minimal _

/-- C33, partial: an integer literal on its own is written with the same decimal value and no superfluous zero, and so with
the same value for a JavaScript engine unless it was an old octal literal. -/
theorem C33_integer_partial (w : List Char) (h : isInteger w = true) :
    ∃ out, minify w = .ok out ∧ isInteger out = true ∧ value out = value w ∧ (out.head? = some '0' → out = ['0']) := by
  obtain ⟨h1, h2, -⟩ := isInteger_iff.1 h
  have hd : ∀ c ∈ w, isBlank c = false ∧ isPunct c = false := by
    have hs : ∀ c ∈ "0123456789".toList, isBlank c = false ∧ isPunct c = false := by decide +kernel
    intro c hc
    exact hs c (by simpa [Spec.Js.isDigit] using h2 c hc)
  have hlex : lex w = [.word w] := by
    have : L [] [] (w ++ []) = L [] ([] ++ w) [] := by
      refine L_word w [] [] ?_
      rintro p c r hw
      have := hd c (by rw [List.nil_append] at hw; rw [hw]; simp)
      exact ⟨this.1, .inl this.2⟩
    rw [List.append_nil, List.nil_append, L_nil] at this
    unfold lex
    rw [show lexRev w = L [] [] w from rfl, this]
    unfold addWord
    cases w with
    | nil => exact absurd rfl h1
    | cons => rfl
  have hc : Closed w := by intro l hl; rw [hlex] at hl; simp at hl; subst hl; rfl
  have hsh : shorten (.word w) = .word (shortest w) := by simp [shorten, h]
  have ho : minimal (lex w) = shortest w := by
    unfold minimal
    rw [hlex]
    have : strip [Lexeme.word w] = [.word w] := rfl
    rw [this, List.map_cons, List.map_nil, hsh]
    simp [spaced, textOf, text]
  refine ⟨shortest w, by rw [minify_closed hc, ho], (shortest_ok h).1, (shortest_ok h).2.1, ?_⟩
  intro hz
  unfold shortest at hz ⊢
  have hne : ∀ l : List Char, (l.dropWhile (· == '0')).head? ≠ some '0' := by
    intro l
    induction l with
    | nil => simp
    | cons c l ih =>
      rw [List.dropWhile_cons]
      split
      · exact ih
      · rename_i hc; intro he; simp at he; exact hc (by simp [he])
  have := hne w
  generalize w.dropWhile (· == '0') = x at hz this
  cases x with
  | nil => rfl
  | cons c x => exact absurd hz this

example : numbers (lex sample) = [.inl 12, .inr "1.50".toList] ∧ isInteger "007".toList = true := by decide +kernel

/-! ## C44: the untouched token list -/

def C44_full : Prop := ∀ s ts, tokenize s = .ok ts → display ts = s

/-- C44 does not hold: comments are written without their delimiters, and integers in their shortest form. -/
theorem C44_full_false : ¬C44_full := by
  intro h
  have h1 : tokenize "a/*x*/b".toList = .ok [.other ['a'], .comment ['x'], .other ['b']] := by decide +kernel
  exact absurd (h _ _ h1) (by decide +kernel)

/-- A lexeme written without change: no comment, no superfluous zero, flags in the order `gi` without repetition. -/
def unchanged (l : Lexeme) : Bool :=
  (match l with
   | .comment _ => false
   | _ => true) && shorten l == l

/-- Lexemes and blanks as they are written. -/
private def Shown (l : Lexeme) : Prop := Solid l ∨ l = .blank ' ' ∨ l = .blank '\t' ∨ l = .blank '\n'

private theorem shown_text {l : Lexeme} (h : Shown l) : (tokOf l).display = text (shorten l) := by
  rcases h with h | rfl | rfl | rfl
  · exact display_tokOf h
  all_goals rfl

private theorem shown_gap {a b : Lexeme} (ha : Shown a) (hb : Shown b) :
    (spaceAfter (tokOf a) (some (tokOf b))).toList ++ (if spaceBefore (some (tokOf a)) (tokOf b) then [' '] else []) =
      if gap a b then [' '] else [] := by
  have blankB : ∀ rc : RChar, ∀ x : Token, (spaceAfter x (some (.char rc))).toList ++
      (if spaceBefore (some x) (.char rc) then [' '] else []) = [] := by
    intro rc x
    cases x <;> rfl
  have blankA : ∀ rc : RChar, ∀ x : Token, (spaceAfter (.char rc) (some x)).toList ++
      (if spaceBefore (some (.char rc)) x then [' '] else []) = [] := by
    intro rc x
    cases x with
    | keyword k => cases k <;> rfl
    | _ => rfl
  rcases hb with hb | hb
  · rcases ha with ha | ha
    · exact gap_eq ha hb
    · rcases ha with rfl | rfl | rfl
      · exact blankA .space _
      · exact blankA .tab _
      · exact blankA .backline _
  · have hg : ∀ c, gap a (.blank c) = false := by intro c; cases a <;> rfl
    rcases hb with rfl | rfl | rfl
    · rw [hg]; exact blankB .space _
    · rw [hg]; exact blankB .tab _
    · rw [hg]; exact blankB .backline _

private theorem shown_displayFrom : ∀ (ls : List Lexeme) (a : Lexeme) (prev : Option Token), Shown a → (∀ l ∈ ls, Shown l) →
    displayFrom prev ((a :: ls).map tokOf) =
      (if spaceBefore prev (tokOf a) then [' '] else []) ++ textOf (spaced ((a :: ls).map shorten))
  | [], a, prev, ha, _ => by
    have hsa : spaceAfter (tokOf a) none = none := by
      unfold spaceAfter; split <;> rfl
    simp only [List.map_cons, List.map_nil, displayFrom, List.head?_nil, hsa, spaced, textOf_cons, shown_text ha]
    simp [textOf]
  | b :: ls, a, prev, ha, h => by
    have ih := shown_displayFrom ls b (some (tokOf a)) (h b List.mem_cons_self) fun l hl => h l (List.mem_cons_of_mem _ hl)
    have hg := shown_gap ha (h b List.mem_cons_self)
    have hun : displayFrom prev ((a :: b :: ls).map tokOf) =
        (if spaceBefore prev (tokOf a) then [' '] else []) ++ (tokOf a).display ++
          (spaceAfter (tokOf a) (some (tokOf b))).toList ++ displayFrom (some (tokOf a)) ((b :: ls).map tokOf) := rfl
    rw [hun, ih, shown_text ha]
    simp only [List.map_cons, spaced, gap_shorten]
    simp only [List.append_assoc]
    congr 1
    rw [← List.append_assoc (spaceAfter _ _).toList, hg]
    split
    · simp [textOf_cons, text]
    · simp [textOf_cons]

private theorem spells_text {l : Lexeme} {t : List Char} (h : Spells l t) (hu : unchanged l = true) (hr : '\r' ∉ t) : text l = t := by
  cases h with
  | word => rfl
  | blank => rfl
  | «return» => exact absurd List.mem_cons_self hr
  | punct => rfl
  | str => rfl
  | regex => rfl
  | line => cases hu
  | block => cases hu
  | license => rfl

private theorem spellsAll_text {ls : List Lexeme} {s : List Char} (h : SpellsAll ls s) (hu : ∀ l ∈ ls, unchanged l = true)
    (hr : '\r' ∉ s) : textOf ls = s := by
  induction h with
  | nil => rfl
  | cons h1 h2 ih =>
    rw [textOf_cons, spells_text h1 (hu _ List.mem_cons_self) (fun hx => hr (List.mem_append_left _ hx)),
      ih (fun l hl => hu l (List.mem_cons_of_mem _ hl)) (fun hx => hr (List.mem_append_right _ hx))]

private theorem spellsAll_blank {ls : List Lexeme} {s : List Char} (h : SpellsAll ls s) {c : Char} (hc : Lexeme.blank c ∈ ls) :
    c ∈ s ∨ c = '\n' := by
  induction h with
  | nil => cases hc
  | cons h1 h2 ih =>
    rcases List.mem_cons.1 hc with rfl | hc
    · cases h1 with
      | blank => exact .inl (by simp)
      | «return» => exact .inr rfl
    · rcases ih hc with h | h
      · exact .inl (List.mem_append_right _ h)
      · exact .inr h

/-- C44, partial: if the source is closed, has no comments, no carriage returns, no superfluous zeros or flags, and `in` and
`instanceof` are preceded by a blank where the writer puts one, then the text of the untouched token list is the source.
Missing are all other sources; with comments or superfluous zeros the text differs. -/
theorem C44_reproduces_partial (s : List Char) (h : Closed s) (hu : ∀ l ∈ lex s, unchanged l = true) (hr : '\r' ∉ s)
    (hg : spaced (lex s) = lex s) : ∃ ts, tokenize s = .ok ts ∧ display ts = s := by
  refine ⟨_, tokenize_closed h, ?_⟩
  obtain ⟨hsp, -⟩ := lex_spells h
  have hshown : ∀ l ∈ lex s, Shown l := by
    intro l hl
    obtain ⟨ho, v, hv⟩ := closed_lex h l hl
    have hul := hu l hl
    cases l with
    | blank c =>
      right
      have hc : isBlank c = true := hv.1
      have hrn : c ≠ '\r' := by
        rintro rfl
        rcases spellsAll_blank hsp hl with hx | hx
        · exact hr hx
        · exact absurd hx (by decide)
      simp only [isBlank, Bool.or_eq_true, beq_iff_eq] at hc
      rcases hc with ((rfl | rfl) | rfl) | rfl
      · exact .inl rfl
      · exact .inr (.inl rfl)
      · exact .inr (.inr rfl)
      · exact absurd rfl hrn
    | comment b => cases hul
    | _ => exact .inl ⟨ho, rfl, v, hv⟩
  have hmap : (lex s).map shorten = lex s := by
    have : ∀ l ∈ lex s, shorten l = l := by
      intro l hl
      have := hu l hl
      unfold unchanged at this
      rw [Bool.and_eq_true, beq_iff_eq] at this
      exact this.2
    exact (List.map_congr_left this).trans (List.map_id _)
  have htext := spellsAll_text hsp hu hr
  have hd : display ((lex s).map tokOf) = textOf (spaced ((lex s).map shorten)) := by
    generalize lex s = ls at hshown
    cases ls with
    | nil => rfl
    | cons a ls =>
      unfold display
      rw [shown_displayFrom ls a none (hshown a List.mem_cons_self) fun l hl => hshown l (List.mem_cons_of_mem _ hl)]
      rfl
  rw [hd, hmap, hg, htext]

example : let s := "/*! l */\nvar a = /b/g;\n\tif (a in c) { return `t` + 12 / 1.5 }".toList
    (∀ l ∈ lex s, isOpen l = false ∧ unchanged l = true) ∧ '\r' ∉ s ∧ spaced (lex s) = lex s := by decide +kernel

/-! ## C53: minifying twice -/

def C53_full : Prop := ∀ s out, minify s = .ok out → minify out = .ok out

/-- C53 does not hold: `a / / b` becomes `a//b`, which becomes `a`. -/
theorem C53_full_false : ¬C53_full := by
  intro h
  have h1 : minify "a / / b".toList = .ok "a//b".toList := by decide +kernel
  exact absurd (h _ _ h1) (by decide +kernel)

/-- C53, partial: if the source is closed and its minified form `Readable`, minifying the output changes nothing. Missing are
the other sources. -/
theorem C53_idempotent_partial (s : List Char) (h : Closed s) (hs : Readable (lex s)) :
    ∃ out, minify s = .ok out ∧ minify out = .ok out := by
  refine ⟨_, minify_closed h, ?_⟩
  rw [minify_closed (closed_minimal h hs), minimal_idem h hs]

example : Closed sample ∧ Readable (lex sample) := sample_ok

/-! ## C54: size -/

def C54_full : Prop := ∀ s out, minify s = .ok out → blen out ≤ blen s

/-- C54 does not hold: a blank is put before `in`. -/
theorem C54_full_false : ¬C54_full := by
  intro h
  have h1 : minify "x=in b".toList = .ok "x= in b".toList := by decide +kernel
  exact absurd (h _ _ h1) (by decide +kernel)

/-- C54, partial: the output for a closed source is not larger than the source, apart from one byte for each `in` and
`instanceof`. Missing are sources that are not closed. -/
theorem C54_size_partial (s : List Char) (h : Closed s) :
    ∃ out, minify s = .ok out ∧ blen out ≤ blen s + (lex s).countP isWordOp :=
  ⟨_, minify_closed h, minimal_size h⟩

/-- The bound is reached, and the words are counted as they should be. -/
example : Closed "x=in b".toList ∧ (lex "x=in b".toList).countP isWordOp = 1 ∧ blen "x= in b".toList = blen "x=in b".toList + 1 := by
  unfold Closed
  decide +kernel

end Verif.Js
