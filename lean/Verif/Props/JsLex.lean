import Verif.Proofs.JsRelex
/-!
# Properties of the JavaScript tokenizer (C23, C24, C25, C34)
-/
set_option linter.unusedSimpArgs false
namespace Verif.Js
open Spec.Js

/-! ## C23: termination -/

/-- C23: the tokenizer stops. Its loop is given `2 * n + 1` steps for a source of `n` characters (and each inner loop at
most as many); it never runs out of them, and more steps change nothing. -/
theorem C23_terminates (s : List Char) (extra : Nat) :
    tokLoop s (2 * s.length + 1) [] 0 { inner := indices s } ≠ noFuel ∧
    tokLoop s (2 * s.length + 1 + extra) [] 0 { inner := indices s } =
      tokLoop s (2 * s.length + 1) [] 0 { inner := indices s } ∧
    tokenize s = (tokLoop s (2 * s.length + 1) [] 0 { inner := indices s } >>= fun v => .ok v.reverse) := by
  have hlen : (indices s).length = s.length := by
    unfold indices
    generalize 0 = off
    induction s generalizing off with
    | nil => rfl
    | cons c s ih => simp [indicesFrom, ih]
  have hw : Peek.weight { inner := indices s } = 2 * s.length := by simp [Peek.weight, hlen]
  have h1 : tokLoop s (2 * s.length + 1) [] 0 { inner := indices s } ≠ noFuel :=
    tokLoop_good s _ [] 0 _ (by rw [hw]; exact Nat.lt_succ_self _)
  refine ⟨h1, ?_, ?_⟩
  · induction extra with
    | zero => rfl
    | succ k ih =>
      rw [← Nat.add_assoc, tokLoop_fuel, ih]
      rw [ih]; exact h1
  · unfold tokenize
    simp only [hw]

/-- C23 for the whole of `js::minify`. -/
theorem C23_minify_terminates (s : List Char) : minify s ≠ noFuel := by
  have h := tokenize_ne_noFuel s
  revert h
  unfold minify minifyTokens
  cases tokenize s with
  | ok ts => intro _ h; simp [noFuel] at h
  | err e => intro _ h; simp [noFuel, Bind.bind, Out.bind] at h
  | panic e => intro h1 h2; simp [noFuel, Bind.bind, Out.bind] at h1 h2; exact h1 h2

/-- Not vacuous: with too few steps the loop does run out of them. -/
example : tokLoop "a+b".toList 2 [] 0 { inner := indices "a+b".toList } = noFuel ∧
    tokLoop "a+b".toList 7 [] 0 { inner := indices "a+b".toList } =
      .ok [.other ['b'], .op .addition, .other ['a']] := by decide +kernel

/-! ## C24: panics -/

def C24_full : Prop := ∀ s msg, minify s ≠ .panic msg

/-- An end of a source that makes the tokenizer cut no character in two: a line comment without line break at its end begins
with an ASCII character, a block comment that is not closed ends in one, and there is no `openRegex`. -/
def harmlessEnd : Lexeme → Bool
  | .openRegex _ => false
  | .openLine r => r.head?.all (·.toNat < 128)
  | .openBlock r => r.getLast?.all (·.toNat < 128)
  | _ => true

def Harmless (s : List Char) : Prop := ∀ l ∈ lex s, harmlessEnd l = true

private theorem utf8Size_one {c : Char} : c.utf8Size = 1 ↔ c.toNat < 128 := by
  rw [Char.utf8Size_eq_one_iff, UInt32.le_iff_toNat_le]
  exact ⟨fun h => Nat.lt_succ_of_le h, fun h => Nat.le_of_lt_succ h⟩

private theorem minify_panic {s : List Char} {msg : String} (h : minify s = .panic msg) : tokenize s = .panic msg := by
  unfold minify minifyTokens at h
  cases ht : tokenize s with
  | ok ts => rw [ht] at h; simp at h
  | err e => rw [ht] at h; simp [Bind.bind, Out.bind] at h
  | panic e => rw [ht] at h; simpa [Bind.bind, Out.bind] using h

/-- C24, partial: no panic on a harmless source. Missing are the sources that are not `Harmless`, and some of those panic
(`C24_full_false`). -/
theorem C24_no_panic_partial (s : List Char) (h : Harmless s) (msg : String) : minify s ≠ .panic msg := by
  intro hp
  have ht := minify_panic hp
  rw [tokenize_eq s fun r hr => by have := h _ (List.mem_reverse.2 hr); cases this] at ht
  unfold Harmless lex at h
  generalize lexRev s = v at ht h
  unfold finish at ht
  split at ht
  · simp at ht
  · simp at ht
  · simp [Bind.bind, Out.bind] at ht
  · rename_i r v'
    cases r with
    | nil => simp at ht
    | cons c r =>
      simp only at ht
      have := h (.openLine (c :: r)) (by simp)
      rw [if_pos (utf8Size_one.2 (by simpa [harmlessEnd] using this))] at ht
      simp at ht
  · rename_i r v'
    have hl : (r.getLast?.getD ' ').utf8Size = 1 := by
      cases hr : r.getLast? with
      | none => rfl
      | some c =>
        have := h (.openBlock r) (by simp)
        exact utf8Size_one.2 (by simpa [harmlessEnd, hr] using this)
    rw [if_pos hl] at ht
    simp at ht
  · simp at ht

/-- C24, partial: in the absence of `openRegex` the condition is exact, since the only panics are those two. -/
theorem C24_panic_iff_partial (s : List Char) (h : ∀ r, Lexeme.openRegex r ∉ lex s) :
    (∃ msg, minify s = .panic msg) ↔
      (∃ c r v, lex s = v ++ [.openLine (c :: r)] ∧ 128 ≤ c.toNat) ∨
      (∃ c r v, lex s = v ++ [.openBlock (r ++ [c])] ∧ 128 ≤ c.toNat) := by
  have hmin : (∃ msg, minify s = .panic msg) ↔ ∃ msg, tokenize s = .panic msg := by
    constructor
    · rintro ⟨m, hm⟩; exact ⟨m, minify_panic hm⟩
    · rintro ⟨m, hm⟩
      exact ⟨m, by unfold minify minifyTokens; rw [hm]; rfl⟩
  rw [hmin, tokenize_eq s fun r hr => h r (List.mem_reverse.2 hr)]
  unfold lex
  have hrev : ∀ (l : Lexeme) (v u : List Lexeme), v.reverse = u ++ [l] ↔ v = l :: u.reverse := by
    intro l v u
    rw [List.reverse_eq_iff]; simp
  simp only [hrev]
  generalize lexRev s = v
  constructor
  · rintro ⟨m, hm⟩
    unfold finish at hm
    split at hm
    · simp at hm
    · simp at hm
    · simp [Bind.bind, Out.bind] at hm
    · rename_i r v'
      cases r with
      | nil => simp at hm
      | cons c r =>
        simp only at hm
        by_cases hc : c.utf8Size = 1
        · rw [if_pos hc] at hm; simp at hm
        · exact .inl ⟨c, r, v'.reverse, by simp, by have := mt utf8Size_one.2 hc; omega⟩
    · rename_i r v'
      by_cases hc : (r.getLast?.getD ' ').utf8Size = 1
      · rw [if_pos hc] at hm; simp at hm
      · cases hr : r.getLast? with
        | none => rw [hr] at hc; exact absurd rfl hc
        | some c =>
          obtain ⟨ys, rfl⟩ := List.getLast?_eq_some_iff.1 hr
          rw [hr] at hc
          exact .inr ⟨c, ys, v'.reverse, by simp, by have := mt utf8Size_one.2 hc; simp at this; omega⟩
    · simp at hm
  · rintro (⟨c, r, u, rfl, hc⟩ | ⟨c, r, u, rfl, hc⟩)
    · refine ⟨"slice", ?_⟩
      have : ¬ c.utf8Size = 1 := fun h => by have := utf8Size_one.1 h; omega
      simp only [finish]
      rw [if_neg this]; rfl
    · refine ⟨"slice", ?_⟩
      have : ¬ c.utf8Size = 1 := fun h => by have := utf8Size_one.1 h; omega
      simp only [finish, List.getLast?_append, List.getLast?_singleton, Option.some_or, Option.getD_some]
      rw [if_neg this]; rfl

/-- C24 is false: an unclosed comment that ends in a two-byte character, a line comment that begins with one, and a slash
after `++` taken for a regex that is never closed. -/
theorem C24_full_false : ¬C24_full ∧ minify "/*é".toList = .panic "slice" ∧ minify "//é".toList = .panic "slice" ∧
    (minify "x = i++ / 2.5 + \"a\"\n\"b\"".toList).isPanic = true := by
  have h : minify "/*é".toList = .panic "slice" := by decide +kernel
  exact ⟨fun hf => hf _ _ h, h, by decide +kernel, by decide +kernel⟩

/-- Not vacuous: sources with unclosed comments and strings that are harmless. -/
example : Harmless "var é = 'ü'; // é".toList ∧ Harmless "a = \"é".toList ∧ Harmless "/* é *".toList := by
  unfold Harmless
  decide +kernel

/-! ## C25: the tokens of a source -/

/-- The token that stands for a lexeme. -/
inductive Means : Lexeme → Token → Prop
  | keyword {w : List Char} {k : Keyword} : w ∈ keywords → k.display = w → Means (.word w) (.keyword k)
  | number {w : List Char} : w ∉ keywords → isInteger w = true → Means (.word w) (.number (value w))
  | float {w : List Char} : w ∉ keywords → isInteger w = false → isFloat w = true → Means (.word w) (.float w)
  | other {w : List Char} : w ∉ keywords → isInteger w = false → isFloat w = false → Means (.word w) (.other w)
  | blank {rc : RChar} : rc.isWhite = true → Means (.blank rc.toChar) (.char rc)
  | char {rc : RChar} : rc.isWhite = false → (∀ o : Op, o.display ≠ [rc.toChar]) → (∀ c : Cond, c.display ≠ [rc.toChar]) →
      Means (.punct [rc.toChar]) (.char rc)
  | op {o : Op} : Means (.punct o.display) (.op o)
  | cond {c : Cond} : Means (.punct c.display) (.cond c)
  | str {t : List Char} : Means (.str t) (.str t)
  | regex {b fl : List Char} {g i : Bool} : (g = true ↔ 'g' ∈ fl) → (i = true ↔ 'i' ∈ fl) → Means (.regex b fl) (.regex b g i)
  | comment {b : List Char} : Means (.comment b) (.comment b)
  | license {b : List Char} : Means (.license b) (.license b)

/-- The blanks that a reading yields: a carriage return is read as a line feed. -/
private theorem blanks_lex : ∀ (n : Nat) (v : List Lexeme) (w cs : List Char), (∀ c, Lexeme.blank c ∈ v → c ≠ '\r') →
    ∀ c, Lexeme.blank c ∈ lexFrom n v w cs → c ≠ '\r' := by
  intro n
  have addW : ∀ (v : List Lexeme) (w : List Char), (∀ c, Lexeme.blank c ∈ v → c ≠ '\r') →
      ∀ c, Lexeme.blank c ∈ addWord v w → c ≠ '\r' := by
    intro v w h c hc
    unfold addWord at hc
    split at hc
    · exact h c hc
    · exact h c (by simpa using hc)
  have addP : ∀ (v : List Lexeme) (x : Char), (∀ c, Lexeme.blank c ∈ v → c ≠ '\r') →
      ∀ c, Lexeme.blank c ∈ addPunct v x → c ≠ '\r' := by
    intro v x h c hc
    unfold addPunct at hc
    split at hc
    · split at hc
      · exact h c (by simp at hc; exact List.mem_cons_of_mem _ hc)
      · exact h c (by simpa using hc)
    · exact h c (by simpa using hc)
  have addC : ∀ (v : List Lexeme) (l : Lexeme), (∀ c, l = .blank c → c ≠ '\r') → (∀ c, Lexeme.blank c ∈ v → c ≠ '\r') →
      ∀ c, Lexeme.blank c ∈ l :: v → c ≠ '\r' := by
    intro v l hl h c hc
    rcases List.mem_cons.1 hc with hc | hc
    · exact hl c hc.symm
    · exact h c hc
  induction n with
  | zero => intro v w cs h; exact addW v w h
  | succ n ih =>
    intro v w cs h
    cases cs with
    | nil => exact addW v w h
    | cons x cs =>
      rw [lexFrom]
      split
      · exact ih _ _ _ h
      · split
        · refine ih _ _ _ (addC _ _ ?_ (addW v w h))
          intro c hc
          cases hc
          split
          · decide
          · assumption
        · split
          · exact ih _ _ _ h
          · have hu := addW v w h
            generalize addWord v w = u at hu
            simp only
            split
            · split
              · exact ih _ _ _ (addC _ _ (by intro c hc; cases hc) hu)
              · exact addC _ _ (by intro c hc; cases hc) hu
            · split
              · split
                · exact ih _ _ _ (addC _ _ (by intro c hc; cases hc) hu)
                · exact addC _ _ (by intro c hc; cases hc) hu
                · exact addC _ _ (by intro c hc; cases hc) hu
              · split
                · split
                  · exact addP u x hu
                  · split
                    · split
                      · exact ih _ _ _ (addC _ _ (by intro c hc; cases hc) hu)
                      · exact addC _ _ (by intro c hc; cases hc) hu
                    · split
                      · split
                        · refine ih _ _ _ (addC _ _ ?_ hu)
                          intro c hc
                          unfold blockLexeme at hc
                          split at hc <;> cases hc
                        · exact addC _ _ (by intro c hc; cases hc) hu
                      · split
                        · split
                          · exact ih _ _ _ (addC _ _ (by intro c hc; cases hc) hu)
                          · split
                            · exact ih _ _ _ (addC _ _ (by intro c hc; cases hc) hu)
                            · exact addC _ _ (by intro c hc; cases hc) hu
                        · exact ih _ _ _ (addP u x hu)
                · exact ih _ _ _ (addP u x hu)

private theorem means_punct : ∀ t ∈ puncts, Means (.punct t) (tokOf (.punct t)) := by
  intro t ht
  have h : ∀ t ∈ puncts, (∃ rc ∈ [RChar.comma, .openParen, .closeParen, .openCurly, .closeCurly, .openBracket, .closeBracket, .colon,
        .semiColon, .dot, .exclamationMark, .questionMark, .backslash, .pipe, .ampersand],
        tokOf (.punct t) = .char rc ∧ t = [rc.toChar]) ∨
      (∃ o ∈ [Op.addition, .additionEqual, .subtract, .subtractEqual, .multiply, .multiplyEqual, .divide, .divideEqual, .modulo,
        .moduloEqual, .equal], tokOf (.punct t) = .op o ∧ t = o.display) ∨
      (∃ c ∈ [Cond.and, .or, .differentThan, .superDifferentThan, .equalTo, .superEqualTo, .superiorThan, .superiorOrEqualTo,
        .inferiorThan, .inferiorOrEqualTo], tokOf (.punct t) = .cond c ∧ t = c.display) := by decide +kernel
  have hc : ∀ rc ∈ [RChar.comma, .openParen, .closeParen, .openCurly, .closeCurly, .openBracket, .closeBracket, .colon,
        .semiColon, .dot, .exclamationMark, .questionMark, .backslash, .pipe, .ampersand], rc.isWhite = false ∧
        [rc.toChar] ∉ [Op.addition, .additionEqual, .subtract, .subtractEqual, .multiply, .multiplyEqual, .divide, .divideEqual,
          .modulo, .moduloEqual, .equal].map Op.display ∧
        [rc.toChar] ∉ [Cond.and, .or, .differentThan, .superDifferentThan, .equalTo, .superEqualTo, .superiorThan, .superiorOrEqualTo,
        .inferiorThan, .inferiorOrEqualTo].map Cond.display := by decide +kernel
  rcases h t ht with ⟨rc, hm, h1, h2⟩ | ⟨o, -, h1, h2⟩ | ⟨c, -, h1, h2⟩
  · obtain ⟨h3, h4, h5⟩ := hc rc hm
    rw [h1, h2]
    refine .char h3 ?_ ?_
    · intro o ho; exact h4 (by rw [← ho]; exact List.mem_map_of_mem (by cases o <;> decide))
    · intro o ho; exact h5 (by rw [← ho]; exact List.mem_map_of_mem (by cases o <;> decide))
  · rw [h1, h2]; exact .op
  · rw [h1, h2]; exact .cond

private theorem means_tokOf {v : List Lexeme} {l : Lexeme} (h : LexOk v l) (ho : isOpen l = false) (hr : ∀ c, l = .blank c → c ≠ '\r') :
    Means l (tokOf l) := by
  cases l with
  | word w =>
    show Means (.word w) (wordToken w)
    rcases word_cases (WordOk.noSign h) with ⟨h1, k, h2, h3⟩ | ⟨h1, h2, h3⟩ | ⟨h1, h2, h3, h4⟩ | ⟨h1, h2, h3, h4⟩
    · rw [h2]; exact .keyword h1 h3
    · rw [h3]; exact .number h1 h2
    · rw [h4]; exact .float h1 h2 h3
    · rw [h4]; exact .other h1 h2 h3
  | blank c =>
    have hc : isBlank c = true := h.1
    have h1 := hr c rfl
    simp only [isBlank, Bool.or_eq_true, beq_iff_eq] at hc
    rcases hc with ((rfl | rfl) | rfl) | rfl
    · exact Means.blank (rc := .space) rfl
    · exact Means.blank (rc := .tab) rfl
    · exact Means.blank (rc := .backline) rfl
    · exact absurd rfl h1
  | punct t => exact means_punct t h
  | str t => exact .str
  | regex b fl => exact .regex (by simp) (by simp)
  | comment b => exact .comment
  | license b => exact .license
  | openStr _ => cases ho
  | openTemplate _ => cases ho
  | tooDeep => cases ho
  | openLine _ => cases ho
  | openBlock _ => cases ho
  | openRegex _ => cases ho

/-- A lexeme means one token only. -/
theorem Means.unique {l : Lexeme} {t t' : Token} (h : Means l t) (h' : Means l t') : t = t' := by
  have hk : ∀ k k' : Keyword, k.display = k'.display → k = k' := by
    have : ∀ k : Keyword, Keyword.ofStr k.display = some k := by intro k; cases k <;> decide +kernel
    intro k k' h
    have h1 := this k
    rw [h, this k'] at h1
    exact (Option.some.inj h1).symm
  by_cases hw : ∃ w, l = .word w
  · obtain ⟨w, rfl⟩ := hw
    cases h with
    | keyword h1 h2 =>
      cases h' with
      | keyword h3 h4 => rw [hk _ _ (h2.trans h4.symm)]
      | number h3 | float h3 | other h3 => exact absurd h1 h3
    | number h1 h2 =>
      cases h' with
      | keyword h3 h4 => exact absurd h3 h1
      | number => rfl
      | float h3 h4 | other h3 h4 => rw [h2] at h4; cases h4
    | float h1 h2 h3 =>
      cases h' with
      | keyword h4 => exact absurd h4 h1
      | number h4 h5 => rw [h2] at h5; cases h5
      | float => rfl
      | other h4 h5 h6 => rw [h3] at h6; cases h6
    | other h1 h2 h3 =>
      cases h' with
      | keyword h4 => exact absurd h4 h1
      | number h4 h5 => rw [h2] at h5; cases h5
      | float h4 h5 h6 => rw [h3] at h6; cases h6
      | other => rfl
  · have hr : ∀ a b : RChar, a.toChar = b.toChar → a = b := by
      have : ∀ a : RChar, RChar.ofChar a.toChar = some a := by intro a; cases a <;> rfl
      intro a b h
      have h1 := this a
      rw [h, this b] at h1
      exact (Option.some.inj h1).symm
    have hop : ∀ o : Op, tokOf (.punct o.display) = .op o := by intro o; cases o <;> rfl
    have hcd : ∀ c : Cond, tokOf (.punct c.display) = .cond c := by intro c; cases c <;> rfl
    cases h with
    | keyword | number | float | other => exact absurd ⟨_, rfl⟩ hw
    | blank hb =>
      generalize hl : Lexeme.blank _ = l at h'
      cases h' with
      | blank => simp only [Lexeme.blank.injEq] at hl; rw [hr _ _ hl]
      | _ => cases hl
    | char hb ho hc =>
      generalize hl : Lexeme.punct _ = l at h'
      cases h' with
      | char => simp only [Lexeme.punct.injEq, List.cons.injEq, and_true] at hl; rw [hr _ _ hl]
      | op => simp only [Lexeme.punct.injEq] at hl; exact absurd hl.symm (ho _)
      | cond => simp only [Lexeme.punct.injEq] at hl; exact absurd hl.symm (hc _)
      | _ => cases hl
    | op =>
      generalize hl : Lexeme.punct _ = l at h'
      cases h' with
      | char hb ho hc => simp only [Lexeme.punct.injEq] at hl; exact absurd hl (ho _)
      | op => rw [← hop, ← hop, hl]
      | cond => rw [← hop, ← hcd, hl]
      | _ => cases hl
    | cond =>
      generalize hl : Lexeme.punct _ = l at h'
      cases h' with
      | char hb ho hc => simp only [Lexeme.punct.injEq] at hl; exact absurd hl (hc _)
      | op => rw [← hop, ← hcd, hl]
      | cond => rw [← hcd, ← hcd, hl]
      | _ => cases hl
    | str => cases h'; rfl
    | regex h1 h2 =>
      cases h' with
      | regex h3 h4 =>
        have e1 := Bool.eq_iff_iff.2 (h1.trans h3.symm)
        have e2 := Bool.eq_iff_iff.2 (h2.trans h4.symm)
        rw [e1, e2]
    | comment => cases h'; rfl
    | license => cases h'; rfl

/-- C25: for every source whose literals and comments are closed, `js::tokenize` returns one token for each lexeme of the
source, in order, and it is the token that stands for that lexeme (`Means.unique`: there is only one). -/
theorem C25_refines (s : List Char) (h : Closed s) :
    ∃ ts, tokenize s = .ok ts ∧ ts.length = (lex s).length ∧ ∀ p ∈ (lex s).zip ts, Means p.1 p.2 := by
  refine ⟨_, tokenize_closed h, by simp, ?_⟩
  have hb : ∀ c, Lexeme.blank c ∈ lex s → c ≠ '\r' := by
    intro c hc
    exact blanks_lex _ [] [] s (by simp) c (List.mem_reverse.1 hc)
  have hl := closed_lex h
  generalize lex s = ls at hb hl
  induction ls with
  | nil => intro p hp; cases hp
  | cons l ls ih =>
    obtain ⟨ho, v, hv⟩ := hl l List.mem_cons_self
    intro p hp
    rw [List.map_cons, List.zip_cons_cons] at hp
    rcases List.mem_cons.1 hp with rfl | hp
    · exact means_tokOf hv ho fun c hc => hb c (by rw [← hc]; exact List.mem_cons_self)
    · exact ih (fun c hc => hb c (List.mem_cons_of_mem _ hc)) (fun x hx => hl x (List.mem_cons_of_mem _ hx)) p hp

/-- Not vacuous: a closed source with every kind of lexeme. -/
example : Closed "/*! l */ var r = /[a]b/gi, t = `x${`y`}z`; // c\nif (r >= 1.5 && t !== \"\\\"\") f(010)".toList ∧
    lex "/*! l */ r = /b/gi; // c\n 1.5 >= 'x'".toList =
      [.license " l ".toList, .blank ' ', .word ['r'], .blank ' ', .punct ['='], .blank ' ', .regex ['b'] "gi".toList, .punct [';'],
       .blank ' ', .comment " c".toList, .blank ' ', .word "1.5".toList, .blank ' ', .punct ">=".toList, .blank ' ',
       .str "'x'".toList] := by
  unfold Closed
  decide +kernel

/-! ## C34: the depth of template literals -/

/-- C34, partial (missing: the sources with an `openRegex`): for sources without `openRegex`, `js::minify` fails exactly if a template literal of the source is nested more than
1000 levels deep inside another. -/
theorem C34_err_iff_partial (s : List Char) (h : ∀ r, Lexeme.openRegex r ∉ lex s) :
    (∃ e, minify s = .err e) ↔ (lex s).getLast? = some .tooDeep := by
  have hmin : (∃ e, minify s = .err e) ↔ ∃ e, tokenize s = .err e := by
    unfold minify minifyTokens
    cases tokenize s with
    | ok ts => simp
    | err e => simp [Bind.bind, Out.bind]
    | panic e => simp [Bind.bind, Out.bind]
  rw [hmin, tokenize_eq s fun r hr => h r (List.mem_reverse.2 hr)]
  unfold lex
  rw [List.getLast?_reverse]
  generalize lexRev s = v
  constructor
  · rintro ⟨e, he⟩
    unfold finish at he
    split at he
    · simp at he
    · simp at he
    · rfl
    · rename_i r v'
      cases r with
      | nil => simp at he
      | cons c r =>
        simp only at he
        split at he
        · simp at he
        · simp [Bind.bind, Out.bind] at he
    · split at he
      · simp at he
      · simp [Bind.bind, Out.bind] at he
    · simp at he
  · intro hv
    cases v with
    | nil => cases hv
    | cons l v =>
      simp only [List.head?_cons, Option.some.injEq] at hv
      subst hv
      exact ⟨_, rfl⟩

/-- `n` template literals inside one another, without the first quote. -/
def nestBody : Nat → List Char
  | 0 => ['`']
  | n + 1 => '$' :: '{' :: '`' :: (nestBody n ++ ['}', '`'])

/-- `n` template literals inside a template literal. -/
def nest (n : Nat) : List Char := '`' :: nestBody n

private theorem closeTemplate_nest (L : Nat) : ∀ (n : Nat) (st : List Nat) (r : List Char),
    closeTemplate L (.text st) (nestBody n ++ r) =
      if L < st.length + n ∧ n ≠ 0 then .tooDeep
      else match st with
        | [] => .closed (nestBody n) r
        | m :: st => pre (nestBody n) (closeTemplate L (.code m st) r) := by
  intro n
  induction n with
  | zero =>
    intro st r
    rw [if_neg (by simp)]
    show closeTemplate L (.text st) ('`' :: r) = _
    rw [ct_text _ _ _ (by decide), if_neg (by simp), if_pos rfl]
    cases st with
    | nil => rfl
    | cons m st => simp only [nestBody]; exact cons_eq_pre _ _
  | succ n ih =>
    intro st r
    have hs : nestBody (n + 1) ++ r = '$' :: '{' :: '`' :: (nestBody n ++ ('}' :: '`' :: r)) := by simp [nestBody]
    rw [hs, ct_text _ _ _ (by decide), if_pos (by simp), ct_code _ _ _ _ (by decide), if_neg (by decide), if_neg (by decide),
      if_pos rfl, ct_code _ _ _ _ (by decide), if_neg (by decide), if_pos rfl]
    by_cases h1 : L ≤ st.length
    · rw [if_pos h1, if_pos ⟨by omega, by simp⟩]; rfl
    · rw [if_neg h1, ih]
      by_cases h2 : L < ((0 + 1) :: st).length + n ∧ n ≠ 0
      · rw [if_pos h2]
        simp only [List.length_cons] at h2
        rw [if_pos (show L < st.length + (n + 1) ∧ n + 1 ≠ 0 from ⟨by omega, by simp⟩)]; rfl
      · rw [if_neg h2]
        simp only [List.length_cons] at h2
        rw [if_neg (show ¬(L < st.length + (n + 1) ∧ n + 1 ≠ 0) by omega)]
        simp only
        rw [ct_code _ _ _ _ (by decide), if_neg (by decide), if_neg (by decide), if_neg (by decide), if_pos rfl, if_pos rfl,
          ct_text _ _ _ (by decide), if_neg (by simp), if_pos rfl]
        cases st with
        | nil => simp [nestBody, pre, Close.cons]
        | cons m st =>
          simp only
          cases closeTemplate L (.code m st) r <;> simp [nestBody, pre, Close.cons]

private theorem lex_nest (n : Nat) : lex (nest n) = if 1000 < n then [.tooDeep] else [.str (nest n)] := by
  have h := closeTemplate_nest maxNesting n [] []
  rw [List.append_nil] at h
  have hm : maxNesting = 1000 := rfl
  have hun : lexRev (nest n) = match closeTemplate maxNesting (.text []) (nestBody n) with
        | .closed t cs => lexFrom (nest n).length [.str ('`' :: t)] [] cs
        | .unclosed => [.openTemplate (nestBody n)]
        | .tooDeep => [.tooDeep] := by
    unfold lexRev nest
    rw [lexFrom, if_neg (by rintro ⟨h, -⟩; exact absurd h (by decide)), if_neg (by decide), if_neg (by decide)]
    simp only
    rw [if_neg (by decide), if_pos (by decide)]
    rfl
  unfold lex
  rw [hun, h]
  simp only [List.length_nil, hm]
  by_cases h1 : 1000 < n
  · rw [if_pos (show 1000 < 0 + n ∧ n ≠ 0 by omega), if_pos h1]; rfl
  · rw [if_neg (show ¬(1000 < 0 + n ∧ n ≠ 0) by omega), if_neg h1]
    simp only [nest, List.length_cons]
    rfl

/-- C34 on the literals nested `n` levels deep: accepted, and kept, up to 1000 levels and rejected from 1001 on. -/
theorem C34_nest (n : Nat) :
    (n ≤ 1000 → minify (nest n) = .ok (nest n)) ∧ (1000 < n → minify (nest n) = .err "Too nested backtick (`) string") := by
  have hl := lex_nest n
  constructor
  · intro h
    rw [if_neg (by omega)] at hl
    rw [minify_closed (by unfold Closed; rw [hl]; simp [isOpen]), hl]
    show Out.ok (textOf (spaced [.str (nest n)])) = .ok (nest n)
    simp [spaced, textOf, text]
  · intro h
    rw [if_pos h] at hl
    have hr : lexRev (nest n) = [.tooDeep] := by
      have := congrArg List.reverse hl
      unfold lex at this
      simpa using this
    unfold minify minifyTokens
    rw [tokenize_eq _ (by rw [hr]; simp), hr]
    rfl

/-- A source that meets the hypothesis of `C34_err_iff_partial`, with a division and a template literal. -/
example : (∀ r, Lexeme.openRegex r ∉ lex "a = b / c; d = `e ${`f`}`".toList) ∧
    (lex "a = b / c; d = `e ${`f`}`".toList).getLast? = some (.str "`e ${`f`}`".toList) := by
  have h : (lex "a = b / c; d = `e ${`f`}`".toList).all (fun x => match x with | .openRegex _ => false | _ => true) = true := by
    decide +kernel
  exact ⟨fun r hr => by simpa using List.all_eq_true.1 h _ hr, by decide +kernel⟩

/-- Not vacuous. -/
example : nest 2 = "`${`${``}`}`".toList ∧ lex (nest 2) = [.str (nest 2)] := by decide +kernel

end Verif.Js
