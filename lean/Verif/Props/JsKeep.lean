import Verif.Proofs.JsKeep
/-!
# C74: the text of a script cleaned by clean_tokens_except
-/
set_option linter.unusedSimpArgs false
namespace Verif.Js
open Spec.Js

/-- The text written for a script that was cleaned with a callback, utils.rs:331-347. -/
def keptText (f : Token → Bool) (s : List Char) : Out (List Char) := do
  let ts ← tokenize s
  .ok (display (cleanTokensExcept f ts))

/-- C74 as stated: a reader of the written text finds the lexemes of the script and the blanks that the callback keeps, in the same order.
Semicolons may be missing at the beginning, before a closing brace and at the end; further blanks may have been put in. (A callback that
keeps comments is another matter: see C44.) -/
def C74_full : Prop := ∀ (f : Token → Bool) (s : List Char), (∀ b, f (.comment b) = true) → Closed s →
  ∃ out T, keptText f s = .ok out ∧ Trimmed true (layout (keepOf f) (lex s)) T ∧ Padded (T.map shorten) (lex out)

/-- The callback of the documentation, which keeps line breaks. -/
def keepLines (t : Token) : Bool := t != .char .backline

private theorem padded_solid {a b : List Lexeme} (h : Padded a b) : b.filter solid = a.filter solid := by
  induction h with
  | nil => rfl
  | @same l _ _ _ ih => rw [List.filter_cons, List.filter_cons, ih]
  | blank _ ih => rw [List.filter_cons_of_neg (by simp [solid]), ih]

private theorem trimmed_filter {z : Bool} {a b : List Lexeme} {p : Lexeme → Bool} (hp : p (.punct [';']) = false) (h : Trimmed z a b) :
    b.filter p = a.filter p := by
  induction h with
  | nil => rfl
  | @keep _ l _ _ _ ih => rw [List.filter_cons, List.filter_cons, ih]
  | first _ ih => rw [List.filter_cons_of_neg (by simp [hp]), ih]
  | brace _ ih => rw [List.filter_cons, List.filter_cons_of_neg (by simp [hp]), List.filter_cons, ih]
  | last => rw [List.filter_cons_of_neg (by simp [hp])]

/-- Not a semicolon. -/
private def other (l : Lexeme) : Bool := solid l && l != .punct [';']

/-- `a < =b` becomes `a<=b`. (That is no program; `x = a / /b/.c` below is one.) -/
theorem C74_full_false : ¬C74_full := by
  intro h
  obtain ⟨out, T, h1, h2, h3⟩ := h keepLines "a < =b".toList (fun _ => rfl) (by unfold Closed; decide +kernel)
  have hm : keptText keepLines "a < =b".toList = .ok "a<=b".toList := by decide +kernel
  rw [hm] at h1
  cases h1
  have h4 := padded_solid h3
  have h5 := congrArg List.length (trimmed_filter (p := other) (by decide) h2)
  have h6 : (lex "a<=b".toList).filter solid = [.word ['a'], .punct ['<', '='], .word ['b']] := by decide +kernel
  have h7 : ((layout (keepOf keepLines) (lex "a < =b".toList)).filter other).length = 4 := by decide +kernel
  rw [h6] at h4
  rw [h7] at h5
  have h8 : (T.filter other).length ≤ ((T.map shorten).filter solid).length := by
    rw [List.filter_map, List.length_map]
    have : T.filter other = (T.filter (solid ∘ shorten)).filter (· != .punct [';']) := by
      rw [List.filter_filter]
      refine List.filter_congr fun l _ => ?_
      rw [Function.comp, (shorten_class l).1, Bool.and_comm]
      rfl
    rw [this]
    exact List.length_filter_le _ _
  rw [← h4, h5] at h8
  exact absurd h8 (by decide)

/-- Further scripts: one that becomes a comment, and a number that swallows a dot. -/
theorem C74_full_false_more :
    ∀ p ∈ [("x = a / /b/.c", "x=a//b/.c"), ("x = 1. /*c*/ .y", "x=1..y")],
      Closed p.1.toList ∧ keptText keepLines p.1.toList = .ok p.2.toList ∧
        (lex p.2.toList).filter solid ≠ ((lex p.1.toList).filter solid).map shorten := by
  unfold Closed
  decide +kernel

/-- C74, the part that holds: if the lexemes of the script, written next to each other, cannot be read in another way, then the written text is
read as the script with the blanks that the callback keeps, with exactly the blanks of `spaced` put in. Missing: scripts in which leaving out
blanks or comments makes other lexemes, as above. -/
theorem C74_text_partial (f : Token → Bool) (s : List Char) (hf : ∀ b, f (.comment b) = true) (h : Closed s)
    (hs : readFrom [] ((keptLayout (keepOf f) (!f (.char .semiColon)) (lex s)).map shorten) = true) :
    ∃ out T, keptText f s = .ok out ∧ Trimmed true (layout (keepOf f) (lex s)) T ∧ Padded (T.map shorten) (lex out) ∧
      T = keptLayout (keepOf f) (!f (.char .semiColon)) (lex s) ∧ lex out = spaced (T.map shorten) := by
  obtain ⟨ts, h1, h2⟩ := cleanExcept_text hf h
  have h3 := lex_kept h hs
  refine ⟨textOf (spaced ((keptLayout (keepOf f) (!f (.char .semiColon)) (lex s)).map shorten)), _, ?_, trimmed_kept _ _ _, ?_, rfl, ?_⟩
  · unfold keptText
    rw [h1]
    simp only [Out.bind_ok]
    rw [h2]
  · rw [h3]
    exact padded_spaced _
  · exact h3

/-- Exactly which scripts are read as C74 demands: those whose lexemes can be read back where they are written (`readFrom`). -/
theorem C74_iff (f : Token → Bool) (s : List Char) (hf : ∀ b, f (.comment b) = true) (h : Closed s) :
    (∃ out, keptText f s = .ok out ∧ Padded ((keptLayout (keepOf f) (!f (.char .semiColon)) (lex s)).map shorten) (lex out)) ↔
      readFrom [] ((keptLayout (keepOf f) (!f (.char .semiColon)) (lex s)).map shorten) = true := by
  constructor
  · rintro ⟨out, h1, h2⟩
    obtain ⟨ts, h3, h4⟩ := cleanExcept_text hf h
    unfold keptText at h1
    rw [h3] at h1
    simp only [Out.bind_ok] at h1
    rw [h4] at h1
    cases h1
    exact kept_lex h (padded_blanks h2)
  · intro hs
    obtain ⟨out, T, h1, -, h2, rfl, -⟩ := C74_text_partial f s hf h hs
    exact ⟨out, h1, h2⟩

/-- Both cases occur: a division after `++` is read back, a division by a regex is not. -/
example : Closed "x = i++ / 2 ;\ny".toList ∧ Closed "x = a / /b/.c".toList ∧
    readFrom [] ((keptLayout (keepOf keepLines) (!keepLines (.char .semiColon)) (lex "x = i++ / 2 ;\ny".toList)).map shorten) = true ∧
    readFrom [] ((keptLayout (keepOf keepLines) (!keepLines (.char .semiColon)) (lex "x = a / /b/.c".toList)).map shorten) = false := by
  refine ⟨?_, ?_, ?_, ?_⟩ <;> first | (unfold Closed; decide +kernel) | decide +kernel

/-- If the callback keeps semicolons, the lexemes that matter are all there. If it does not keep spaces, those blanks that it keeps are there, and
no others of their kind. -/
theorem C74_same_partial (f : Token → Bool) (s : List Char) (hf : ∀ b, f (.comment b) = true) (hsemi : f (.char .semiColon) = false)
    (hsp : f (.char .space) = true) (h : Closed s) (hs : readFrom [] ((layout (keepOf f) (lex s)).map shorten) = true) :
    ∃ out, keptText f s = .ok out ∧ (lex out).filter (wanted (keepOf f)) = (layout (keepOf f) (lex s)).map shorten := by
  obtain ⟨out, T, h1, -, h3, h4, -⟩ := C74_text_partial f s hf h (by rw [hsemi]; exact hs)
  refine ⟨out, h1, ?_⟩
  have h5 : ∀ {a b : List Lexeme}, Padded a b → (∀ l ∈ a, wanted (keepOf f) l = true) → b.filter (wanted (keepOf f)) = a := by
    intro a b h
    induction h with
    | nil => intro _; rfl
    | same _ ih =>
      intro ha
      rw [List.filter_cons_of_pos (ha _ List.mem_cons_self), ih fun l hl => ha l (List.mem_cons_of_mem _ hl)]
    | blank _ ih =>
      intro ha
      rw [List.filter_cons_of_neg, ih ha]
      simp [wanted, keepOf, whiteChar, hsp]
  have h6 : T = layout (keepOf f) (lex s) := by rw [h4, hsemi]; rfl
  rw [← h6]
  refine h5 h3 ?_
  intro l hl
  obtain ⟨l', hl', rfl⟩ := List.mem_map.1 hl
  rw [h6] at hl'
  have := (List.mem_filter.1 hl').2
  cases l' with
  | word w => simp only [shorten]; split <;> rfl
  | _ => exact this

private def sample : String :=
  ";; // c\nvar a = 007 ;\n\nfunction f ( ) { return typeof a\r\n; }\n/*! l */ if ( a in b ) { x = /r/gg ; } ;"

/-- Not vacuous: line breaks are kept, and other blanks only where they are needed. -/
example : Closed sample.toList ∧ (∀ b, keepLines (.comment b) = true) ∧
    readFrom [] ((keptLayout (keepOf keepLines) (!keepLines (.char .semiColon)) (lex sample.toList)).map shorten) = true ∧
    keptText keepLines sample.toList = .ok "var a=7;\n\nfunction f(){return typeof a\n\n}\n/*! l */if(a in b){x=/r/g}".toList := by
  refine ⟨by unfold Closed; decide +kernel, fun _ => rfl, ?_, ?_⟩ <;> decide +kernel

/-- A callback that keeps line breaks and semicolons. -/
def keepBoth (t : Token) : Bool := t != .char .backline && t != .char .semiColon

/-- Not vacuous. -/
example : (∀ b, keepBoth (.comment b) = true) ∧ keepBoth (.char .semiColon) = false ∧ keepBoth (.char .space) = true ∧
    readFrom [] ((layout (keepOf keepBoth) (lex sample.toList)).map shorten) = true ∧
    keptText keepBoth sample.toList = .ok ";;var a=7;\n\nfunction f(){return typeof a\n\n;}\n/*! l */if(a in b){x=/r/g;};".toList := by
  refine ⟨fun _ => rfl, rfl, rfl, ?_, ?_⟩ <;> decide +kernel

end Verif.Js
