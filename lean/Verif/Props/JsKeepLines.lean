import Verif.Proofs.EcmaLaid
import Verif.Props.JsKeep
/-!
# C75: clean_tokens_except keeps the line breaks that matter
-/
set_option linter.unusedSimpArgs false
namespace Verif.Js
open Spec.Js Spec.Ecma

/-- C75 as stated: if a script is cleaned with a callback that keeps line breaks and semicolons, and keeps its ECMAScript tokens, then line
breaks before which a statement may end and after which another one may begin are kept as well, and no others appear. -/
def C75_full : Prop := ∀ (f : Token → Bool) (goal : List Spec.Ecma.Tok → Bool) (s : List Char), (∀ b, f (.comment b) = true) →
  f (.char .backline) = false → f (.char .semiColon) = false → Closed s → (∀ t ∈ toks goal s, good t = true) →
  ∃ out, keptText f s = .ok out ∧ (toks goal out = toks goal s → lines usualRule goal out = lines usualRule goal s)

/-- The line break at the end of a comment is a part of the comment: two statements become `a=b c=d`, which is not a script. -/
theorem C75_full_false : ¬C75_full := by
  intro h
  obtain ⟨out, h1, h2⟩ := h keepBoth usual "a = b // c\nc = d".toList (fun _ => rfl) rfl rfl (by unfold Closed; decide +kernel)
    (List.all_eq_true.1 (by decide +kernel))
  have hm : keptText keepBoth "a = b // c\nc = d".toList = .ok "a=b c=d".toList := by decide +kernel
  rw [hm] at h1
  cases h1
  exact absurd (h2 (by decide +kernel)) (by decide +kernel)

/-- Further scripts that lose a line break. -/
theorem C75_full_false_more :
    ∀ p ∈ [("return // c\na", "return a"), ("a /*\n*/ ++b", "a++b"), ("f() // c\ng()", "f()g()"), ("f() /* c\n */ (g)()", "f()(g)()")],
      Closed p.1.toList ∧ (toks usual p.1.toList).all good = true ∧ keptText keepBoth p.1.toList = .ok p.2.toList ∧
        toks usual p.2.toList = toks usual p.1.toList ∧
        lines usualRule usual p.2.toList ≠ lines usualRule usual p.1.toList := by
  unfold Closed
  decide +kernel

/-- The callback of the documentation does not keep semicolons: those of empty statements are lost as well, and what is left is not a
script. -/
theorem C75_full_false_semi :
    ∀ p ∈ [("if (a) { while (b()); }", "if(a){while(b())}"), ("while (b());", "while(b())"), ("for (x of y)\n;", "for(x of y)\n")],
      Closed p.1.toList ∧ keptText keepLines p.1.toList = .ok p.2.toList ∧
        (toks usual p.1.toList).filter (· != .punct [';']) = toks usual p.2.toList ∧ .punct [';'] ∈ toks usual p.1.toList := by
  unfold Closed
  decide +kernel

private theorem bare_mem {ls : List Lexeme} {l : Lexeme} (h : l ∈ bare ls) : l = .blank ' ' ∨ l ∈ ls ∧ ∀ b, l ≠ .comment b := by
  obtain ⟨l', hl', rfl⟩ := List.mem_map.1 h
  cases l' with
  | comment b => exact .inl rfl
  | _ => exact .inr ⟨hl', by intro b h; cases h⟩

private theorem bare_layout {keep : Char → Bool} (hsp : keep ' ' = false) (ls : List Lexeme) : layout keep (bare ls) = layout keep ls := by
  induction ls with
  | nil => rfl
  | cons l ls ih =>
    unfold layout bare at ih ⊢
    rw [List.map_cons, List.filter_cons, List.filter_cons, ih]
    cases l with
    | comment b => simp [wanted, solid, hsp]
    | _ => rfl

private theorem spells_text : ∀ {ls : List Lexeme}, (∀ l ∈ ls, isOpen l = false ∧ ∀ b, l ≠ .comment b) → SpellsAll ls (textOf ls)
  | [], _ => .nil
  | l :: ls, h => by
    refine .cons ?_ (spells_text fun l hl => h l (List.mem_cons_of_mem _ hl))
    have h1 := h l List.mem_cons_self
    cases l with
    | comment b => exact absurd rfl (h1.2 b)
    | word w => exact .word w
    | blank c => exact .blank c
    | punct t => exact .punct t
    | str t => exact .str t
    | regex b fl => exact .regex b fl
    | license b => exact .license b
    | _ => cases h1.1

private theorem pruned_text {f : Token → Bool} {s : List Char} (hf : ∀ b, f (.comment b) = true) (h : Closed s)
    (hshort : ∀ l ∈ lex s, shorten l = l) :
    keptText f s = .ok (textOf (spaced (layout (keepOf f) (pruned (keepOf f) (!f (.char .semiColon)) (lex s))))) := by
  obtain ⟨ts, h1, h2⟩ := cleanExcept_text hf h
  unfold keptText
  rw [h1]
  simp only [Out.bind_ok]
  rw [h2, ← layout_pruned]
  congr 3
  exact (List.map_congr_left fun l hl => hshort l (pruned_mem l (List.mem_filter.1 hl).1)).trans (List.map_id _)

private theorem kept_text {f : Token → Bool} {s : List Char} (hf : ∀ b, f (.comment b) = true) (h : Closed s)
    (hshort : ∀ l ∈ lex s, shorten l = l)
    (hsemi : keptLayout (keepOf f) (!f (.char .semiColon)) (lex s) = layout (keepOf f) (lex s)) :
    keptText f s = .ok (textOf (spaced (layout (keepOf f) (lex s)))) := by
  rw [pruned_text hf h hshort, layout_pruned, hsemi]

/-- The tokens are kept, and no line break appears at a place where there was none, whatever the callback and the rule by which they matter, in
the scripts of C70 (with the blanks that are kept) of which no semicolon is left out. -/
theorem C75_no_new_partial (f : Token → Bool) (rule : List Spec.Ecma.Tok → Spec.Ecma.Tok → Bool) (goal : List Spec.Ecma.Tok → Bool)
    (s : List Char) (hf : ∀ b, f (.comment b) = true) (h : Closed s) (hodd : ∀ l ∈ lex s, oddComment l = false)
    (hshort : ∀ l ∈ lex s, shorten l = l)
    (hsemi : keptLayout (keepOf f) (!f (.char .semiColon)) (lex s) = layout (keepOf f) (lex s))
    (hfit : fits goal [] (piecesKeeping (keepOf f) (lex s)) = true) :
    ∃ out, keptText f s = .ok out ∧ toks goal out = toks goal s ∧
      ∀ p ∈ (lines rule goal out).zip (lines rule goal s), p.1.1 = true → p.2.1 = true := by
  obtain ⟨h1, h2⟩ := parts_layout goal (lex_spells h).1 (closed_lex h) hodd hfit
  exact ⟨_, kept_text hf h hshort hsemi, h1, (h2.marked [] false false id).2⟩

/-- The text has exactly the tokens and line breaks of the script with blanks in place of its comments, and without the semicolons that are left
out. -/
theorem C75_bare_partial (f : Token → Bool) (goal : List Spec.Ecma.Tok → Bool)
    (s : List Char) (hf : ∀ b, f (.comment b) = true) (hline : f (.char .backline) = false) (hsp : f (.char .space) = true) (h : Closed s)
    (hshort : ∀ l ∈ lex s, shorten l = l)
    (hfit : fits goal [] (piecesKeeping (keepOf f) (bare (pruned (keepOf f) (!f (.char .semiColon)) (lex s)))) = true) :
    ∃ out, keptText f s = .ok out ∧ parts goal out = parts goal (textOf (bare (pruned (keepOf f) (!f (.char .semiColon)) (lex s)))) := by
  refine ⟨_, pruned_text hf h hshort, ?_⟩
  have hk : keepOf f ' ' = false := by simp [keepOf, whiteChar, hsp]
  rw [← bare_layout hk]
  have hb : ∀ l ∈ bare (pruned (keepOf f) (!f (.char .semiColon)) (lex s)), isOpen l = false ∧ (∃ v, LexOk v l) ∧ ∀ b, l ≠ .comment b := by
    intro l hl
    rcases bare_mem hl with rfl | ⟨h1, h2⟩
    · exact ⟨rfl, ⟨[], by decide, by decide⟩, by intro b h; cases h⟩
    · exact ⟨(closed_lex h l (pruned_mem l h1)).1, (closed_lex h l (pruned_mem l h1)).2, h2⟩
  exact parts_kept goal (spells_text fun l hl => ⟨(hb l hl).1, (hb l hl).2.2⟩) (fun l hl => ⟨(hb l hl).1, (hb l hl).2.1⟩)
    (fun b hm => (hb _ hm).2.2 b rfl) (by simp [keepOf, whiteChar, hline]) hfit

/-- C75, the part that holds: in these scripts, if the comments can be replaced by blanks without a change (that is, no line break that matters is
in a comment, and no comment separates two tokens in another way than a blank) and no semicolon is left out, then the text means what the
script means. Missing: the scripts above, and those whose lexemes run into each other as in C70. -/
theorem C75_lines_partial (f : Token → Bool) (rule : List Spec.Ecma.Tok → Spec.Ecma.Tok → Bool) (goal : List Spec.Ecma.Tok → Bool)
    (s : List Char) (hf : ∀ b, f (.comment b) = true) (hline : f (.char .backline) = false) (hsp : f (.char .space) = true) (h : Closed s)
    (hshort : ∀ l ∈ lex s, shorten l = l)
    (hfit : fits goal [] (piecesKeeping (keepOf f) (bare (pruned (keepOf f) (!f (.char .semiColon)) (lex s)))) = true)
    (hbare : lines rule goal (textOf (bare (pruned (keepOf f) (!f (.char .semiColon)) (lex s)))) = lines rule goal s) :
    ∃ out, keptText f s = .ok out ∧ lines rule goal out = lines rule goal s := by
  obtain ⟨out, h1, h2⟩ := C75_bare_partial f goal s hf hline hsp h hshort hfit
  refine ⟨out, h1, ?_⟩
  rw [← hbare]
  unfold lines
  rw [h2]

/-- The same for callbacks that leave semicolons out: if the comments can be replaced by blanks, and the semicolons that are left out can be left
out, without a change other than semicolons at the beginning, before a closing brace and at the end, then the text does not differ from the
script in another way either. -/
theorem C75_semi_partial (f : Token → Bool) (rule : List Spec.Ecma.Tok → Spec.Ecma.Tok → Bool) (goal : List Spec.Ecma.Tok → Bool)
    (s : List Char) (hf : ∀ b, f (.comment b) = true) (hline : f (.char .backline) = false) (hsp : f (.char .space) = true) (h : Closed s)
    (hshort : ∀ l ∈ lex s, shorten l = l)
    (hfit : fits goal [] (piecesKeeping (keepOf f) (bare (pruned (keepOf f) (!f (.char .semiColon)) (lex s)))) = true)
    (hbare : needed (lines rule goal (textOf (bare (pruned (keepOf f) (!f (.char .semiColon)) (lex s))))) = needed (lines rule goal s)) :
    ∃ out, keptText f s = .ok out ∧ needed (lines rule goal out) = needed (lines rule goal s) := by
  obtain ⟨out, h1, h2⟩ := C75_bare_partial f goal s hf hline hsp h hshort hfit
  refine ⟨out, h1, ?_⟩
  rw [← hbare]
  unfold lines
  rw [h2]

private def sample : String :=
  "/*! lic */ // c\nfunction f ( a , /* d\n */ b ) {\n  if ( a in b ) {\n    return\r\n  }\n  x = a /* e */ + `a\nb`\n  // c\n  ++ x\n  for ( ; ; ) { }\n}\n\nf ( 1 )\n[ 1 ] . g ( )\n"

private def small : String :=
  "/*! lic */function f(a,b){\nif(a in b){\nreturn\n\n}\nx=a+`a\nb`\n++x\nfor(;;){}\n}\n\nf(1)\n[1].g()\n"

/-- Not vacuous, for the callback of the documentation, and for one that keeps semicolons; three line breaks matter. -/
example : ∀ f ∈ [keepLines, keepBoth], (∀ b, f (.comment b) = true) ∧ f (.char .backline) = false ∧ f (.char .space) = true ∧
    Closed sample.toList ∧ (∀ l ∈ lex sample.toList, oddComment l = false) ∧ (∀ l ∈ lex sample.toList, shorten l = l) ∧
    keptLayout (keepOf f) (!f (.char .semiColon)) (lex sample.toList) = layout (keepOf f) (lex sample.toList) ∧
    fits usual [] (piecesKeeping (keepOf f) (lex sample.toList)) = true ∧
    fits usual [] (piecesKeeping (keepOf f) (bare (pruned (keepOf f) (!f (.char .semiColon)) (lex sample.toList)))) = true ∧
    lines usualRule usual (textOf (bare (pruned (keepOf f) (!f (.char .semiColon)) (lex sample.toList)))) = lines usualRule usual sample.toList ∧
    keptText f sample.toList = .ok small.toList ∧ ((lines usualRule usual small.toList).filter (·.1)).length = 3 := by
  intro f hf
  refine ⟨?_, ?_⟩
  · simp only [List.mem_cons, List.not_mem_nil, or_false] at hf
    rcases hf with rfl | rfl <;> exact fun _ => rfl
  · unfold Closed
    revert f
    decide +kernel

private def semis : String :=
  ";\nfunction f ( a ) {\n  x = a ;\n  return /* d */ ( x ) ;  /* e */ }\nlet y = f ( 1 ) ;;\ny ++ ; // c\n"

private def noSemis : String := "\nfunction f(a){\nx=a;\nreturn(x)}\nlet y=f(1);;\ny++"

/-- Not vacuous, for the callback of the documentation; three semicolons are left out. -/
example : (∀ b, keepLines (.comment b) = true) ∧ keepLines (.char .backline) = false ∧ keepLines (.char .space) = true ∧
    Closed semis.toList ∧ (∀ l ∈ lex semis.toList, shorten l = l) ∧
    fits usual [] (piecesKeeping (keepOf keepLines) (bare (pruned (keepOf keepLines) false (lex semis.toList)))) = true ∧
    needed (lines usualRule usual (textOf (bare (pruned (keepOf keepLines) false (lex semis.toList))))) =
      needed (lines usualRule usual semis.toList) ∧
    keptText keepLines semis.toList = .ok noSemis.toList := by
  refine ⟨fun _ => rfl, ?_⟩
  unfold Closed
  decide +kernel

/-- A comment that ends with a carriage return and a line feed leaves the line feed. -/
example : keptText keepLines "f() // c\r\ng()".toList = .ok "f()\ng()".toList := by decide +kernel

end Verif.Js
