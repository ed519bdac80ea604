import Verif.Proofs.JsRename
import Verif.Proofs.JsKeep
/-!
# C90: scripts with words replaced
-/
set_option linter.unusedSimpArgs false
namespace Verif.Js
open Spec.Js Spec.JsAgg

/-- The text of a script whose words are replaced: `minify(s)?.apply(|f| replace_tokens_with(f, ..)).to_string()`, as in the documentation of
`replace_tokens_with`, src/js/utils.rs:85-115. -/
def renamedText (r : List Char → Option (List Char)) (s : List Char) : Out (List Char) := do
  let ts ← minifyTokens s
  .ok (display (replaceTokensWith (renamer r) ts))

/-- C90: a script in which names and keywords are replaced by identifiers is read as the script with these words renamed. -/
def C90_full : Prop := ∀ (s : List Char) (r : List Char → Option (List Char)), Closed s → Safe (lex s) →
  Names r →
  ∃ out, renamedText r s = .ok out ∧ strip (lex out) = ((strip (lex s)).map shorten).map (rename r)

/-- `in` gets a blank before it, another word after a number does not. -/
theorem C90_full_false : ¬C90_full := by
  intro h
  obtain ⟨out, h1, h2⟩ := h "1 in b".toList (fun w => if w = "in".toList then some ['N'] else none)
    (by unfold Closed; decide +kernel) (by unfold Safe; decide +kernel) (by
      intro w n hw
      dsimp only at hw
      split at hw
      · rename_i e
        subst e
        cases hw
        decide +kernel
      · cases hw)
  have h3 : renamedText (fun w => if w = "in".toList then some ['N'] else none) "1 in b".toList = .ok "1N b".toList := by decide +kernel
  rw [h3] at h1
  cases h1
  exact absurd h2 (by decide +kernel)

/-- A name after a regex can be taken for its flags. -/
theorem C90_flags_false :
    renamedText (fun w => if w = "null".toList then some ['g'] else none) "x=/a/ null".toList = .ok "x=/a/g".toList ∧
    strip (lex "x=/a/g".toList) ≠ ((strip (lex "x=/a/ null".toList)).map shorten).map
      (rename fun w => if w = "null".toList then some ['g'] else none) := by
  refine ⟨?_, ?_⟩ <;> decide +kernel

private theorem head_strip (ls : List Lexeme) : (strip ls).head? ≠ some (.punct [';']) := by
  unfold strip
  generalize ls.filter solid = us
  induction us with
  | nil => simp
  | cons l us ih =>
    rw [List.dropWhile_cons]
    split
    · exact ih
    · next h => intro e; cases e; exact h (by decide)

/-- What is written. -/
private theorem renamed_closed {r : List Char → Option (List Char)} (hr : Names r) {s : List Char} (h : Closed s) :
    renamedText r s = .ok (textOf (spaced (((strip (lex s)).map shorten).map (rename r)))) := by
  have hsol := strip_solid (closed_lex h)
  unfold renamedText minifyTokens
  rw [tokenize_closed h]
  simp only [Out.bind_ok]
  rw [clean_strip (closed_lex h), replaceTokensWith_map, List.map_map]
  have e : (strip (lex s)).map (replaceTokenWith (renamer r) ∘ tokOf) = ((strip (lex s)).map (rename r)).map tokOf := by
    rw [List.map_map]
    refine List.map_congr_left fun l hl => ?_
    obtain ⟨h1, -, v, h3⟩ := hsol l hl
    exact tokOf_rename hr h1 h3
  rw [e, display_eq (by
    intro l hl
    obtain ⟨l', hl', rfl⟩ := List.mem_map.1 hl
    exact solid_rename hr (hsol l' hl'))]
  rw [List.map_map, List.map_map]
  congr 3
  exact List.map_congr_left fun l _ => shorten_rename hr l

/-- What is proved: unless `in` or `instanceof` are replaced, or a new name looks like a flag of the regex before it, the text of a closed
script that can be read back is still one that can be read back after its words are replaced: as the stripped script with these words
renamed. Minifying it changes nothing. What is missing are these two cases, for which it is false by `C90_full_false` and
`C90_flags_false`. -/
theorem C90_text_partial (s : List Char) (r : List Char → Option (List Char)) (h : Closed s) (hs : Safe (lex s)) (hr : Renames r)
    (hf : unflagged r (strip (lex s)) = true) :
    ∃ out, renamedText r s = .ok out ∧ strip (lex out) = ((strip (lex s)).map shorten).map (rename r) ∧ Closed out ∧ Safe (lex out) ∧
      minify out = .ok out := by
  have hsol := strip_solid (closed_lex h)
  refine ⟨_, renamed_closed (names_of hr) h, ?_⟩
  generalize hL : ((strip (lex s)).map shorten).map (rename r) = L
  have hsolL : ∀ l ∈ L, Solid l := by
    intro l hl
    rw [← hL] at hl
    obtain ⟨l1, hl1, rfl⟩ := List.mem_map.1 hl
    obtain ⟨l2, hl2, rfl⟩ := List.mem_map.1 hl1
    obtain ⟨h1, h2, v, h3⟩ := hsol l2 hl2
    exact solid_rename (names_of hr) ⟨by rw [(shorten_class l2).2.1, h1], by rw [(shorten_class l2).1, h2], v, h3.shorten⟩
  have hp : Placed [] L := by
    rw [← hL]
    exact placed_rename (names_of hr) _ [] (Placed.shorten _ [] [] rfl (Placed.dropSemi _ [] rfl (Placed.filter _ [] [] rfl (placed_lex s))))
  have hsafe : safeFrom [] L = true := by
    rw [← hL]
    exact safeFrom_rename hr _ [] hs (unflagged_shorten hr _ hf)
  have hLs : L.map shorten = L := by
    rw [← hL, List.map_map, List.map_map, List.map_map]
    refine List.map_congr_left fun l _ => ?_
    show shorten (rename r (shorten l)) = rename r (shorten l)
    rw [shorten_rename (names_of hr), shorten_idem]
  have hlex := lex_spaced hp (fun l hl => ⟨(hsolL l hl).2.1, (hsolL l hl).1⟩) hsafe
  have hclosed : Closed (textOf (spaced L)) := by
    intro l hm
    rw [hlex] at hm
    rcases spaced_mem _ l hm with hm | rfl
    · exact (hsolL l hm).1
    · rfl
  have hstrip : strip (lex (textOf (spaced L))) = L := by
    rw [strip, hlex, filter_spaced _ fun l hl => (hsolL l hl).2.1]
    have hh := head_strip (lex s)
    cases hx : strip (lex s) with
    | nil => rw [hx] at hL; rw [← hL]; rfl
    | cons a us =>
      rw [hx] at hL hh
      rw [← hL]
      refine List.dropWhile_cons_of_neg ?_
      intro he
      have he : rename r (shorten a) = .punct [';'] := by simpa using he
      refine hh ?_
      cases a with
      | word w => simp only [shorten] at he; split at he <;> cases he
      | punct t => rw [show rename r (shorten (.punct t)) = .punct t from rfl] at he; rw [he]; rfl
      | _ => cases he
  refine ⟨hstrip, hclosed, ?_, ?_⟩
  · unfold Safe
    rw [hstrip, hLs]; exact hsafe
  · rw [minify_closed hclosed, minimal, hstrip, hLs]

/-- The script of the documentation, with other words replaced, too. -/
def renamedSample : List Char :=
  "function replaceByNull(data, func) {\n  for (var i = 0; i < data.length; ++i) {\n    if (func(data[i])) { data[i] = null; x = /a/g in data }\n  }\n  return null\n}".toList

def sampleNames (w : List Char) : Option (List Char) :=
  if w = "null".toList then some ['N'] else if w = "data".toList then some ['i', '_'] else none

theorem sampleNames_ok : Renames sampleNames := by
  intro w n h
  unfold sampleNames at h
  split at h
  · rename_i e; subst e; cases h; decide +kernel
  · split at h
    · rename_i e; subst e; cases h; decide +kernel
    · cases h

/-- Not vacuous. -/
example : Closed renamedSample ∧ Safe (lex renamedSample) ∧ unflagged sampleNames (strip (lex renamedSample)) = true ∧
    renamedText sampleNames renamedSample = .ok
      "function replaceByNull(i_,func){for(var i=0;i<i_.length;++i){if(func(i_[i])){i_[i]=N;x=/a/g in i_}}return N}".toList := by
  unfold Closed Safe
  refine ⟨?_, ?_, ?_, ?_⟩ <;> decide +kernel

/-- Exactly when the text is read as the renamed script (with blanks put in): if the renamed lexemes can be read back where they are
written. This is for all ways to rename names and keywords, and for all closed scripts, those that cannot be read back before included. -/
theorem C90_iff (s : List Char) (r : List Char → Option (List Char)) (h : Closed s) (hr : Names r) :
    (∃ out, renamedText r s = .ok out ∧ Spec.Js.Padded (((strip (lex s)).map shorten).map (rename r)) (lex out)) ↔
      readFrom [] (((strip (lex s)).map shorten).map (rename r)) = true := by
  have hsol := strip_solid (closed_lex h)
  have hp : Placed [] (((strip (lex s)).map shorten).map (rename r)) :=
    placed_rename hr _ [] (Placed.shorten _ [] [] rfl (Placed.dropSemi _ [] rfl (Placed.filter _ [] [] rfl (placed_lex s))))
  have hw : ∀ l ∈ ((strip (lex s)).map shorten).map (rename r), Inked l := by
    intro l hl
    obtain ⟨l1, hl1, rfl⟩ := List.mem_map.1 hl
    obtain ⟨l2, hl2, rfl⟩ := List.mem_map.1 hl1
    obtain ⟨h1, h2, v, h3⟩ := hsol l2 hl2
    obtain ⟨g1, g2, -⟩ := solid_rename hr (l := shorten l2)
      ⟨by rw [(shorten_class l2).2.1, h1], by rw [(shorten_class l2).1, h2], v, h3.shorten⟩
    exact ⟨plain_of ⟨g2, g1⟩, g1⟩
  constructor
  · rintro ⟨out, h1, h2⟩
    rw [renamed_closed hr h] at h1
    cases h1
    exact written_lex hp hw (lex_blanks hw (padded_blanks h2))
  · intro hs
    refine ⟨_, renamed_closed hr h, ?_⟩
    rw [lex_written hp hw hs]
    exact padded_spaced _

/-- Both cases occur: a script in which `in` is replaced can be read back, or not. -/
example : Names (fun w => if w = "in".toList then some ['N'] else none) ∧
    Closed "a in b / c".toList ∧ Closed "1 in b".toList ∧
    readFrom [] (((strip (lex "a in b / c".toList)).map shorten).map (rename fun w => if w = "in".toList then some ['N'] else none)) = true ∧
    readFrom [] (((strip (lex "1 in b".toList)).map shorten).map (rename fun w => if w = "in".toList then some ['N'] else none)) = false := by
  refine ⟨?_, ?_, ?_, ?_, ?_⟩
  · intro w n hw
    dsimp only at hw
    split at hw
    · rename_i e; subst e; cases hw; decide +kernel
    · cases hw
  · unfold Closed; decide +kernel
  · unfold Closed; decide +kernel
  · decide +kernel
  · decide +kernel

/-- Renaming back: if all words get their names back, then what is written is the minified script. -/
theorem C90_back_partial (s : List Char) (r r' : List Char → Option (List Char)) (h : Closed s) (hs : Safe (lex s)) (hr : Renames r)
    (hr' : Renames r') (hf : unflagged r (strip (lex s)) = true)
    (hb : ∀ w, Lexeme.word w ∈ lex s → ∀ n, r w = some n → r' n = some w)
    (hn : ∀ w, Lexeme.word w ∈ lex s → r w = none → r' w = none) :
    ∃ out, renamedText r s = .ok out ∧ renamedText r' out = minify s := by
  obtain ⟨out, h1, h2, h3, h4, -⟩ := C90_text_partial s r h hs hr hf
  refine ⟨out, h1, ?_⟩
  rw [renamed_closed (names_of hr') h3, minify_closed h, h2, minimal, List.map_map, List.map_map, List.map_map]
  congr 3
  refine List.map_congr_left fun l hl => ?_
  have hmem : l ∈ lex s := (List.mem_filter.1 ((List.dropWhile_suffix _).subset hl)).1
  show rename r' (shorten (rename r (shorten l))) = shorten l
  rw [shorten_rename (names_of hr), shorten_idem]
  cases l with
  | word w =>
    by_cases hi : isInteger w = true
    · have no : ∀ {r}, Renames r → r (shortest w) = none := by
        intro r hr
        cases hx : r (shortest w) with
        | none => rfl
        | some n =>
          have := (renames_name hr hx).1
          simp [isName, (shortest_ok hi).1] at this
      rw [show shorten (.word w) = .word (shortest w) by simp [shorten, hi], rename_none (no hr), rename_none (no hr')]
    · rw [show shorten (.word w) = .word w by simp [shorten, hi]]
      cases he : r w with
      | none => rw [rename_none he, rename_none (hn w hmem he)]
      | some n => rw [rename_some he, rename_some (hb w hmem n he)]
  | _ => rfl

/-- Not vacuous: two names are exchanged. -/
example : ∃ r : List Char → Option (List Char), Renames r ∧
    renamedText r "var a = b".toList = .ok "var b=a".toList ∧ (∀ w n, r w = some n → r n = some w) := by
  refine ⟨fun w => if w = ['a'] then some ['b'] else if w = ['b'] then some ['a'] else none, ?_, by decide +kernel, ?_⟩
  · intro w n h
    dsimp only at h
    split at h
    · rename_i e; subst e; cases h; decide +kernel
    · split at h
      · rename_i e; subst e; cases h; decide +kernel
      · cases h
  · intro w n h
    dsimp only at h ⊢
    split at h
    · rename_i e; subst e; cases h; decide
    · split at h
      · rename_i e; subst e; cases h; decide
      · cases h

/-- Replacing tokens before or after they are cleaned is the same, for all token lists and all callbacks that neither replace nor make
comments, blanks and semicolons. -/
theorem C90_order (f : Token → Option Token) (ts : List Token)
    (hf : ∀ t t', f t = some t' → (useless t = false ∧ t ≠ .char .semiColon) ∧ useless t' = false ∧ t' ≠ .char .semiColon) :
    cleanTokens (replaceTokensWith f ts) = replaceTokensWith f (cleanTokens ts) := by
  refine clean_replace (fun t t' h => ?_) ts
  have hl : ∀ t, useless t = false ∧ t ≠ .char .semiColon → looked t = false := by
    intro t ht
    have h1 : keepTok t = !useless t := by
      cases t with
      | char c => cases c <;> rfl
      | _ => rfl
    simp [looked, h1, ht.1, ht.2]
  exact ⟨hl t (hf t t' h).1, hl t' (hf t t' h).2⟩

/-- Not vacuous: every `renamer` is such a callback. -/
example (r : List Char → Option (List Char)) : ∀ t t', renamer r t = some t' →
    (useless t = false ∧ t ≠ .char .semiColon) ∧ useless t' = false ∧ t' ≠ .char .semiColon := by
  intro t t' h
  cases t with
  | keyword k =>
    obtain ⟨n, -, rfl⟩ := Option.map_eq_some_iff.1 (show (r k.display).map Token.other = some t' from h)
    exact ⟨⟨rfl, nofun⟩, rfl, nofun⟩
  | other w =>
    obtain ⟨n, -, rfl⟩ := Option.map_eq_some_iff.1 (show (r w).map Token.other = some t' from h)
    exact ⟨⟨rfl, nofun⟩, rfl, nofun⟩
  | _ => cases h

example : cleanTokens (replaceTokensWith (renamer sampleNames) [.char .semiColon, .keyword .kNull, .char .space, .comment [], .other ['x']]) =
    [.other ['N'], .other ['x']] := by decide +kernel

/-- The same for cleaning with a callback that says what is not needed, whatever it answers. Here no closing brace may be replaced or made
either, since a semicolon before it is left out. -/
theorem C90_order_except (f : Token → Bool) (g : Token → Option Token) (ts : List Token)
    (hg : ∀ t t', g t = some t' → (useless t = false ∧ t ≠ .char .semiColon ∧ t ≠ .char .closeCurly) ∧
      useless t' = false ∧ t' ≠ .char .semiColon ∧ t' ≠ .char .closeCurly) :
    cleanTokensExcept f (replaceTokensWith g ts) = replaceTokensWith g (cleanTokensExcept f ts) := by
  refine cleanExcept_replace (fun t t' h => ?_) f ts
  have hl : ∀ t, useless t = false ∧ t ≠ .char .semiColon ∧ t ≠ .char .closeCurly → watched t = false := by
    intro t ht
    have h1 : keepTok t = !useless t := by
      cases t with
      | char c => cases c <;> rfl
      | _ => rfl
    simp [watched, looked, h1, ht.1, ht.2.1, ht.2.2]
  exact ⟨hl t (hg t t' h).1, hl t' (hg t t' h).2⟩

/-- Not vacuous: with a closing brace it matters. -/
example : cleanTokensExcept (fun _ => true) (replaceTokensWith (renamer sampleNames) [.keyword .kNull, .char .semiColon, .char .closeCurly]) =
      [.other ['N'], .char .closeCurly] ∧
    cleanTokensExcept (fun _ => true) (replaceTokensWith (fun t => if t == .keyword .kNull then some (.char .closeCurly) else none)
        [.other ['a'], .char .semiColon, .keyword .kNull]) = [.other ['a'], .char .closeCurly] ∧
    replaceTokensWith (fun t => if t == .keyword .kNull then some (.char .closeCurly) else none)
        (cleanTokensExcept (fun _ => true) [.other ['a'], .char .semiColon, .keyword .kNull]) =
      [.other ['a'], .char .semiColon, .char .closeCurly] := by
  refine ⟨?_, ?_, ?_⟩ <;> decide +kernel

end Verif.Js
