import Verif.Props.JsArrText
import Verif.Proofs.JsSize
/-!
# A second aggregation of the written script into an array (C86)
-/
set_option linter.unusedSimpArgs false
namespace Verif.Js
open Spec.Js Spec.JsAgg

/-- The full statement: if a script is aggregated into an array and written, then aggregating the text again changes no lexeme. -/
def C86_full : Prop := ∀ (s name one : List Char), Closed s → Safe (lex s) → identifier name = true →
  cleanedArrayText s name (fun _ => true) = .ok one → ∃ two, cleanedArrayText one name (fun _ => true) = .ok two ∧
    (lex two).filter solid = (lex one).filter solid

/-- A literal in single quotes that contains double quotes is written as two literals and a piece of script, which has literals. -/
theorem C86_full_false : ¬C86_full := by
  intro h
  let s := "f('\"];g(\"abcdefgh\",\"abcdefgh\");[\"','\"];g(\"abcdefgh\",\"abcdefgh\");[\"')".toList
  let one := "var R=[\"\"];g(\"abcdefgh\",\"abcdefgh\");[\"\"];f(R[0],R[0])".toList
  let two := "var R=[\"\",\"abcdefgh\"];g(R[1],R[1]);[R[0]];f(R[0],R[0])".toList
  have h1 : cleanedArrayText s ['R'] (fun _ => true) = .ok one := by decide +kernel
  have h2 : cleanedArrayText one ['R'] (fun _ => true) = .ok two := by decide +kernel
  obtain ⟨x, h3, h4⟩ := h s ['R'] one (by unfold Closed; decide +kernel) (by unfold Safe; decide +kernel) (by decide +kernel) h1
  rw [h2] at h3
  cases h3
  exact absurd h4 (by decide +kernel)

/-- What is read of groups that were written. -/
private theorem read_again {name : List Char} {G : List Group} {L : List Lexeme} (h : Regroup name G L) :
    Closed (display (G.map Prod.fst)) ∧ (lex (display (G.map Prod.fst))).filter solid = L := by
  obtain ⟨hw, hl, rfl, hp, hs, hsafe, -⟩ := h
  refine ⟨?_, lex_groups hw hl hp hs hsafe⟩
  obtain ⟨ls, h1, h2⟩ := display_padded hw hl
  have := relex ls [] [] (h1.placed _ hp) (h1.plain hs) rfl (h1.safe _ hsafe) (by intro t v' hv; cases hv)
  have e : lex (textOf (spaced ls)) = spaced ls := by
    show (L [] [] (textOf (spaced ls))).reverse = _
    rw [this]; simp
  intro l hl
  rw [h2, e] at hl
  rcases spaced_mem _ l hl with hl | rfl
  · have hp := h1.plain hs l hl
    cases l <;> first | rfl | (simp [plain, solid, isOpen] at hp)
  · rfl

private theorem again_tokens {name : List Char} : ∀ {G : List Group}, (∀ g ∈ G, Again name g) →
    ((G.flatMap Prod.snd).map shorten).map tokOf = (G.map Prod.fst).flatMap (reread name)
  | [], _ => rfl
  | g :: G, h => by
    rw [List.flatMap_cons, List.map_append, List.map_append, again_tokens fun g hg => h g (List.mem_cons_of_mem _ hg), h g List.mem_cons_self]
    rfl

/-- Nothing but a semicolon is read as a semicolon. -/
private theorem reread_semi {name : List Char} {t : Token} {l : List Token} (h : reread name t = .char .semiColon :: l) :
    t = .char .semiColon := by
  cases t with
  | createdVarDecl s => simp [reread] at h
  | createdVar s =>
    simp only [reread] at h
    split at h <;> simp at h
  | _ => simp only [reread, List.cons.injEq] at h; exact h.1

/-- What is proved: if the text that is written is read as it was meant, see C73, then aggregating it again changes no lexeme. There may be
a blank less after a `]` before `in` and `instanceof`, and the third run changes nothing. The number of digits of the indices does not
matter, other than in C85, because the array is found. What is missing are the scripts that are written wrongly, `C86_full_false`. -/
theorem C86_text_partial (s name : List Char) (h : Closed s) (hs : Safe (lex s)) (hname : identifier name = true)
    (hl : LooseArray (strip (lex s))) (hq : Quotable (lex s)) :
    ∃ one two, cleanedArrayText s name (fun _ => true) = .ok one ∧ Closed one ∧ Safe (lex one) ∧
      cleanedArrayText one name (fun _ => true) = .ok two ∧ minify one = .ok two ∧ (lex two).filter solid = (lex one).filter solid ∧
      cleanedArrayText two name (fun _ => true) = .ok two := by
  have hn := name_identifier hname
  have hsol := strip_solid (closed_lex h)
  obtain ⟨out, G, L, h1, hclean, h4, h5⟩ := cleaned_regroup s name (fun _ => true) h hs hname hl hq
  obtain ⟨out', h6, h7⟩ := array_again ((strip (lex s)).map tokOf) name none none hn.noQuote (tokens_quoted h) (by
      intro t ht
      obtain ⟨l, hl, rfl⟩ := List.mem_map.1 ht
      exact reread_tokOf name (hsol l hl)) (by intro t h; cases h)
  rw [h1] at h6
  cases h6
  obtain ⟨c1, c2⟩ := read_again h5
  rw [← h4] at c1 c2
  have htok : L.map tokOf = out.flatMap (reread name) := by
    rw [h4, ← again_tokens h5.again, h5.lexemes]
  have hLs : L.map shorten = L := by
    rw [← h5.lexemes, List.map_map]
    congr 1
    funext l
    exact shorten_idem l
  have hstrip : strip (lex (display out)) = L := by
    rw [strip, c2]
    cases hL : L with
    | nil => rfl
    | cons l L' =>
      refine List.dropWhile_cons_of_neg ?_
      intro he
      have hl : l = .punct [';'] := by simpa using he
      subst hl
      have e1 : out.flatMap (reread name) = .char .semiColon :: L'.map tokOf := by rw [← htok, hL]; rfl
      cases hout : out with
      | nil => rw [hout] at e1; cases e1
      | cons t out' =>
        have hne : ∃ u r, reread name t = u :: r := by
          cases t with
          | createdVar x => simp only [reread]; split <;> exact ⟨_, _, rfl⟩
          | _ => exact ⟨_, _, rfl⟩
        obtain ⟨u, r, hr⟩ := hne
        rw [hout, List.flatMap_cons, hr, List.cons_append] at e1
        injection e1 with e1 _
        subst e1
        have ht := reread_semi hr
        rw [hout, ht, cleanTokens_eq, List.filter_cons_of_pos rfl, List.dropWhile_cons_of_pos (by rfl)] at hclean
        have h8 := (List.dropWhile_sublist (l := out'.filter keepTok) (· == Token.char .semiColon)).length_le
        have h9 := (List.filter_sublist (l := out') (p := keepTok)).length_le
        rw [hclean] at h8
        simp only [List.length_cons] at h8
        omega
  have hsafe : Safe (lex (display out)) := by
    unfold Safe
    rw [hstrip, hLs]
    exact h5.safe
  have hread := safe_readable hsafe
  have hlex2 := lex_readable c1 hread
  have hcl2 := closed_minimal c1 hread
  rw [hstrip, hLs] at hlex2
  have hmin : minimal (lex (display out)) = display (L.map tokOf) := by
    rw [display_eq h5.solid, hLs]
    unfold minimal
    rw [hstrip, hLs]
  have hrun : ∀ x, Closed x → strip (lex x) = L → cleanedArrayText x name (fun _ => true) = .ok (display (L.map tokOf)) := by
    intro x hx hst
    unfold cleanedArrayText
    rw [tokenize_closed hx]
    simp only [Out.bind_ok]
    rw [clean_strip (closed_lex hx), hst, htok, h7]
    rfl
  refine ⟨display out, display (L.map tokOf), ?_, c1, hsafe, hrun _ c1 hstrip, ?_, ?_, ?_⟩
  · unfold cleanedArrayText
    rw [tokenize_closed h]
    simp only [Out.bind_ok, clean_strip (closed_lex h), h1]
  · rw [minify_closed c1, hmin]
  · rw [c2, ← hmin, hlex2, filter_spaced_solid]
    exact List.filter_eq_self.2 fun l hl => (h5.solid l hl).2.1
  · rw [← hmin]
    rw [hrun _ hcl2, hmin]
    rw [hlex2]
    have := strip_minimal (lex (display out))
    rwa [hstrip, hLs] at this

private def elevenSource : String := "f('aaaaaa','aaaaaa','bbbbbb','bbbbbb','cccccc','cccccc','dddddd','dddddd','eeeeee','eeeeee','ffffff','ffffff','gggggg','gggggg','hhhhhh','hhhhhh','iiiiii','iiiiii','jjjjjj','jjjjjj','kkkkkk','kkkkkk')"
private def inSource : String := "var R=['ab'];x='abcdefghijkl'in a||'abcdefghijkl'in b"

/-- The hypotheses are met by eleven literals, of which the last one is not worth the index 10, and with `in` after references. -/
example : ∀ p ∈ [(elevenSource, "var R=[\"aaaaaa\",\"bbbbbb\",\"cccccc\",\"dddddd\",\"eeeeee\",\"ffffff\",\"gggggg\",\"hhhhhh\",\"iiiiii\",\"jjjjjj\"];f(R[0],R[0],R[1],R[1],R[2],R[2],R[3],R[3],R[4],R[4],R[5],R[5],R[6],R[6],R[7],R[7],R[8],R[8],R[9],R[9],'kkkkkk','kkkkkk')",
      "var R=[\"aaaaaa\",\"bbbbbb\",\"cccccc\",\"dddddd\",\"eeeeee\",\"ffffff\",\"gggggg\",\"hhhhhh\",\"iiiiii\",\"jjjjjj\"];f(R[0],R[0],R[1],R[1],R[2],R[2],R[3],R[3],R[4],R[4],R[5],R[5],R[6],R[6],R[7],R[7],R[8],R[8],R[9],R[9],'kkkkkk','kkkkkk')"),
      (inSource, "var R=['ab',\"abcdefghijkl\"];x=R[1] in a||R[1] in b", "var R=['ab',\"abcdefghijkl\"];x=R[1]in a||R[1]in b")],
    Closed p.1.toList ∧ Safe (lex p.1.toList) ∧ LooseArray (strip (lex p.1.toList)) ∧ Quotable (lex p.1.toList) ∧
      cleanedArrayText p.1.toList ['R'] (fun _ => true) = .ok p.2.1.toList ∧
      cleanedArrayText p.2.1.toList ['R'] (fun _ => true) = .ok p.2.2.toList := by
  intro p hp
  have : Closed p.1.toList ∧ Safe (lex p.1.toList) ∧ LooseArray (strip (lex p.1.toList)) ∧
      ((lex p.1.toList).all fun l => match l with
        | .str s => !sameContent (lex p.1.toList) s || quotable (content s)
        | _ => true) = true ∧
      cleanedArrayText p.1.toList ['R'] (fun _ => true) = .ok p.2.1.toList ∧
      cleanedArrayText p.2.1.toList ['R'] (fun _ => true) = .ok p.2.2.toList := by
    simp only [List.mem_cons, List.not_mem_nil, or_false] at hp
    unfold Closed Safe LooseArray
    rcases hp with rfl | rfl
    · decide +kernel
    · decide +kernel
  obtain ⟨h1, h2, h3, h4, h5⟩ := this
  refine ⟨h1, h2, h3, fun s hs hc => ?_, h5⟩
  have := List.all_eq_true.1 h4 (.str s) hs
  simpa [hc] using this

end Verif.Js
