import Verif.Proofs.JsSpell
/-!
# Which texts are read as which lexemes

`Fol` says that lexemes can be written next to each other. The lexemes of a script are so (`lex_fol`), and lexemes that are so are read back
(`fol_lex`).
-/
set_option linter.unusedSimpArgs false
namespace Verif.Js
open Spec.Js

/-- What the text `r` after a lexeme has to look like. -/
def Follow (v : List Lexeme) (a : Lexeme) (r : List Char) : Prop :=
  match a with
  | .word w => (w.getLast? = some '.' → ∀ x, r.head? = some x → endsNumber x = true) ∧ WordEnd r ∧ ∀ w' v', v ≠ .word w' :: v'
  | .punct t => (t.head? = some '/' → regexPossible v = true → calm (regexLine (t.tail ++ r)) = true) ∧
      (t = ['/'] → r.head? ≠ some '/' ∧ r.head? ≠ some '*') ∧ (t = ['.'] → dotInWord (wordBefore v) r = false)
  | .regex _ _ => ∀ c, r.head? = some c → isFlag c = false
  | _ => True

/-- The lexemes spell the text and can be written next to each other. -/
def Fol (v : List Lexeme) : List Lexeme → List Char → Prop
  | [], s => s = []
  | a :: ls, s => ∃ t r, s = t ++ r ∧ Spells a t ∧ Follow v a r ∧ Sep v t ∧ Fol (a :: v) ls r

/-! ## The lexemes of a script -/

/-- The same for the lexemes read so far, last one first; the text is what is left of `S`. -/
private inductive FR (S : List Char) : List Lexeme → List Char → Prop
  | nil : FR S [] S
  | cons {v : List Lexeme} {a : Lexeme} {t r : List Char} : FR S v (t ++ r) → Spells a t → Follow v a r → Sep v t → FR S (a :: v) r

private theorem sep_of {v : List Lexeme} {c : Char} {t : List Char} (h : c ≠ '=' ∧ c ≠ '|' ∧ c ≠ '&') : Sep v (c :: t) := by
  intro u v' _ d hd
  simp only [List.head?_cons, Option.some.injEq] at hd
  subst hd
  cases hc : compounds.contains (u ++ [c]) with
  | false => rfl
  | true =>
    have hm : u ++ [c] ∈ compounds := List.contains_iff_mem.1 hc
    have : ∀ x ∈ compounds, x.getLast? = some '=' ∨ x.getLast? = some '|' ∨ x.getLast? = some '&' := by decide +kernel
    have := this _ hm
    rw [List.getLast?_concat] at this
    simp only [Option.some.injEq] at this
    rcases this with e | e | e
    · exact absurd e h.1
    · exact absurd e h.2.1
    · exact absurd e h.2.2

private theorem FR.addWord {S : List Char} {v : List Lexeme} {w cs : List Char} (h : FR S v (w ++ cs)) (hw : WordSoFar w cs) (he : WordEnd cs)
    (hv : ∀ w' v', v ≠ .word w' :: v') : FR S (addWord v w) cs := by
  unfold Spec.Js.addWord
  cases w with
  | nil => simpa using h
  | cons c w =>
    simp only [List.isEmpty_cons, Bool.false_eq_true, if_false]
    refine .cons h (.word _) ⟨?_, he, hv⟩ (sep_of ?_)
    · intro hl x hx
      obtain ⟨p, hp⟩ : ∃ p, c :: w = p ++ ['.'] := by
        obtain ⟨p, x, hpx⟩ := List.eq_nil_or_concat (c :: w) |>.resolve_left (by simp)
        rw [hpx] at hl
        simp only [List.concat_eq_append, List.getLast?_concat, Option.some.injEq] at hl
        exact ⟨p, by rw [hpx, hl, List.concat_eq_append]⟩
      have h1 := (hw p '.' [] hp).2
      rcases h1 with h1 | ⟨-, h1⟩
      · exact absurd h1 (by decide)
      · cases cs with
        | nil => cases hx
        | cons y cs =>
          cases hx
          simp only [List.nil_append, dotInWord, Bool.and_eq_true, Bool.or_eq_true] at h1
          rcases h1.2 with h2 | h2
          · have : ∀ c ∈ "0123456789".toList, endsNumber c = true := by decide +kernel
            exact this x (by simpa [Spec.Js.isDigit] using h2)
          · exact h2.2
    · have h1 := hw [] c w rfl
      refine ⟨?_, ?_, ?_⟩ <;> (rintro rfl; revert h1; simp [isPunct])

private theorem FR.addPunct {S : List Char} {u : List Lexeme} {c : Char} {cs : List Char} (h : FR S u (c :: cs))
    (h1 : c = '/' → regexPossible u = true → calm (regexLine cs) = true)
    (h2 : c = '/' → cs.head? ≠ some '/' ∧ cs.head? ≠ some '*') (h3 : c = '.' → dotInWord (wordBefore u) cs = false) :
    FR S (addPunct u c) cs := by
  have new : Sep u [c] → FR S (.punct [c] :: u) cs := by
    intro hs
    refine .cons (t := [c]) h (.punct _) ⟨?_, ?_, ?_⟩ hs
    · intro hc
      exact h1 (by simpa using hc)
    · intro hc
      exact h2 (by simpa using hc)
    · intro hc
      exact h3 (by simpa using hc)
  unfold Spec.Js.addPunct
  split
  · rename_i t v'
    split
    · rename_i hj
      cases h with
      | cons hv hsp hf hs =>
        cases hsp
        have hne : t ≠ [] := by
          rintro rfl
          have : ∀ x ∈ compounds, 1 < x.length := by decide +kernel
          exact absurd (this _ (List.contains_iff_mem.1 hj)) (by simp)
        obtain ⟨d, t, rfl⟩ := List.exists_cons_of_ne_nil hne
        refine .cons (t := d :: t ++ [c]) (by simpa using hv) (.punct _) ⟨?_, ?_, ?_⟩ ?_
        · intro hd hr
          have := hf.1 (by simpa using hd) hr
          simpa using this
        · intro hd; simp at hd
        · intro hd; simp at hd
        · intro t' v'' he x hx
          exact hs t' v'' he x (by simpa using hx)
    · rename_i hj
      refine new ?_
      intro t' v'' he x hx
      cases he
      cases hx
      simpa using hj
  · rename_i hn
    refine new ?_
    intro t' v'' he
    exact absurd he (hn t' v'')

private theorem addPunct_head (u : List Lexeme) (c : Char) : ∀ w v', addPunct u c ≠ .word w :: v' := by
  intro w v'
  unfold addPunct
  split
  · split <;> (intro h; cases h)
  · intro h; cases h

private theorem wordBefore_addWord {v : List Lexeme} {w : List Char} (hv : ∀ w' v', v ≠ .word w' :: v') : wordBefore (addWord v w) = w := by
  unfold addWord
  cases w with
  | nil =>
    simp only [List.isEmpty_nil, if_true]
    unfold wordBefore
    split
    · rename_i w' v'
      exact absurd rfl (hv w' v')
    · rfl
  | cons c w => rfl

private theorem lexFrom_fr (S : List Char) : ∀ (n : Nat) (v : List Lexeme) (w cs : List Char), cs.length < n → FR S v (w ++ cs) → WordSoFar w cs →
    (∀ w' v', v ≠ .word w' :: v') → (∀ l ∈ lexFrom n v w cs, isOpen l = false) → FR S (lexFrom n v w cs) [] := by
  intro n
  induction n with
  | zero => intro v w cs h; omega
  | succ n ih =>
    intro v w cs hl hv hw hnw ho
    cases cs with
    | nil => rw [lexFrom]; exact FR.addWord hv hw (.inl rfl) hnw
    | cons c cs =>
      have hl1 : cs.length < n := by simpa using hl
      have hmid : ∀ (x : List Char), (w ++ [c]) ++ x = w ++ c :: x := by intro x; simp
      rw [lexFrom] at ho ⊢
      by_cases h1 : c = '.' ∧ dotInWord w cs = true
      · rw [if_pos h1] at ho ⊢
        exact ih v (w ++ [c]) cs hl1 (by rw [hmid]; exact hv) (hw.snoc (by rw [h1.1]; decide) (.inr h1)) hnw ho
      rw [if_neg h1] at ho ⊢
      by_cases h2 : isBlank c = true
      · rw [if_pos h2] at ho ⊢
        have hsp : Spells (.blank (if c = '\r' then '\n' else c)) [c] := by
          by_cases hc : c = '\r'
          · rw [if_pos hc, hc]; exact .return
          · rw [if_neg hc]; exact .blank c
        refine ih _ [] cs hl1 (.cons (t := [c]) (FR.addWord hv hw (.inr ⟨c, cs, rfl, .inl h2⟩) hnw) hsp trivial (sep_of ?_)) (.nil _)
          (by intro w' v' he; cases he) ho
        refine ⟨?_, ?_, ?_⟩ <;> (rintro rfl; exact absurd h2 (by decide))
      rw [if_neg h2] at ho ⊢
      by_cases h3 : isPunct c = true
      case neg =>
        rw [if_pos (by simpa using h3)] at ho ⊢
        exact ih v (w ++ [c]) cs hl1 (by rw [hmid]; exact hv) (hw.snoc (by simpa using h2) (.inl (by simpa using h3))) hnw ho
      rw [if_neg (by simp [h3])] at ho ⊢
      simp only at ho ⊢
      have hu := FR.addWord hv hw (.inr ⟨c, cs, rfl, .inr h3⟩) hnw
      have hwb := wordBefore_addWord (w := w) hnw
      have hdot : c = '.' → dotInWord (wordBefore (Spec.Js.addWord v w)) cs = false := by
        rintro rfl
        rw [hwb]
        cases hd : dotInWord w cs with
        | false => rfl
        | true => exact absurd ⟨rfl, hd⟩ h1
      generalize Spec.Js.addWord v w = u at hu ho hdot
      have piece : ∀ (l : Lexeme) (t r : List Char), Spells l t → Follow u l r → (t.head? = some '"' ∨ t.head? = some '\'' ∨ t.head? = some '`' ∨ t.head? = some '/') →
          (∀ w, l ≠ .word w) → r.length < n → c :: cs = t ++ r →
          (∀ l' ∈ lexFrom n (l :: u) [] r, isOpen l' = false) → FR S (lexFrom n (l :: u) [] r) [] := by
        intro l t r hsp hf ht hw' hr he ho
        rw [he] at hu
        refine ih (l :: u) [] r hr (.cons hu hsp hf ?_) (.nil _) (fun w' v' he => hw' w' (by cases he; rfl)) ho
        cases t with
        | nil => simp at ht
        | cons x t =>
          simp only [List.head?_cons, Option.some.injEq] at ht
          refine sep_of ?_
          rcases ht with rfl | rfl | rfl | rfl <;> decide
      by_cases h4 : c = '"' ∨ c = '\''
      · simp only [if_pos h4] at ho ⊢
        cases hc : closeString c cs with
        | none => rw [hc] at ho; exact absurd (ho _ List.mem_cons_self) (by simp [isOpen])
        | some q =>
          obtain ⟨t, r⟩ := q
          rw [hc] at ho
          obtain ⟨-, hs, -⟩ := closeString_stable c _ cs t r (Nat.lt_succ_self _) hc
          have hle : r.length ≤ cs.length := by rw [hs]; simp
          exact piece _ _ r (.str _) trivial (by simp only [List.head?_cons, Option.some.injEq]; rcases h4 with h | h <;> simp [h]) (by intro w he; cases he) (by omega) (by rw [hs]; rfl) ho
      simp only [if_neg h4] at ho ⊢
      by_cases h5 : c = '`'
      · simp only [if_pos h5] at ho ⊢
        cases hc : closeTemplate maxNesting (.text []) cs with
        | unclosed => rw [hc] at ho; exact absurd (ho _ List.mem_cons_self) (by simp [isOpen])
        | tooDeep => rw [hc] at ho; exact absurd (ho _ List.mem_cons_self) (by simp [isOpen])
        | closed t r =>
          rw [hc] at ho
          have hs := closeTemplate_split _ _ _ cs (Nat.lt_succ_self _) hc
          have hle : r.length ≤ cs.length := by rw [hs]; simp
          exact piece _ _ r (.str _) trivial (by simp [h5]) (by intro w he; cases he) (by omega) (by rw [hs]; rfl) ho
      simp only [if_neg h5] at ho ⊢
      have punct : (c = '/' → regexPossible u = true → calm (regexLine cs) = true) →
          (c = '/' → cs.head? ≠ some '/' ∧ cs.head? ≠ some '*') → (∀ l' ∈ lexFrom n (Spec.Js.addPunct u c) [] cs, isOpen l' = false) →
          FR S (lexFrom n (Spec.Js.addPunct u c) [] cs) [] := by
        intro a1 a2 ho
        exact ih _ [] cs hl1 (hu.addPunct a1 a2 hdot) (.nil _) (addPunct_head u c) ho
      by_cases h6 : c = '/'
      case neg => simp only [if_neg h6] at ho ⊢; exact punct (fun h => absurd h h6) (fun h => absurd h h6) ho
      simp only [if_pos h6] at ho ⊢
      cases cs with
      | nil => exact hu.addPunct (fun _ _ => rfl) (fun _ => ⟨by simp, by simp⟩) hdot
      | cons d cs =>
        have hl2 : cs.length < n := by simp at hl1; omega
        simp only at ho ⊢
        by_cases h7 : d = '/'
        · simp only [if_pos h7] at ho ⊢
          cases hc : closeLine cs with
          | none => rw [hc] at ho; exact absurd (ho _ List.mem_cons_self) (by simp [isOpen])
          | some q =>
            rw [hc] at ho
            obtain ⟨x, hx, hs, hb⟩ := closeLine_split cs q.1 q.2 hc
            have hle : q.2.length ≤ cs.length := by rw [hs]; simp; omega
            exact piece _ _ q.2 (.line q.1 x hx hb) trivial (by simp) (by intro w he; cases he) (by omega) (by rw [hs, h6, h7]; simp) ho
        simp only [if_neg h7] at ho ⊢
        by_cases h8 : d = '*'
        · simp only [if_pos h8] at ho ⊢
          cases hc : closeBlock cs with
          | none => rw [hc] at ho; exact absurd (ho _ List.mem_cons_self) (by simp [isOpen])
          | some q =>
            rw [hc] at ho
            have hs := (closeBlock_stable cs q.1 q.2 hc).1
            have hle : q.2.length ≤ cs.length := by rw [hs]; simp; omega
            refine piece (blockLexeme q.1) ('/' :: '*' :: q.1 ++ ['*', '/']) q.2 ?_ ?_ (by simp) ?_ (by omega) (by rw [hs, h6, h8]; simp) ho
            · have hb := (closeBlock_stable cs q.1 q.2 hc).2 []
              generalize q.1 = b at hb
              unfold blockLexeme
              split
              · exact .license _
              · exact .block _ hb
            · unfold blockLexeme
              split <;> trivial
            · intro w
              unfold blockLexeme
              split <;> (intro he; cases he)
        simp only [if_neg h8] at ho ⊢
        have hne : (d :: cs).head? ≠ some '/' ∧ (d :: cs).head? ≠ some '*' := by
          simp only [List.head?_cons, ne_eq, Option.some.injEq]
          exact ⟨h7, h8⟩
        by_cases h9 : regexPossible u = true
        · simp only [if_pos h9] at ho ⊢
          cases hc : closeRegex (d :: cs) with
          | none =>
            rw [hc] at ho
            simp only at ho ⊢
            by_cases h10 : calm (regexLine (d :: cs)) = true
            · rw [if_pos h10] at ho ⊢
              refine piece _ [c] _ (.punct _) ⟨?_, ?_, ?_⟩ (by simp [h6]) (by intro w he; cases he) hl1 rfl ho
              · intro _ _; exact h10
              · intro _; exact hne
              · intro he; rw [h6] at he; exact absurd he (by decide)
            · rw [if_neg h10] at ho
              exact absurd (ho _ List.mem_cons_self) (by simp [isOpen])
          | some q =>
            rw [hc] at ho
            have hs := (closeRegex_stable _ (d :: cs) q.1 q.2 (Nat.lt_succ_self _) hc).1
            have hle : q.2.length ≤ (d :: cs).length := by rw [hs]; simp; omega
            have hle2 := (List.dropWhile_suffix (l := q.2) isFlag).length_le
            refine piece _ _ _ (.regex q.1 _) ?_ (by simp) (by intro w he; cases he) (by simp at hle hl1; omega) ?_ ho
            · intro x hx
              cases hf : isFlag x with
              | false => rfl
              | true =>
                have := List.head?_dropWhile_not isFlag q.2
                rw [hx] at this
                simp [hf] at this
            · rw [hs, h6]
              simp [List.takeWhile_append_dropWhile]
        · simp only [if_neg h9] at ho ⊢
          exact punct (fun _ h => absurd h h9) (fun _ => hne) ho

private theorem fol_of_fr {S : List Char} : ∀ (ls v : List Lexeme), FR S (ls.reverse ++ v) [] → ∃ s, FR S v s ∧ Fol v ls s
  | [], v, h => ⟨[], h, rfl⟩
  | a :: ls, v, h => by
    obtain ⟨s, h1, h2⟩ := fol_of_fr ls (a :: v) (by simpa using h)
    cases h1 with
    | cons h3 h4 h5 h6 => exact ⟨_, h3, _, s, rfl, h4, h5, h6, h2⟩

private theorem fol_spells : ∀ {ls v : List Lexeme} {s : List Char}, Fol v ls s → SpellsAll ls s
  | [], _, _, h => by cases h; exact .nil
  | _ :: _, _, _, ⟨_, _, he, hs, _, _, hf⟩ => by rw [he]; exact .cons hs (fol_spells hf)

/-- The lexemes of a script can be written as the script. -/
theorem lex_fol {s : List Char} (h : Closed s) : Fol [] (lex s) s := by
  have h1 := lexFrom_fr s (s.length + 1) [] [] s (Nat.lt_succ_self _) .nil (.nil _) (by intro w v' he; cases he)
    (fun l hl => h l (List.mem_reverse.2 hl))
  obtain ⟨s', h2, h3⟩ := fol_of_fr (lex s) [] (by rw [List.append_nil, lex, List.reverse_reverse]; exact h1)
  cases h2
  exact h3

/-! ## Reading back -/

private theorem calm_open : ∀ {cs : List Char}, calm (regexLine cs) = true → closeRegex cs = none
  | [], _ => rfl
  | ['\\'], _ => by decide
  | '\\' :: c :: cs, h => by
    rw [regexLine] at h
    rw [closeRegex, calm_open (by unfold calm at h ⊢; simp only [List.all_cons, Bool.and_eq_true] at h; exact h.2.2)]
    rfl
  | c :: cs, h => by
    by_cases hc : c = '\\'
    · subst hc
      cases cs with
      | nil => decide
      | cons d cs =>
        rw [regexLine] at h
        rw [closeRegex, calm_open (by unfold calm at h ⊢; simp only [List.all_cons, Bool.and_eq_true] at h; exact h.2.2)]
        rfl
    · rw [regexLine] at h
      · rw [closeRegex]
        · by_cases hn : isNewline c = true
          · rw [if_pos hn] at h ⊢
            rw [if_neg]
            rintro rfl
            exact absurd hn (by decide)
          · rw [if_neg hn] at h ⊢
            unfold calm at h
            simp only [List.all_cons, Bool.and_eq_true, bne_iff_ne, ne_eq] at h
            rw [if_neg h.1.1.2, calm_open (by unfold calm; exact h.2)]
            rfl
        · intro e; exact fun _ => hc e
        · intro x y e; exact fun _ => hc e
      · intro e; exact fun _ => hc e
      · intro x y e; exact fun _ => hc e
termination_by cs => cs.length

theorem L_slash_calm {v : List Lexeme} {cs : List Char} (hr : regexPossible v = true → calm (regexLine cs) = true)
    (h1 : cs.head? ≠ some '/') (h2 : cs.head? ≠ some '*') : L v [] ('/' :: cs) = L (.punct ['/'] :: v) [] cs := by
  by_cases hv : regexPossible v = true
  case neg => exact L_slash (by simpa using hv) h1 h2
  have hc := hr hv
  unfold L
  rw [lexFrom, if_neg (by rintro ⟨h, -⟩; exact absurd h (by decide)), if_neg (by decide), if_neg (by decide)]
  simp only
  rw [if_neg (by decide), if_neg (by decide), if_pos (by decide)]
  have ha : addWord v [] = v := rfl
  rw [ha]
  cases cs with
  | nil =>
    simp only
    rw [addPunct_slash]
    rfl
  | cons d cs =>
    simp only
    have hn : closeRegex (d :: cs) = none := calm_open hc
    rw [if_neg (by rintro rfl; exact h1 rfl), if_neg (by rintro rfl; exact h2 rfl), if_pos hv, hn]
    simp only
    rw [if_pos hc]
    rfl

theorem fol_lex : ∀ (n : Nat) (ls V : List Lexeme) (s : List Char), ls.length < n → Placed V ls → (∀ l ∈ ls, plain l = true) → Fol V ls s →
    (∀ ls', ls = .punct ['.'] :: ls' → wordBefore V = []) → L V [] s = ls.reverse ++ V := by
  intro n
  induction n with
  | zero => intro ls V s h; omega
  | succ n ih =>
    intro ls V s hn hp hs hf hd
    cases ls with
    | nil => cases hf; rfl
    | cons a ls =>
      obtain ⟨t, r, rfl, hsp, hfo, hsep, hfol⟩ := hf
      have hl := hp.1
      have hn' : ls.length < n := by simpa using hn
      have next : (∀ ls', ls = .punct ['.'] :: ls' → wordBefore (a :: V) = []) → L V [] (t ++ r) = L (a :: V) [] r →
          L V [] (t ++ r) = (a :: ls).reverse ++ V := by
        intro h1 h2
        rw [h2, ih ls (a :: V) r hn' hp.2 (fun l hl => hs l (List.mem_cons_of_mem _ hl)) hfol h1]
        simp
      cases a with
      | word w =>
        obtain rfl : w = t := by cases hsp; rfl
        have hw : WordSoFar w r := WordOk.before hl hfo.1
        have e1 := L_word (v := V) w [] r (by simpa using hw)
        simp only [List.nil_append] at e1
        have hadd : addWord V w = .word w :: V := by
          unfold addWord
          cases w with
          | nil => exact absurd rfl hl.1
          | cons => rfl
        by_cases hdot : ∃ ls', ls = .punct ['.'] :: ls'
        · obtain ⟨ls', rfl⟩ := hdot
          obtain ⟨t', r', rfl, hsp', hfo', hsep', hfol'⟩ := hfol
          cases hsp'
          have hd' : dotInWord w r' = false := hfo'.2.2 rfl
          have e2 : L V w (['.'] ++ r') = L (.punct ['.'] :: .word w :: V) [] r' := by
            show L V w ('.' :: r') = _
            unfold L
            rw [lexFrom, if_neg (by rintro ⟨-, h⟩; rw [hd'] at h; cases h), if_neg (by decide), if_neg (by decide)]
            simp only
            rw [if_neg (by decide), if_neg (by decide), if_neg (by decide), hadd]
            rfl
          rw [e1, e2, ih ls' _ r' (by simp at hn'; omega) hp.2.2
            (fun l hl => hs l (List.mem_cons_of_mem _ (List.mem_cons_of_mem _ hl))) hfol' (by intro _ _; rfl)]
          simp
        · refine next (fun ls' he => absurd ⟨ls', he⟩ hdot) ?_
          rw [e1, L_flush hfo.2.1, hadd]
          intro cs' hcs
          exfalso
          cases ls with
          | nil => cases hfol; cases hcs
          | cons b ls =>
            obtain ⟨t', r', he, hsp', hfo', -, -⟩ := hfol
            rw [hcs] at he
            have hlb := hp.2.1
            have hsb := hs b (by simp)
            cases hsp' with
            | word => exact hfo'.2.2 w V rfl
            | blank c =>
              simp only [List.cons_append, List.nil_append, List.cons.injEq] at he
              have := hlb.1
              rw [← he.1] at this
              exact absurd this (by decide)
            | «return» => simp at he
            | punct =>
              have ht : ∀ t ∈ puncts, t.head? = some '.' → t = ['.'] := by decide +kernel
              have : t'.head? = some '.' := by
                cases t' with
                | nil => exact absurd (show [] ∈ puncts from hlb) (by decide +kernel)
                | cons c t => simp at he; simp [← he.1]
              exact hdot ⟨ls, by rw [ht _ hlb this]⟩
            | str =>
              obtain ⟨q, b, rfl, h⟩ := hlb
              simp only [List.cons_append, List.cons.injEq] at he
              rw [← he.1] at h
              rcases h with ⟨h | h, -⟩ | ⟨h, -⟩ <;> exact absurd h (by decide)
            | regex | line | block | license => simp at he
      | punct t =>
        cases hsp
        refine next (fun _ _ => rfl) ?_
        obtain ⟨h1, h2, h3⟩ := hfo
        rcases punct_chars t hl with rfl | rfl | ⟨c, rfl, hc⟩ | ⟨c, d, rfl, hc, hd, hn1, hn2, hj⟩ |
          ⟨c, d, e, rfl, hc, hd, he, hn1, hn2, hn3, hj, hj2⟩
        · exact L_slash_calm (h1 rfl) (h2 rfl).1 (h2 rfl).2
        · simp only [List.cons_append, List.nil_append]
          rw [L_slash_calm (cs := '=' :: r) (h1 rfl) (by simp) (by simp), L_punct (by decide) (fun h => absurd h (by decide)), addPunct_join (by decide)]
          rfl
        · simp only [List.cons_append, List.nil_append]
          rw [L_punct hc, addPunct_new fun t v' hv => hsep t v' hv c rfl]
          rintro rfl
          have := h3 rfl
          rwa [hd ls rfl] at this
        · simp only [List.cons_append, List.nil_append]
          rw [L_punct hc (fun h => absurd h hn2), addPunct_new fun t v' hv => hsep t v' hv c rfl,
            L_punct hd (fun h => absurd h hn1), addPunct_join hj]
          rfl
        · simp only [List.cons_append, List.nil_append]
          rw [L_punct hc (fun h => absurd h hn3), addPunct_new fun t v' hv => hsep t v' hv c rfl,
            L_punct hd (fun h => absurd h hn2), addPunct_join (show compounds.contains ([c] ++ [d]) = true from hj),
            L_punct he (fun h => absurd h hn1), addPunct_join (show compounds.contains ([c] ++ [d] ++ [e]) = true from hj2)]
          rfl
      | str t =>
        cases hsp
        refine next (fun _ _ => rfl) ?_
        obtain ⟨q, b, rfl, h | h⟩ := hl
        · exact L_quoted h.1 (h.2 _)
        · obtain ⟨rfl, h⟩ := h
          exact L_template (h _)
      | regex b fl =>
        cases hsp
        exact next (fun _ _ => rfl) (L_regex hl.1 hl.2.1 (hl.2.2.1 _) hl.2.2.2 hfo)
      | license b => cases hsp; exact next (fun _ _ => rfl) (L_license (hl _))
      | blank c =>
        refine next (fun _ _ => rfl) ?_
        cases hsp with
        | blank =>
          show L V [] (c :: r) = _
          rw [L_blank hl.1, if_neg hl.2]
          rfl
        | «return» =>
          show L V [] ('\r' :: r) = _
          rw [L_blank (by decide)]
          rfl
      | _ => exact absurd (hs _ List.mem_cons_self) (by simp [plain, isOpen, solid])

/-! ## Lexemes with the blanks the writer puts between them -/

/-- The lexemes written after `a`. -/
private def spacedAfter (a : Lexeme) : List Lexeme → List Lexeme
  | [] => []
  | b :: ls => if gap a b then .blank ' ' :: spaced (b :: ls) else spaced (b :: ls)

private theorem spaced_cons (a : Lexeme) (ls : List Lexeme) : spaced (a :: ls) = a :: spacedAfter a ls := by
  cases ls with
  | nil => rfl
  | cons b ls =>
    simp only [spaced, spacedAfter]
    split <;> rfl

private theorem textOf_after (a : Lexeme) (ls : List Lexeme) : textOf (spacedAfter a ls) = after a ls := by
  cases ls with
  | nil => rfl
  | cons b ls =>
    simp only [spacedAfter, after]
    split <;> simp [textOf_cons, text]

/-- Lexemes that are spelled in one way only. -/
private def fixed : Lexeme → Bool
  | .blank c => c == ' '
  | l => solid l && !isOpen l

private theorem fixed_text {l : Lexeme} {t : List Char} (h : fixed l = true) (hs : Spells l t) : t = text l := by
  cases hs <;> first | rfl | (simp [fixed, solid] at h)

private theorem fixed_spells {l : Lexeme} (h : fixed l = true) : Spells l (text l) := by
  cases l <;> first | exact Spells.word _ | exact Spells.blank _ | exact Spells.punct _ | exact Spells.str _ | exact Spells.regex _ _ |
    exact Spells.license _ | (simp [fixed, solid, isOpen] at h)

private theorem gap_word {a b : Lexeme} (h : gap a b = true) : ∃ w, b = .word w := by
  cases b with
  | word w => exact ⟨w, rfl⟩
  | _ => cases a <;> cases h

/-- Lexemes that are written into a minified text. -/
def Inked (l : Lexeme) : Prop := plain l = true ∧ isOpen l = false

private theorem written_spells {l : Lexeme} (h : Inked l) : Spells l (text l) := by
  obtain ⟨h1, h2⟩ := h
  cases l <;> first | exact Spells.word _ | exact Spells.blank _ | exact Spells.punct _ | exact Spells.str _ | exact Spells.regex _ _ |
    exact Spells.license _ | (simp [plain, solid, isOpen] at h1 h2)

private theorem written_text {l : Lexeme} {t r r' : List Char} (h : Inked l) (hs : Spells l t) (he : t ++ r = text l ++ r') :
    t = text l ∧ r = r' := by
  obtain ⟨h1, h2⟩ := h
  cases hs with
  | «return» => simp [text] at he
  | line | block => simp [plain, solid] at h1
  | _ => exact ⟨rfl, List.append_cancel_left he⟩

private theorem spaced_written : ∀ {ls : List Lexeme}, (∀ l ∈ ls, Inked l) → ∀ l ∈ spaced ls, Inked l
  | [], _, l, hl => by cases hl
  | [a], h, l, hl => h l hl
  | a :: b :: ls, h, l, hl => by
    have ih := spaced_written (ls := b :: ls) fun l hl => h l (List.mem_cons_of_mem _ hl)
    simp only [spaced] at hl
    split at hl
    · rcases List.mem_cons.1 hl with rfl | hl
      · exact h _ List.mem_cons_self
      · rcases List.mem_cons.1 hl with rfl | hl
        · exact ⟨rfl, rfl⟩
        · exact ih l hl
    · rcases List.mem_cons.1 hl with rfl | hl
      · exact h _ List.mem_cons_self
      · exact ih l hl

private theorem rp_cons {V v : List Lexeme} (a : Lexeme) (hr : regexPossible V = regexPossible v) :
    regexPossible (a :: V) = regexPossible (a :: v) := by
  cases a <;> simp only [regexPossible] <;> exact hr

/-- The text after the first character of a punctuation. -/
private theorem drop_punct {t : List Char} (ht : t ∈ puncts) (ls : List Lexeme) :
    (textOf (spaced (.punct t :: ls))).drop 1 = t.tail ++ after (.punct t) ls := by
  rw [textOf_spaced_cons]
  cases t with
  | nil => exact absurd ht (by decide +kernel)
  | cons c t => rfl

private theorem spaced_placed : ∀ (ls v : List Lexeme), Placed v ls → Placed v (spaced ls)
  | [], _, h => h
  | [_], _, h => h
  | a :: b :: ls, v, h => by
    have ih := spaced_placed (b :: ls) (a :: v) h.2
    simp only [spaced]
    split
    · exact ⟨h.1, ⟨by decide, by decide⟩, Placed.mono _ (a :: v) _ rfl ih⟩
    · exact ⟨h.1, ih⟩

theorem fol_read : ∀ (ls v V : List Lexeme) (s : List Char), Placed v ls → (∀ l ∈ ls, Inked l) →
    regexPossible V = regexPossible v → (∀ ls', ls = .punct ['.'] :: ls' → wordBefore V = wordBefore v) → Fol V (spaced ls) s →
    s = textOf (spaced ls) → readFrom v ls = true
  | [], _, _, _, _, _, _, _, _, _ => rfl
  | a :: ls, v, V, s, hp, hs, hr, hd, hf, he => by
    have hsx : ∀ l ∈ spacedAfter a ls, Inked l := by
      intro l hl
      exact spaced_written hs l (by rw [spaced_cons]; exact List.mem_cons_of_mem _ hl)
    rw [textOf_spaced_cons] at he
    rw [spaced_cons] at hf
    obtain ⟨t, r, rfl, hsp, hfo, -, hfol⟩ := hf
    have hrt : r = after a ls := (written_text (hs a List.mem_cons_self) hsp he).2
    have hnext : r.head? = nextChar a ls := by
      rw [hrt]
      exact after_head (a := a) hp.2 fun l hl => (hs l (List.mem_cons_of_mem _ hl)).1
    -- what comes next does not join
    have hjoin : ∀ t, a = .punct t → ∀ c, nextChar a ls = some c → compounds.contains (t ++ [c]) = false := by
      intro t he' c hc
      rw [← hnext] at hc
      cases hq : spacedAfter a ls with
      | nil => rw [hq] at hfol; cases hfol; cases hc
      | cons b q =>
        rw [hq] at hfol
        obtain ⟨t', r', rfl, hsp', -, hsep', -⟩ := hfol
        have hbm : b = .blank ' ' ∨ b ∈ ls := by
          cases ls with
          | nil => cases hq
          | cons b' ls =>
            simp only [spacedAfter] at hq
            split at hq
            · cases hq; exact .inl rfl
            · rw [spaced_cons] at hq; cases hq; exact .inr List.mem_cons_self
        have hne : t' ≠ [] := by
          have htx : text b ≠ [] := by
            rcases hbm with rfl | hbm
            · simp [text]
            · obtain ⟨p, q', hpq⟩ := List.append_of_mem hbm
              have : ∀ (p : List Lexeme) (u : List Lexeme), Placed u (p ++ b :: q') → ∃ u', LexOk u' b := by
                intro p
                induction p with
                | nil => intro u h; exact ⟨u, h.1⟩
                | cons x p ih => intro u h; exact ih _ h.2
              obtain ⟨u', hu'⟩ := this p (a :: v) (by rw [← hpq]; exact hp.2)
              exact text_ne hu' (hs b (List.mem_cons_of_mem _ hbm)).1
          cases hsp' <;> first | exact htx | simp
        obtain ⟨x, t', rfl⟩ := List.exists_cons_of_ne_nil hne
        exact hsep' t V (by rw [he']) c (by simpa using hc)
    rw [readFrom, Bool.and_eq_true]
    constructor
    · cases a with
      | word w =>
        simp only [readHere, safeHere, Bool.and_eq_true, Bool.or_eq_true, bne_iff_ne, ne_eq]
        constructor
        · by_cases hl : w.getLast? = some '.'
          · right
            rw [← hnext]
            cases hh : r.head? with
            | none => rfl
            | some x => exact hfo.1 hl x hh
          · exact .inl hl
        · cases ls with
          | nil => rfl
          | cons b ls =>
            cases b with
            | word w' =>
              simp only
              cases hg : gap (.word w) (.word w') with
              | true => rfl
              | false =>
                rw [spacedAfter, hg, if_neg (by simp), spaced_cons] at hfol
                obtain ⟨_, _, _, _, hfo', _, _⟩ := hfol
                exact absurd rfl (hfo'.2.2 w V)
            | _ => rfl
      | punct t =>
        simp only [readHere, Bool.and_eq_true, Bool.or_eq_true, bne_iff_ne, ne_eq, Bool.not_eq_true']
        rw [drop_punct hp.1, ← hrt, ← hr]
        refine ⟨⟨⟨?_, ?_⟩, ?_⟩, ?_⟩
        · by_cases h1 : t.head? = some '/'
          · by_cases h2 : regexPossible V = true
            · exact .inr (hfo.1 h1 h2)
            · exact .inl (.inr (by simpa using h2))
          · exact .inl (.inl h1)
        · by_cases h1 : t = ['/']
          · right
            rw [← hnext]
            exact hfo.2.1 h1
          · exact .inl h1
        · by_cases h1 : t = ['.']
          · right
            have := hfo.2.2 h1
            rw [dotInWord_head, hnext] at this
            rw [← hd ls (by rw [h1])]
            exact this
          · exact .inl h1
        · cases hc : nextChar (.punct t) ls with
          | none => rfl
          | some c =>
            have := hjoin t rfl c hc
            simp only [this, Bool.not_false]
      | regex b fl =>
        simp only [readHere, safeHere, Bool.not_eq_true']
        rw [← hnext]
        cases hh : r.head? with
        | none => rfl
        | some x => simpa using hfo x hh
      | _ => rfl
    · cases ls with
      | nil => rfl
      | cons b ls =>
        have hs' := fun l hl => hs l (List.mem_cons_of_mem _ hl)
        simp only [spacedAfter] at hfol
        split at hfol
        · rename_i hg
          obtain ⟨w, rfl⟩ := gap_word hg
          obtain ⟨_, r', hr', hsp', _, _, hfol'⟩ := hfol
          rw [hr', after, if_pos hg] at hrt
          have hrt' := (written_text (l := .blank ' ') ⟨rfl, rfl⟩ hsp' hrt).2
          refine fol_read _ (a :: v) (.blank ' ' :: a :: V) r' hp.2 hs' ?_ (by intro ls' he; cases he) hfol' hrt'
          rw [← rp_cons a hr]
          rfl
        · rename_i hg
          rw [after, if_neg hg] at hrt
          exact fol_read _ (a :: v) (a :: V) r hp.2 hs' (rp_cons a hr) (by intro _ _; cases a <;> rfl) hfol hrt

theorem read_fol : ∀ (ls v V : List Lexeme), Placed v ls → (∀ l ∈ ls, Inked l) →
    regexPossible V = regexPossible v → (∀ ls', ls = .punct ['.'] :: ls' → wordBefore V = wordBefore v) →
    (∀ w ls' w' v', ls = .word w :: ls' → V ≠ .word w' :: v') → Sep V (textOf (spaced ls)) → readFrom v ls = true →
    Fol V (spaced ls) (textOf (spaced ls))
  | [], _, _, _, _, _, _, _, _, _ => rfl
  | a :: ls, v, V, hp, hs, hr, hd, hw, hsep, h => by
    have hpl : ∀ l ∈ ls, plain l = true := fun l hl => (hs l (List.mem_cons_of_mem _ hl)).1
    have hnext : (after a ls).head? = nextChar a ls := after_head (a := a) hp.2 hpl
    rw [readFrom, Bool.and_eq_true] at h
    obtain ⟨hh, hrest⟩ := h
    have hs' := fun l hl => hs l (List.mem_cons_of_mem _ hl)
    rw [textOf_spaced_cons] at hsep ⊢
    rw [spaced_cons]
    have hl := hp.1
    have hta := text_ne hl (hs a List.mem_cons_self).1
    refine ⟨text a, after a ls, rfl, written_spells (hs a List.mem_cons_self), ?_, ?_, ?_⟩
    · cases a with
      | word w =>
        simp only [readHere, safeHere, Bool.and_eq_true, Bool.or_eq_true, bne_iff_ne, ne_eq] at hh
        refine ⟨?_, ?_, fun w' v' => hw w ls w' v' rfl⟩
        · intro hlast x hx
          rw [hnext] at hx
          rcases hh.1 with h | h
          · exact absurd hlast h
          · rw [hx] at h; simpa using h
        · cases ls with
          | nil => exact .inl rfl
          | cons b ls =>
            have hb := hpl b (by simp)
            simp only [after]
            split
            · exact .inr ⟨' ', _, rfl, .inl (by decide)⟩
            · rename_i hgap
              rw [textOf_spaced_cons]
              have hlb := hp.2.1
              cases b with
              | word w' => exact absurd hh.2 hgap
              | punct t =>
                have hpp : ∀ t ∈ puncts, (match t with | c :: _ => isPunct c | [] => false) = true := by decide +kernel
                have := hpp t hlb
                cases t with
                | nil => cases this
                | cons c t => exact .inr ⟨c, _, rfl, .inr this⟩
              | str t =>
                obtain ⟨q, b, rfl, h⟩ := hlb
                refine .inr ⟨q, _, rfl, .inr ?_⟩
                rcases h with ⟨rfl | rfl, -⟩ | ⟨rfl, -⟩ <;> decide
              | regex b fl => exact .inr ⟨'/', _, rfl, .inr (by decide)⟩
              | license b => exact .inr ⟨'/', _, rfl, .inr (by decide)⟩
              | blank c => exact .inr ⟨c, _, rfl, .inl hlb.1⟩
              | _ => cases hb
      | punct t =>
        simp only [readHere, Bool.and_eq_true, Bool.or_eq_true, bne_iff_ne, ne_eq, Bool.not_eq_true'] at hh
        rw [drop_punct hl, ← hr] at hh
        obtain ⟨⟨⟨h1, h2⟩, h3⟩, h4⟩ := hh
        refine ⟨?_, ?_, ?_⟩
        · intro e1 e2
          rcases h1 with (h1 | h1) | h1
          · exact absurd e1 h1
          · rw [e2] at h1; cases h1
          · exact h1
        · intro e1
          rw [hnext]
          exact h2.resolve_left fun h => h e1
        · intro e1
          rw [dotInWord_head, hnext, hd ls (by rw [e1])]
          exact h3.resolve_left fun h => h e1
      | regex b fl =>
        simp only [readHere, safeHere, Bool.not_eq_true'] at hh
        intro c hc
        rw [hnext] at hc
        rw [hc] at hh
        simpa using hh
      | _ => trivial
    · intro t v' he c hc
      obtain ⟨x, ta, hxt⟩ := List.exists_cons_of_ne_nil hta
      refine hsep t v' he c ?_
      rw [hxt] at hc ⊢
      exact hc
    · have hsep' : Sep (a :: V) (after a ls) := by
        intro t v' he c hc
        cases he
        rw [hnext] at hc
        simp only [readHere, Bool.and_eq_true] at hh
        have := hh.2
        rw [hc] at this
        simpa using this
      cases ls with
      | nil => rfl
      | cons b ls =>
        simp only [spacedAfter, after] at hsep' ⊢
        split
        · rename_i hg
          obtain ⟨w, rfl⟩ := gap_word hg
          rw [if_pos hg] at hsep'
          refine ⟨[' '], _, rfl, .blank ' ', trivial, ?_, ?_⟩
          · intro t v' he c hc
            exact hsep' t v' he c hc
          · refine read_fol _ (a :: v) (.blank ' ' :: a :: V) hp.2 hs' ?_ (by intro ls' he; cases he) ?_ ?_ hrest
            · rw [← rp_cons a hr]; rfl
            · intro w ls' w' v' _ he; cases he
            · intro t v' he; cases he
        · rename_i hg
          rw [if_neg hg] at hsep'
          refine read_fol _ (a :: v) (a :: V) hp.2 hs' (rp_cons a hr) (by intro _ _; cases a <;> rfl) ?_ hsep' hrest
          intro w ls' w' v' he he'
          cases he
          cases he'
          simp only [readHere, safeHere, Bool.and_eq_true] at hh
          exact hg hh.2

/-! ## Texts of the same meaning -/

/-- The characters of a text that are no blanks. -/
def solids (t : List Char) : Nat := t.countP (fun c => !isBlank c)

theorem solids_append (s t : List Char) : solids (s ++ t) = solids s + solids t := List.countP_append

private theorem solids_all {t : List Char} (h : ∀ c ∈ t, isBlank c = false) : solids t = t.length := by
  rw [solids, List.countP_eq_length]
  intro c hc
  simp [h c hc]

private theorem solids_le (t : List Char) : solids t ≤ t.length := List.countP_le_length

private theorem digit_solid {c : Char} (h : Spec.Js.isDigit c = true) : isBlank c = false := by
  have hs : ∀ c ∈ "0123456789".toList, isBlank c = false := by decide +kernel
  exact hs c (by simpa [Spec.Js.isDigit] using h)

private theorem shortest_length {w : List Char} (hw : w ≠ []) : (shortest w).length ≤ w.length := by
  unfold shortest
  have := (List.dropWhile_suffix (l := w) (· == '0')).length_le
  cases h : w.dropWhile (· == '0') with
  | nil =>
    cases w with
    | nil => exact absurd rfl hw
    | cons => simp
  | cons c t =>
    rw [h] at this
    exact this

private theorem shortFlags_length {fl : List Char} : (shortFlags fl).length ≤ fl.length := by
  unfold shortFlags
  by_cases hg : fl.contains 'g' = true
  · rw [if_pos hg]
    obtain ⟨a, b, rfl⟩ := List.append_of_mem (List.contains_iff_mem.1 hg)
    by_cases hi : (a ++ 'g' :: b).contains 'i' = true
    · rw [if_pos hi]
      have hi' := List.contains_iff_mem.1 hi
      simp only [List.mem_append, List.mem_cons] at hi'
      have : 'i' ∈ a ∨ 'i' ∈ b := by
        rcases hi' with h | h | h
        · exact .inl h
        · exact absurd h (by decide)
        · exact .inr h
      rcases this with h | h <;> have := List.length_pos_of_mem h <;> simp <;> omega
    · rw [if_neg hi]; simp; omega
  · rw [if_neg hg]
    by_cases hi : fl.contains 'i' = true
    · rw [if_pos hi]
      have := List.length_pos_of_mem (List.contains_iff_mem.1 hi)
      simp; omega
    · rw [if_neg hi]; simp

/-- A shorter spelling has fewer characters that are no blanks. -/
theorem shorten_solids {v : List Lexeme} {l : Lexeme} {t : List Char} (hl : LexOk v l) (hs : Spells l t) (hsol : solid l = true) :
    solids (text (shorten l)) ≤ solids t ∧ (solids (text (shorten l)) = solids t → (text (shorten l)).length = t.length) := by
  cases hs with
  | word =>
    by_cases hi : isInteger t = true
    · have e : shorten (.word t) = .word (shortest t) := by simp [shorten, hi]
      rw [e]
      have h1 := (isInteger_iff.1 hi).2.1
      have h2 := (isInteger_iff.1 (shortest_ok hi).1).2.1
      simp only [text]
      rw [solids_all fun c hc => digit_solid (h1 c hc), solids_all fun c hc => digit_solid (h2 c hc)]
      exact ⟨shortest_length hl.1, id⟩
    · have e : shorten (.word t) = .word t := by simp [shorten, hi]
      rw [e]
      exact ⟨Nat.le_refl _, fun _ => rfl⟩
  | regex b fl =>
    have hflag : ∀ c, isFlag c = true → isBlank c = false := by
      intro c hc
      simp only [isFlag, Bool.or_eq_true, beq_iff_eq] at hc
      rcases hc with rfl | rfl <;> decide
    have e : text (shorten (.regex b fl)) = ('/' :: b ++ ['/']) ++ shortFlags fl := by simp [shorten, text]
    have e' : '/' :: b ++ '/' :: fl = ('/' :: b ++ ['/']) ++ fl := by simp
    rw [e, e', solids_append _ fl, solids_append _ (shortFlags fl), solids_all (t := fl) fun c hc => hflag c (hl.2.2.2 c hc),
      solids_all (t := shortFlags fl) fun c hc => hflag c (shortFlags_flag fl c hc), List.length_append, List.length_append]
    have := shortFlags_length (fl := fl)
    exact ⟨by omega, fun h => by simp only [List.length_append]; omega⟩
  | punct | str | license => exact ⟨Nat.le_refl _, fun _ => rfl⟩
  | blank | «return» | line | block => cases hsol

private theorem textOf_solids : ∀ (ls : List Lexeme), solids (textOf (spaced ls)) = (ls.map fun l => solids (text l)).sum
  | [] => rfl
  | a :: ls => by
    have ih := textOf_solids ls
    rw [textOf_spaced_cons, solids_append, List.map_cons, List.sum_cons, ← ih]
    congr 1
    cases ls with
    | nil => rfl
    | cons b ls =>
      simp only [after]
      split
      · rw [show ' ' :: textOf (spaced (b :: ls)) = [' '] ++ textOf (spaced (b :: ls)) from rfl, solids_append]
        have : solids [' '] = 0 := by decide
        omega
      · rfl

/-- The text of a lexeme and what is left of it. -/
private def Tight (l : Lexeme) (t : List Char) : Prop := solids t = if solid l then solids (text (shorten l)) else 0

private inductive TightAll : List Lexeme → List Char → Prop
  | nil : TightAll [] []
  | cons {l : Lexeme} {ls : List Lexeme} {t s : List Char} : Spells l t → Tight l t → TightAll ls s → TightAll (l :: ls) (t ++ s)

private def weight (ls : List Lexeme) : Nat := ((ls.filter solid).map fun l => solids (text (shorten l))).sum

private theorem spells_weight {ls : List Lexeme} {s : List Char} (h : SpellsAll ls s) (hok : ∀ l ∈ ls, ∃ v, LexOk v l) :
    weight ls ≤ solids s ∧ (weight ls = solids s → TightAll ls s) := by
  induction h with
  | nil => exact ⟨Nat.le_refl _, fun _ => .nil⟩
  | @cons l ls t s h1 _ ih =>
    obtain ⟨i1, i2⟩ := ih fun l hl => hok l (List.mem_cons_of_mem _ hl)
    obtain ⟨v, hl⟩ := hok l List.mem_cons_self
    rw [solids_append]
    cases hs : solid l with
    | true =>
      have hw : weight (l :: ls) = solids (text (shorten l)) + weight ls := by simp [weight, hs]
      obtain ⟨j1, -⟩ := shorten_solids hl h1 hs
      rw [hw]
      exact ⟨by omega, fun h => .cons h1 (by rw [Tight, hs, if_pos rfl]; omega) (i2 (by omega))⟩
    | false =>
      have hw : weight (l :: ls) = weight ls := by simp [weight, hs]
      rw [hw]
      exact ⟨by omega, fun h => .cons h1 (by rw [Tight, hs, if_neg (by simp)]; omega) (i2 (by omega))⟩

private theorem spells_head {v : List Lexeme} {l : Lexeme} {t : List Char} (hl : LexOk v l) (h : Spells l t) (hs : solid l = true) :
    ∃ c r, t = c :: r ∧ isBlank c = false := by
  cases h with
  | word =>
    obtain ⟨hne, cs, -, hw⟩ := hl
    cases t with
    | nil => exact absurd rfl hne
    | cons c t => exact ⟨c, t, rfl, (hw [] c t rfl).1⟩
  | punct =>
    have : ∀ t ∈ puncts, (match t with | c :: _ => !isBlank c | [] => false) = true := by decide +kernel
    have := this t hl
    cases t with
    | nil => cases this
    | cons c t => exact ⟨c, t, rfl, by simpa using this⟩
  | str =>
    obtain ⟨q, b, rfl, h⟩ := hl
    refine ⟨q, b, rfl, ?_⟩
    rcases h with ⟨rfl | rfl, -⟩ | ⟨rfl, -⟩ <;> decide
  | regex | license => exact ⟨'/', _, rfl, by decide⟩
  | blank | «return» | line | block => cases hs

private theorem shorten_same {l : Lexeme} (hs : solid l = true) (ho : isOpen l = false) (h : text l = text (shorten l)) : shorten l = l := by
  cases l with
  | word w =>
    by_cases hi : isInteger w = true
    · have e : shorten (.word w) = .word (shortest w) := by simp [shorten, hi]
      rw [e] at h ⊢
      simp only [text] at h
      rw [← h]
    · simp [shorten, hi]
  | regex b fl =>
    simp only [shorten, text] at h ⊢
    have := List.append_cancel_left (as := '/' :: b) h
    simp only [List.cons.injEq, true_and] at this
    rw [← this]
  | _ => rfl

private theorem solid_fixed {l : Lexeme} (hs : solid l = true) (ho : isOpen l = false) : fixed l = true := by
  cases l <;> simp_all [fixed, solid]

private theorem solid_written {l : Lexeme} (h : solid l = true ∧ isOpen l = false) : Inked l :=
  ⟨by cases l <;> simp_all [plain, solid], h.2⟩

/-- A text that is as tight as can be and has the lexemes `M`, and is the text written for them, is read as that. -/
private theorem aligned : ∀ (ls : List Lexeme) (s : List Char) (a : Lexeme) (M : List Lexeme), TightAll ls s →
    (∀ l ∈ ls, isOpen l = false ∧ ∃ v, LexOk v l) → (ls.filter solid).map shorten = M → s = after a M → ls = spacedAfter a M
  | [], s, a, M, _, _, hm, _ => by
    simp only [List.filter_nil, List.map_nil] at hm
    subst hm
    rfl
  | l :: ls, _, a, M, .cons (t := t) (s := s) hsp hti htl, hok, hm, he => by
    have hok' := fun l hl => hok l (List.mem_cons_of_mem _ hl)
    obtain ⟨ho, v, hl⟩ := hok l List.mem_cons_self
    cases hs : solid l with
    | true =>
      rw [List.filter_cons_of_pos hs, List.map_cons] at hm
      subst hm
      obtain ⟨c, t', rfl, hc⟩ := spells_head hl hsp hs
      have hti' : solids (text (shorten l)) = solids (c :: t') := by rw [Tight, hs, if_pos rfl] at hti; exact hti.symm
      have hlen := (shorten_solids hl hsp hs).2 hti'
      by_cases hg : gap a (shorten l) = true
      · simp only [after, hg, if_true, List.cons_append, List.cons.injEq] at he
        rw [he.1] at hc
        exact absurd hc (by decide)
      · simp only [after, hg, Bool.false_eq_true, if_false] at he
        rw [textOf_spaced_cons] at he
        obtain ⟨e1, e2⟩ := List.append_inj he hlen.symm
        have htx := fixed_text (solid_fixed hs ho) hsp
        have hsame := shorten_same hs ho (by rw [← htx, e1])
        rw [hsame] at e2 hg ⊢
        have ih := aligned ls s l _ htl hok' rfl e2
        simp only [spacedAfter, hg, Bool.false_eq_true, if_false]
        rw [spaced_cons, ← ih]
    | false =>
      rw [List.filter_cons_of_neg (by simp [hs])] at hm
      have hti' : solids t = 0 := by rw [Tight, hs, if_neg (by simp)] at hti; exact hti
      have hslash : solids ['/'] = 1 := by decide
      have hblank : ∃ c d, l = .blank d ∧ t = [c] ∧ isBlank c = true ∧ (c = ' ' → d = ' ') := by
        cases hsp with
        | blank c => exact ⟨c, c, rfl, rfl, hl.1, id⟩
        | «return» => exact ⟨'\r', '\n', rfl, rfl, by decide, fun h => absurd h (by decide)⟩
        | line b c =>
          rw [show '/' :: '/' :: b ++ [c] = ['/'] ++ ('/' :: b ++ [c]) from rfl, solids_append] at hti'
          omega
        | block b =>
          rw [show '/' :: '*' :: b ++ ['*', '/'] = ['/'] ++ ('*' :: b ++ ['*', '/']) from rfl, solids_append] at hti'
          omega
        | word | punct | str | regex | license => cases hs
      obtain ⟨c, d, rfl, rfl, hc, hd⟩ := hblank
      cases hM : M with
      | nil => rw [hM] at he; simp [after] at he
      | cons m M' =>
        have hmem : m ∈ (ls.filter solid).map shorten := by rw [hm, hM]; exact List.mem_cons_self
        obtain ⟨l', hl', rfl⟩ := List.mem_map.1 hmem
        obtain ⟨hl1, hl2⟩ := List.mem_filter.1 hl'
        obtain ⟨ho', v', hlo⟩ := hok' l' hl1
        have hsol : solid (shorten l') = true := by rw [(shorten_class l').1, hl2]
        have hop : isOpen (shorten l') = false := by rw [(shorten_class l').2.1, ho']
        obtain ⟨x, tx, htx, hx⟩ := spells_head hlo.shorten (fixed_spells (solid_fixed hsol hop)) hsol
        rw [hM] at he
        by_cases hg : gap a (shorten l') = true
        · simp only [after, hg, if_true, List.cons_append, List.nil_append, List.cons.injEq] at he
          obtain ⟨rfl, e2⟩ := he
          have ih := aligned ls s (.blank ' ') M htl hok' hm (by rw [hM, e2]; simp [after, gap])
          rw [hd rfl, ih, hM]
          simp [spacedAfter, hg, show ∀ m, gap (.blank ' ') m = false from fun m => rfl]
        · simp only [after, hg, Bool.false_eq_true, if_false, textOf_spaced_cons, htx, List.cons_append, List.nil_append,
            List.cons.injEq] at he
          rw [he.1, hx] at hc
          cases hc

/-- If the minified form has the meaning of the script, then it is read as the lexemes that were written. -/
theorem lex_of_meaning {s : List Char} (h : Closed s)
    (hm : (strip (lex (minimal (lex s)))).map shorten = (strip (lex s)).map shorten) :
    lex (minimal (lex s)) = spaced ((strip (lex s)).map shorten) := by
  generalize hM : (strip (lex s)).map shorten = M at hm
  have hout : minimal (lex s) = textOf (spaced M) := by rw [minimal, hM]
  rw [hout] at hm ⊢
  have hMs : ∀ l ∈ M, isOpen l = false := by
    intro l hl
    rw [← hM] at hl
    obtain ⟨l', hl', rfl⟩ := List.mem_map.1 hl
    rw [(shorten_class l').2.1]
    exact (strip_solid (closed_lex h) l' hl').1
  -- the text is closed
  have hc : Closed (textOf (spaced M)) := by
    intro l hl
    cases ho : isOpen l with
    | false => rfl
    | true =>
      exfalso
      have hsol : solid l = true := by cases l <;> simp_all [isOpen, solid]
      have hmem : l ∈ strip (lex (textOf (spaced M))) := by
        unfold strip
        have h1 : l ∈ (lex (textOf (spaced M))).filter solid := List.mem_filter.2 ⟨hl, hsol⟩
        have key : ∀ q : List Lexeme, l ∈ q → l ∈ q.dropWhile (· == .punct [';']) := by
          intro q
          induction q with
          | nil => exact id
          | cons x q ih =>
            intro hq
            rw [List.dropWhile_cons]
            split
            · rename_i hx
              rcases List.mem_cons.1 hq with rfl | hq
              · rw [beq_iff_eq] at hx
                rw [hx] at ho
                cases ho
              · exact ih hq
            · exact hq
        exact key _ h1
      have := hMs (shorten l) (by rw [← hm]; exact List.mem_map_of_mem hmem)
      rw [(shorten_class l).2.1, ho] at this
      cases this
  have hok := closed_lex hc
  obtain ⟨w1, w2⟩ := spells_weight (lex_spells hc).1 fun l hl => (hok l hl).2
  -- no semicolons are dropped
  have hdrop : ∀ q : List Lexeme,
      ((q.dropWhile (· == .punct [';'])).map fun l => solids (text (shorten l))).sum ≤ (q.map fun l => solids (text (shorten l))).sum ∧
      (((q.dropWhile (· == .punct [';'])).map fun l => solids (text (shorten l))).sum = (q.map fun l => solids (text (shorten l))).sum →
        q.dropWhile (· == .punct [';']) = q) := by
    intro q
    induction q with
    | nil => exact ⟨Nat.le_refl _, fun _ => rfl⟩
    | cons x q ih =>
      obtain ⟨i1, -⟩ := ih
      rw [List.dropWhile_cons]
      split
      · rename_i hx
        rw [beq_iff_eq] at hx
        subst hx
        have : solids (text (shorten (.punct [';']))) = 1 := by decide
        simp only [List.map_cons, List.sum_cons, this]
        exact ⟨by omega, fun h => by omega⟩
      · exact ⟨Nat.le_refl _, fun _ => rfl⟩
  obtain ⟨d1, d2⟩ := hdrop ((lex (textOf (spaced M))).filter solid)
  have hsum : (M.map fun l => solids (text l)).sum =
      ((((lex (textOf (spaced M))).filter solid).dropWhile (· == .punct [';'])).map fun l => solids (text (shorten l))).sum := by
    have := congrArg (fun l : List Lexeme => (l.map fun l => solids (text l)).sum) hm
    simp only [List.map_map] at this
    rw [← this]
    rfl
  have hts := textOf_solids M
  have hw : weight (lex (textOf (spaced M))) = (((lex (textOf (spaced M))).filter solid).map fun l => solids (text (shorten l))).sum := rfl
  have htight := w2 (by omega)
  have hno := d2 (by omega)
  have := aligned _ _ (.blank ' ') M htight hok (by unfold strip at hm; rwa [hno] at hm) (by cases M <;> simp [after, gap, spaced, textOf])
  rw [this]
  cases M <;> simp [spacedAfter, gap, spaced]

private theorem minimal_placed (s : List Char) : Placed [] ((strip (lex s)).map shorten) := by
  have hwf : Placed [] (lex s) := Placed.of_wf _ _ (by simpa [lex] using lexRev_wf s)
  exact Placed.shorten _ [] [] rfl (Placed.dropSemi _ [] rfl (Placed.filter _ [] [] rfl hwf))

private theorem minimal_solid {s : List Char} (h : Closed s) : ∀ l ∈ (strip (lex s)).map shorten, solid l = true ∧ isOpen l = false := by
  intro l hl
  obtain ⟨l', hl', rfl⟩ := List.mem_map.1 hl
  obtain ⟨h1, h2, -⟩ := strip_solid (closed_lex h) l' hl'
  exact ⟨by rw [(shorten_class l').1, h2], by rw [(shorten_class l').2.1, h1]⟩

/-- Lexemes that can be read back are read back. -/
theorem lex_written {ls : List Lexeme} (hp : Placed [] ls) (hw : ∀ l ∈ ls, Inked l) (h : readFrom [] ls = true) :
    lex (textOf (spaced ls)) = spaced ls := by
  have hf := read_fol _ [] [] hp hw rfl (fun _ _ => rfl) (by intro w ls' w' v' _ he; cases he) (by intro t v' he; cases he) h
  have := fol_lex _ _ [] _ (Nat.lt_succ_self _) (spaced_placed _ [] hp) (fun l hl => (spaced_written hw l hl).1) hf (fun _ _ => rfl)
  show (L [] [] (textOf (spaced ls))).reverse = _
  rw [this]
  simp

/-- Others are not. -/
theorem written_lex {ls : List Lexeme} (hp : Placed [] ls) (hw : ∀ l ∈ ls, Inked l) (h : lex (textOf (spaced ls)) = spaced ls) :
    readFrom [] ls = true := by
  have hc : Closed (textOf (spaced ls)) := by
    intro l hl
    rw [h] at hl
    exact (spaced_written hw l hl).2
  have hf := lex_fol hc
  rw [h] at hf
  exact fol_read _ [] [] _ hp hw rfl (fun _ _ => rfl) hf rfl

/-- The lexemes of a text that are those it was written for, spaces apart, are those and the spaces that were written. -/
theorem lex_blanks {ls : List Lexeme} (hw : ∀ l ∈ ls, Inked l)
    (h : (lex (textOf (spaced ls))).filter (· != .blank ' ') = ls.filter (· != .blank ' ')) : lex (textOf (spaced ls)) = spaced ls := by
  have hc : Closed (textOf (spaced ls)) := by
    intro l hl
    by_cases hb : l = .blank ' '
    · subst hb; rfl
    · have : l ∈ ls.filter (· != .blank ' ') := by rw [← h]; exact List.mem_filter.2 ⟨hl, by simpa using hb⟩
      exact (hw l (List.mem_filter.1 this).1).2
  have hsp : ∀ ls : List Lexeme, (spaced ls).filter (· != .blank ' ') = ls.filter (· != .blank ' ') := by
    intro ls
    induction ls with
    | nil => rfl
    | cons a ls ih =>
      cases ls with
      | nil => rfl
      | cons b ls =>
        simp only [spaced]
        split
        · rw [List.filter_cons, List.filter_cons_of_neg (by simp), ih, List.filter_cons (x := a)]
        · rw [List.filter_cons, ih, List.filter_cons (x := a)]
  rw [← hsp ls] at h
  have key : ∀ (A B : List Lexeme) (t : List Char), SpellsAll A t → t = textOf B → (∀ l ∈ A, isOpen l = false ∧ ∃ v, LexOk v l) →
      (∀ l ∈ B, Inked l) → A.filter (· != .blank ' ') = B.filter (· != .blank ' ') → A = B := by
    intro A
    induction A with
    | nil =>
      intro B t hs ht _ _ hf
      cases hs
      cases B with
      | nil => rfl
      | cons b B =>
        by_cases hb : b = .blank ' '
        · subst hb; simp [textOf, text] at ht
        · rw [List.filter_cons_of_pos (by simpa using hb)] at hf; cases hf
    | cons a A ih =>
      intro B t hs ht hok hwr hf
      cases hs with
      | @cons _ _ t' s' h1 h2 =>
        have first : ∀ (l : Lexeme) (t : List Char), l ≠ .blank ' ' → l ∈ a :: A → Inked l → Spells l t → ∃ c t', t = c :: t' ∧ c ≠ ' ' := by
          intro l t hl hm hwl hs
          obtain ⟨-, v, hv⟩ := hok l hm
          cases hsol : solid l with
          | true =>
            obtain ⟨c, t', rfl, hc⟩ := spells_head hv hs hsol
            exact ⟨c, t', rfl, fun h => by rw [h] at hc; exact absurd hc (by decide)⟩
          | false =>
            have hpl := hwl.1
            cases hs with
            | blank c => exact ⟨c, [], rfl, fun h => hl (by rw [h])⟩
            | «return» => exact ⟨'\r', [], rfl, by decide⟩
            | line | block => simp [plain, solid] at hpl
            | _ => cases hsol
        cases B with
        | nil =>
          by_cases ha : a = .blank ' '
          · subst ha; cases h1; simp [textOf] at ht
          · rw [List.filter_cons_of_pos (by simpa using ha)] at hf; cases hf
        | cons b B =>
          rw [textOf_cons] at ht
          have hab : a = b := by
            by_cases ha : a = .blank ' '
            · subst ha
              by_cases hb : b = .blank ' '
              · exact hb.symm
              · rw [List.filter_cons_of_neg (by simp), List.filter_cons_of_pos (by simpa using hb)] at hf
                have hm : b ∈ A.filter (· != .blank ' ') := by rw [hf]; exact List.mem_cons_self
                have hwb := hwr b List.mem_cons_self
                obtain ⟨c, u, hu, hc⟩ := first b _ hb (List.mem_cons_of_mem _ (List.mem_filter.1 hm).1) hwb (written_spells hwb)
                cases h1
                rw [hu, List.cons_append, List.cons_append, List.cons.injEq] at ht
                exact absurd ht.1.symm hc
            · rw [List.filter_cons_of_pos (by simpa using ha)] at hf
              by_cases hb : b = .blank ' '
              · subst hb
                rw [List.filter_cons_of_neg (by simp)] at hf
                have hm : a ∈ B.filter (· != .blank ' ') := by rw [← hf]; exact List.mem_cons_self
                obtain ⟨c, u, rfl, hc⟩ := first a _ ha List.mem_cons_self (hwr a (List.mem_cons_of_mem _ (List.mem_filter.1 hm).1)) h1
                simp only [text, List.cons_append, List.nil_append, List.cons.injEq] at ht
                exact absurd ht.1 hc
              · rw [List.filter_cons_of_pos (by simpa using hb), List.cons.injEq] at hf
                exact hf.1
          subst hab
          have hr := (written_text (hwr a List.mem_cons_self) h1 ht).2
          rw [ih B s' h2 hr (fun l hl => hok l (List.mem_cons_of_mem _ hl)) (fun l hl => hwr l (List.mem_cons_of_mem _ hl))]
          rw [List.filter_cons, List.filter_cons] at hf
          split at hf
          · exact (List.cons.inj hf).2
          · exact hf
  exact key _ _ _ (lex_spells hc).1 rfl (closed_lex hc) (spaced_written hw) h

/-- The minified form of a script is read as the lexemes that were written if the script is readable. -/
theorem lex_readable {s : List Char} (h : Closed s) (hr : Readable (lex s)) :
    lex (minimal (lex s)) = spaced ((strip (lex s)).map shorten) :=
  lex_written (minimal_placed s) (fun l hl => solid_written (minimal_solid h l hl)) hr

/-- Only the readable scripts keep their meaning. -/
theorem readable_of_meaning {s : List Char} (h : Closed s)
    (hm : (strip (lex (minimal (lex s)))).map shorten = (strip (lex s)).map shorten) : Readable (lex s) :=
  written_lex (minimal_placed s) (fun l hl => solid_written (minimal_solid h l hl)) (lex_of_meaning h hm)

theorem read_of_safe : ∀ (ls v : List Lexeme), safeFrom v ls = true → readFrom v ls = true := by
  intro ls
  induction ls with
  | nil => intro _ _; rfl
  | cons a ls ih =>
    intro v h
    rw [safeFrom, Bool.and_eq_true] at h
    rw [readFrom, Bool.and_eq_true]
    refine ⟨?_, ih _ h.2⟩
    have h1 := h.1
    cases a with
    | punct t =>
      simp only [readHere, safeHere, Bool.and_eq_true, Bool.or_eq_true] at h1 ⊢
      obtain ⟨⟨⟨h1, h2⟩, h3⟩, h4⟩ := h1
      exact ⟨⟨⟨.inl h1, h2⟩, h3.imp id fun h => h.2⟩, h4⟩
    | _ => exact h1

/-- What is safe is readable. -/
theorem safe_readable {ls : List Lexeme} (h : Safe ls) : Readable ls := read_of_safe _ _ h

end Verif.Js
