import Verif.Proofs.JsArrText
import Verif.Spec.JsRename
import Verif.Props.JsArrText
/-!
# Renaming words
-/
set_option linter.unusedSimpArgs false
namespace Verif.Js
open Spec.Js Spec.JsAgg

variable {r : List Char → Option (List Char)}

/-- What is known of a renamed word. -/
theorem renames_name (h : Renames r) {w n : List Char} (he : r w = some n) : isName w = true ∧ wordOperator w = false ∧ Name n :=
  ⟨(h w n he).1, (h w n he).2.1, name_identifier (h w n he).2.2⟩

theorem Names.name (h : Names r) {w n : List Char} (he : r w = some n) : isName w = true ∧ Name n :=
  ⟨(h w n he).1, name_identifier (h w n he).2⟩

theorem names_of (h : Renames r) : Names r := fun w n he => ⟨(h w n he).1, (h w n he).2.2⟩

theorem rename_some {w n : List Char} (h : r w = some n) : rename r (.word w) = .word n := by simp [rename, h]
theorem rename_none {w : List Char} (h : r w = none) : rename r (.word w) = .word w := by simp [rename, h]

theorem rename_class (l : Lexeme) : solid (rename r l) = solid l ∧ isOpen (rename r l) = isOpen l := by
  cases l <;> exact ⟨rfl, rfl⟩

theorem gap_rename (h : Renames r) (a b : Lexeme) : gap (rename r a) (rename r b) = gap a b := by
  have hop : ∀ w, wordOperator ((r w).getD w) = wordOperator w := by
    intro w
    cases he : r w with
    | none => rfl
    | some n => rw [(renames_name h he).2.1, Option.getD_some, (renames_name h he).2.2.notOp]
  have hn : ∀ w, isName ((r w).getD w) = isName w := by
    intro w
    cases he : r w with
    | none => rfl
    | some n => rw [(renames_name h he).1, Option.getD_some, (renames_name h he).2.2.name]
  cases a <;> cases b <;> simp only [rename, gap, hop, hn]

theorem regexPossible_rename : ∀ v : List Lexeme, regexPossible (v.map (rename r)) = regexPossible v
  | [] => rfl
  | a :: v => by
    have ih := regexPossible_rename v
    cases a <;> simp only [List.map_cons, rename, regexPossible, ih]

theorem lexOk_rename (h : Names r) {v : List Lexeme} {l : Lexeme} (hl : LexOk v l) : LexOk (v.map (rename r)) (rename r l) := by
  cases l with
  | word w =>
    cases he : r w with
    | none => rw [rename_none he]; exact hl
    | some n => rw [rename_some he]; exact (Names.name h he).2.ok
  | regex b fl => exact ⟨by rw [regexPossible_rename]; exact hl.1, hl.2⟩
  | _ => exact hl

theorem solid_rename (h : Names r) {l : Lexeme} (hl : Solid l) : Solid (rename r l) := by
  obtain ⟨h1, h2, v, h3⟩ := hl
  exact ⟨by rw [rename_class l |>.2, h1], by rw [rename_class l |>.1, h2], _, lexOk_rename h h3⟩

theorem placed_rename (h : Names r) : ∀ (ls v : List Lexeme), Placed v ls → Placed (v.map (rename r)) (ls.map (rename r))
  | [], _, _ => trivial
  | a :: ls, v, hp => ⟨lexOk_rename h hp.1, placed_rename h ls (a :: v) hp.2⟩

theorem shorten_rename (h : Names r) (l : Lexeme) : shorten (rename r l) = rename r (shorten l) := by
  cases l with
  | word w =>
    cases he : r w with
    | none =>
      rw [rename_none he]
      by_cases hi : isInteger w = true
      · have hs : r (shortest w) = none := by
          cases hx : r (shortest w) with
          | none => rfl
          | some n =>
            have := (Names.name h hx).1
            simp [isName, (shortest_ok hi).1] at this
        simp only [shorten, hi, if_true]
        rw [rename_none hs]
      · rw [show shorten (.word w) = .word w by simp [shorten, hi], rename_none he]
    | some n =>
      obtain ⟨h1, h3⟩ := Names.name h he
      have hi : isInteger w = false := by
        simp only [isName, Bool.and_eq_true, Bool.not_eq_true'] at h1; exact h1.1
      rw [rename_some he, h3.shorten, show shorten (.word w) = .word w by simp [shorten, hi], rename_some he]
  | _ => rfl

/-- What follows a lexeme, renamed. -/
theorem nextChar_rename (h : Renames r) (a : Lexeme) (ls : List Lexeme) :
    nextChar (rename r a) (ls.map (rename r)) = nextChar a ls ∨
      ∃ w n ls' c, ls = .word w :: ls' ∧ r w = some n ∧ gap a (.word w) = false ∧ n.head? = some c ∧ endsNumber c = false ∧ isPunct c = false ∧
        nextChar (rename r a) (ls.map (rename r)) = some c := by
  cases ls with
  | nil => exact .inl rfl
  | cons b ls =>
    simp only [List.map_cons, nextChar, gap_rename h]
    cases hg : gap a b with
    | true => exact .inl rfl
    | false =>
      simp only [if_false, Bool.false_eq_true]
      cases b with
      | word w =>
        cases he : r w with
        | none => rw [rename_none he]; exact .inl rfl
        | some n =>
          obtain ⟨c, h1, h2, h3⟩ := (renames_name h he).2.2.head
          exact .inr ⟨w, n, ls, c, rfl, he, hg, h1, h2, h3, by rw [rename_some he]; exact h1⟩
      | _ => exact .inl rfl

private theorem compound_letter {t : List Char} {c : Char} (h : isPunct c = false) : compounds.contains (t ++ [c]) = false := by
  have hs : ∀ x ∈ compounds, x.getLast?.any isPunct = true := by decide +kernel
  cases hx : compounds.contains (t ++ [c]) with
  | false => rfl
  | true =>
    have := hs _ (List.contains_iff_mem.1 hx)
    simp [h] at this

theorem wordBefore_rename (h : Renames r) (v : List Lexeme) (x : Option Char) (hx : x.any Spec.Js.isDigit = false)
    (hd : dotInWord (wordBefore v) x.toList = false) : dotInWord (wordBefore (v.map (rename r))) x.toList = false := by
  cases v with
  | nil => exact hd
  | cons a v =>
    cases a with
    | word w =>
      cases he : r w with
      | none => rw [List.map_cons, rename_none he]; exact hd
      | some n =>
        rw [List.map_cons, rename_some he]
        have hn := (renames_name h he).2.2.notInteger
        cases x with
        | none => simp [wordBefore, dotInWord, hn]
        | some y =>
          have hx : Spec.Js.isDigit y = false := by simpa using hx
          simp [wordBefore, dotInWord, hn, hx]
    | _ => exact hd

theorem safeHere_rename (h : Renames r) {v ls : List Lexeme} {a : Lexeme} (hs : safeHere v a ls = true) (hf : flagged r a ls = false) :
    safeHere (v.map (rename r)) (rename r a) (ls.map (rename r)) = true := by
  have hnext := nextChar_rename h a ls
  cases a with
  | word w =>
    simp only [safeHere, Bool.and_eq_true] at hs
    have h2 : (match ls.map (rename r) with
        | .word w' :: _ => gap (rename r (.word w)) (.word w')
        | _ => true) = true := by
      cases ls with
      | nil => rfl
      | cons b ls =>
        cases b with
        | word w' =>
          have := gap_rename h (.word w) (.word w')
          exact this.trans hs.2
        | _ => rfl
    cases he : r w with
    | some n =>
      rw [rename_some he] at h2 ⊢
      simp only [safeHere, Bool.and_eq_true]
      refine ⟨?_, h2⟩
      have := (renames_name h he).2.2.last
      simp [this]
    | none =>
      rw [rename_none he] at h2 hnext ⊢
      simp only [safeHere, Bool.and_eq_true]
      refine ⟨?_, h2⟩
      rcases hnext with e | ⟨w', n, ls', c, rfl, -, hg, -⟩
      · rw [e]; exact hs.1
      · have h3 : gap (.word w) (.word w') = true := hs.2
        rw [hg] at h3; cases h3
  | punct t =>
    have hr : rename r (.punct t) = .punct t := rfl
    rw [hr] at hnext ⊢
    simp only [safeHere, Bool.and_eq_true] at hs ⊢
    obtain ⟨⟨⟨h1, h2⟩, h3⟩, h4⟩ := hs
    rw [regexPossible_rename]
    rcases hnext with e | ⟨w, n, ls', c, -, -, -, -, hc1, hc2, e⟩
    · rw [e]
      refine ⟨⟨⟨h1, h2⟩, ?_⟩, h4⟩
      simp only [Bool.or_eq_true, Bool.and_eq_true, Bool.not_eq_true'] at h3 ⊢
      rcases h3 with h3 | ⟨h3, h5⟩
      · exact .inl h3
      · exact .inr ⟨h3, wordBefore_rename h v _ h3 h5⟩
    · rw [e]
      have hdig := digit_ends hc1
      have hd : ∀ u : List Char, dotInWord u [c] = false := by intro u; simp [dotInWord, hdig, hc1]
      refine ⟨⟨⟨h1, ?_⟩, ?_⟩, ?_⟩
      · have n1 : c ≠ '/' := by rintro rfl; exact absurd hc2 (by decide)
        have n2 : c ≠ '*' := by rintro rfl; exact absurd hc2 (by decide)
        simp [n1, n2]
      · simp [hdig, hd]
      · show (!compounds.contains (t ++ [c])) = true
        rw [compound_letter hc2]; rfl
  | regex b fl =>
    have hr : rename r (.regex b fl) = .regex b fl := rfl
    rw [hr] at hnext ⊢
    simp only [safeHere] at hs ⊢
    rcases hnext with e | ⟨w, n, ls', c, rfl, he, -, hc, -, -, e⟩
    · rw [e]; exact hs
    · rw [e]
      have : isFlag c = false := by simpa [flagged, he, hc] using hf
      simp [this]
  | _ => rfl

theorem safeFrom_rename (h : Renames r) : ∀ (ls v : List Lexeme), safeFrom v ls = true → unflagged r ls = true →
    safeFrom (v.map (rename r)) (ls.map (rename r)) = true
  | [], _, _, _ => rfl
  | a :: ls, v, hs, hf => by
    simp only [safeFrom, Bool.and_eq_true] at hs
    simp only [unflagged, Bool.and_eq_true, Bool.not_eq_true'] at hf
    simp only [List.map_cons, safeFrom, Bool.and_eq_true]
    exact ⟨safeHere_rename h hs.1 hf.1, safeFrom_rename h ls (a :: v) hs.2 hf.2⟩

theorem unflagged_shorten (h : Renames r) : ∀ ls : List Lexeme, unflagged r ls = true → unflagged r (ls.map shorten) = true
  | [], _ => rfl
  | a :: ls, hf => by
    simp only [unflagged, Bool.and_eq_true, Bool.not_eq_true'] at hf
    simp only [List.map_cons, unflagged, Bool.and_eq_true, Bool.not_eq_true']
    refine ⟨?_, unflagged_shorten h ls hf.2⟩
    have hf := hf.1
    cases a with
    | regex b fl =>
      cases ls with
      | nil => rfl
      | cons c ls =>
        cases c with
        | word w =>
          by_cases hi : isInteger w = true
          · have hs : r (shortest w) = none := by
              cases hx : r (shortest w) with
              | none => rfl
              | some n =>
                have := (renames_name h hx).1
                simp [isName, (shortest_ok hi).1] at this
            simp [shorten, hi, flagged, hs]
          · simpa [shorten, hi, flagged] using hf
        | _ => rfl
    | word w => simp only [shorten]; split <;> rfl
    | _ => rfl

/-! ## Tokens -/

/-- The callback for `replace_tokens_with` that renames words. -/
def renamer (r : List Char → Option (List Char)) : Token → Option Token
  | .keyword k => (r k.display).map .other
  | .other w => (r w).map .other
  | _ => none

theorem replaceTokensWith_map (f : Token → Option Token) : ∀ ts : List Token, replaceTokensWith f ts = ts.map (replaceTokenWith f)
  | [] => rfl
  | t :: ts => by rw [replaceTokensWith, replaceTokensWith_map f ts]; rfl

theorem tokOf_rename (h : Names r) {l : Lexeme} (ho : isOpen l = false) {v : List Lexeme} (hl : LexOk v l) :
    replaceTokenWith (renamer r) (tokOf l) = tokOf (rename r l) := by
  cases l with
  | word w =>
    have key : ∀ t : Token, renamer r t = (r w).map .other → tokOf (.word w) = t →
        replaceTokenWith (renamer r) t = tokOf (rename r (.word w)) := by
      intro t h1 h2
      unfold replaceTokenWith
      rw [h1]
      cases he : r w with
      | none => rw [rename_none he, h2]; rfl
      | some n => rw [rename_some he, (Names.name h he).2.token]; rfl
    have none_of : isName w = false → r w = none := by
      intro hn
      cases he : r w with
      | none => rfl
      | some n => rw [(Names.name h he).1] at hn; cases hn
    rcases word_cases (show WordOk w from hl).noSign with ⟨-, k, e, hk⟩ | ⟨-, hi, e⟩ | ⟨-, hi, hf, e⟩ | ⟨-, -, -, e⟩ <;>
      (have e : tokOf (.word w) = _ := e) <;> rw [e]
    · exact key _ (by rw [renamer, hk]) e
    · exact key _ (by rw [none_of (by simp [isName, hi])]; rfl) e
    · exact key _ (by rw [none_of (by simp [isName, hf])]; rfl) e
    · exact key _ rfl e
  | punct t =>
    have hs : ∀ t ∈ puncts, (match tokOf (.punct t) with | .keyword _ => false | .other _ => false | _ => true) = true := by decide +kernel
    have := hs t hl
    show replaceTokenWith (renamer r) (tokOf (.punct t)) = tokOf (.punct t)
    cases hx : tokOf (.punct t) <;> first | rfl | (rw [hx] at this; cases this)
  | openLine _ => cases ho
  | openBlock _ => cases ho
  | _ => first | rfl | cases ho

/-- Tokens that cleaning looks at. -/
def looked (t : Token) : Bool := !keepTok t || t == .char .semiColon

theorem clean_replace {f : Token → Option Token} (hf : ∀ t t', f t = some t' → looked t = false ∧ looked t' = false) (ts : List Token) :
    cleanTokens (replaceTokensWith f ts) = replaceTokensWith f (cleanTokens ts) := by
  have hk : ∀ t, keepTok (replaceTokenWith f t) = keepTok t ∧
      (replaceTokenWith f t == .char .semiColon) = (t == .char .semiColon) := by
    intro t
    unfold replaceTokenWith
    cases he : f t with
    | none => exact ⟨rfl, rfl⟩
    | some t' =>
      obtain ⟨h1, h2⟩ := hf t t' he
      simp only [looked, Bool.or_eq_false_iff, Bool.not_eq_false'] at h1 h2
      exact ⟨by rw [h1.1]; exact h2.1, by rw [h1.2]; exact h2.2⟩
  rw [replaceTokensWith_map, replaceTokensWith_map, cleanTokens_eq, cleanTokens_eq, List.filter_map]
  rw [List.dropWhile_map]
  have e1 : ((keepTok ∘ replaceTokenWith f) : Token → Bool) = keepTok := funext fun t => (hk t).1
  have e2 : (((· == .char .semiColon) ∘ replaceTokenWith f) : Token → Bool) = (· == .char .semiColon) := funext fun t => (hk t).2
  rw [e1, e2]

/-! ## Cleaning with a callback -/

/-- Tokens that cleaning with a callback looks at. -/
def watched (t : Token) : Bool := looked t || t == .char .closeCurly

/-- Replacing does nothing to tokens that are watched, and makes none. -/
private def Apart (g : Token → Token) : Prop := ∀ t, g t = t ∨ (watched t = false ∧ watched (g t) = false)

private theorem Apart.facts {g : Token → Token} (hg : Apart g) (t : Token) :
    (g t).isWhite = t.isWhite ∧ ((g t).isComment || (g t).isWhite) = (t.isComment || t.isWhite) ∧
      ((g t).getChar == some .semiColon) = (t.getChar == some .semiColon) ∧ (g t != .char .closeCurly) = (t != .char .closeCurly) ∧
      ((t.isComment || t.isWhite || t.getChar == some .semiColon) = true → g t = t) := by
  have key : ∀ t : Token, watched t = false → t.isWhite = false ∧ t.isComment = false ∧ (t.getChar == some .semiColon) = false ∧
      (t != .char .closeCurly) = true := by
    intro t h
    simp only [watched, looked, keepTok, Bool.or_eq_false_iff, Bool.not_eq_false', Bool.not_eq_true'] at h
    obtain ⟨⟨h1, h2⟩, h3⟩ := h
    refine ⟨h1.2, h1.1, ?_, by rw [bne, h3]; rfl⟩
    cases t with
    | char c => cases c <;> first | rfl | (cases h2; done)
    | _ => rfl
  rcases hg t with e | ⟨h1, h2⟩
  · rw [e]; exact ⟨rfl, rfl, rfl, rfl, fun _ => rfl⟩
  · obtain ⟨a1, a2, a3, a4⟩ := key _ h1
    obtain ⟨b1, b2, b3, b4⟩ := key _ h2
    rw [a1, a2, a3, a4, b1, b2, b3, b4]
    exact ⟨rfl, rfl, rfl, rfl, fun h => by cases h⟩

private theorem getNextExcept_map {g : Token → Token} (hg : Apart g) (f : Token → Bool) : ∀ ts : List Token,
    getNextExcept f (ts.map g) = (getNextExcept f ts).map fun p => (g p.1, p.2.map g)
  | [] => rfl
  | t :: ts => by
    have ih := getNextExcept_map hg f ts
    obtain ⟨-, h2, -, -, h5⟩ := hg.facts t
    rw [List.map_cons, getNextExcept, getNextExcept, h2]
    cases hc : (t.isComment || t.isWhite) with
    | false => rfl
    | true =>
      rw [h5 (by rw [hc]; rfl)]
      cases f t with
      | true => exact ih
      | false =>
        simp only [Bool.and_false, Bool.false_eq_true, if_false, Option.map_some]
        rw [h5 (by rw [hc]; rfl)]

private theorem cleanExceptLoop_map {g : Token → Token} (hg : Apart g) (f : Token → Bool) : ∀ (n : Nat) (v ts : List Token),
    cleanExceptLoop f n (v.map g) (ts.map g) = (cleanExceptLoop f n v ts).map g
  | 0, _, _ => rfl
  | n + 1, v, ts => by
    have ih := cleanExceptLoop_map hg f n
    rw [cleanExceptLoop, cleanExceptLoop, getNextExcept_map hg]
    cases getNextExcept f ts with
    | none => rfl
    | some p =>
      obtain ⟨t, ts⟩ := p
      simp only [Option.map_some]
      obtain ⟨h1, -, h3, -, h5⟩ := hg.facts t
      rw [h1, h3]
      cases hw : t.isWhite with
      | true =>
        have e := h5 (by rw [hw]; simp)
        simp only [if_true]
        rw [e]
        cases f t with
        | true => exact ih v ts
        | false =>
          have := ih (t :: v) ts
          rw [List.map_cons, e] at this
          exact this
      | false =>
        simp only [Bool.false_eq_true, if_false]
        cases hs : (t.getChar == some .semiColon) with
        | false => exact ih (t :: v) ts
        | true =>
          have e := h5 (by rw [hs]; simp)
          simp only [if_true]
          rw [e]
          cases v with
          | nil =>
            simp only [List.map_nil, List.isEmpty_nil, if_true]
            rw [← ih]
            cases f t <;> simp [e]
          | cons x v =>
            simp only [List.map_cons, List.isEmpty_cons, Bool.false_eq_true, if_false]
            rw [getNextExcept_map hg]
            cases getNextExcept f ts with
            | none =>
              simp only [Option.map_none]
              rw [← ih]
              congr 1
              cases f t <;> simp [e]
            | some q =>
              obtain ⟨next, ts⟩ := q
              simp only [Option.map_some]
              obtain ⟨-, -, -, h4, -⟩ := hg.facts next
              rw [h4, ← ih]
              congr 1
              cases (next != .char .closeCurly || !f t) <;> simp [e]

theorem cleanExcept_replace {g : Token → Option Token} (hg : ∀ t t', g t = some t' → watched t = false ∧ watched t' = false)
    (f : Token → Bool) (ts : List Token) : cleanTokensExcept f (replaceTokensWith g ts) = replaceTokensWith g (cleanTokensExcept f ts) := by
  have hap : Apart (replaceTokenWith g) := by
    intro t
    unfold replaceTokenWith
    cases he : g t with
    | none => exact .inl rfl
    | some t' => exact .inr (hg t t' he)
  rw [replaceTokensWith_map, replaceTokensWith_map]
  unfold cleanTokensExcept
  have := cleanExceptLoop_map hap f (ts.length + 1) [] ts
  rw [List.map_nil] at this
  rw [List.length_map, this, List.map_reverse]

end Verif.Js
