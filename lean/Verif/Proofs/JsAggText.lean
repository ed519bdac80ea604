import Verif.Proofs.JsRelex
import Verif.Spec.JsAggText
/-!
# Reading scripts with aggregated strings back: lexemes
-/
set_option linter.unusedSimpArgs false
namespace Verif.Js
open Spec.Js

/-! ## Names -/

/-- A name that is not taken for anything else, wherever it stands. -/
structure Name (n : List Char) : Prop where
  ok : WordOk n
  name : isName n = true
  key : n ∉ keywords
  last : n.getLast? ≠ some '.'
  head : ∃ c, n.head? = some c ∧ endsNumber c = false ∧ isPunct c = false

theorem Name.notInteger {n : List Char} (h : Name n) : isInteger n = false := by
  have := h.name
  simp only [isName, Bool.and_eq_true, Bool.not_eq_true'] at this
  exact this.1

theorem Name.notOp {n : List Char} (h : Name n) : wordOperator n = false := by
  cases hx : wordOperator n with
  | false => rfl
  | true =>
    exfalso
    simp only [wordOperator, Bool.or_eq_true, beq_iff_eq] at hx
    rcases hx with rfl | rfl
    · exact h.key (by decide +kernel)
    · exact h.key (by decide +kernel)

theorem Name.token {n : List Char} (h : Name n) : tokOf (.word n) = .other n := by
  rcases word_cases h.ok.noSign with ⟨h1, -⟩ | ⟨-, h2, -⟩ | ⟨-, -, h3, -⟩ | ⟨-, -, -, h4⟩
  · exact absurd h1 h.key
  · rw [h.notInteger] at h2; cases h2
  · have := h.name
    simp only [isName, Bool.and_eq_true, Bool.not_eq_true'] at this
    rw [this.2] at h3; cases h3
  · exact h4

theorem Name.shorten {n : List Char} (h : Name n) : shorten (.word n) = .word n := by
  simp [Spec.Js.shorten, h.notInteger]

theorem digit_ends {c : Char} (h : endsNumber c = false) : Spec.Js.isDigit c = false := by
  cases hx : Spec.Js.isDigit c with
  | false => rfl
  | true =>
    exfalso
    have hs : ∀ c ∈ "0123456789".toList, endsNumber c = true := by decide +kernel
    have := hs c (by simpa [Spec.Js.isDigit] using hx)
    rw [h] at this; cases this

theorem compound_punct {t : List Char} {c : Char} (h : compounds.contains (t ++ [c]) = true) : isPunct c = true := by
  have hs : ∀ u ∈ compounds, (u.getLast?.any isPunct) = true := by decide +kernel
  have := hs _ (by simpa using h)
  simpa using this

theorem compound_first {x c : Char} (h : compounds.contains [x, c] = true) : x ∉ [',', ';', '[', ']'] := by
  have hs : ∀ u ∈ compounds, (u.head?.all fun x => x ∉ [',', ';', '[', ']']) = true := by decide +kernel
  have := hs _ (by simpa using h)
  simpa using this

theorem compound_second {x c : Char} (h : compounds.contains [x, c] = true) : c ∉ ['"', '\'', '`'] := by
  have hs : ∀ u ∈ compounds, (u.getLast?.all fun x => x ∉ ['"', '\'', '`']) = true := by decide +kernel
  have := hs _ (by simpa using h)
  simpa using this

theorem gap_name {a : Lexeme} {n : List Char} (hn : Name n) (ha : freeBefore a = true) : gap a (.word n) = false := by
  cases a with
  | word w => cases ha
  | _ => simp [gap, hn.notOp]

/-! ## What stands before only matters a little -/

theorem safeHere_congr {v v' : List Lexeme} (hr : regexPossible v' = regexPossible v) (hw : wordBefore v' = wordBefore v)
    (a : Lexeme) (ls : List Lexeme) : safeHere v' a ls = safeHere v a ls := by
  unfold safeHere
  rw [hr, hw]

theorem safeFrom_congr : ∀ (ls v v' : List Lexeme), regexPossible v' = regexPossible v → wordBefore v' = wordBefore v →
    safeFrom v' ls = safeFrom v ls
  | [], _, _, _, _ => rfl
  | a :: ls, v, v', hr, hw => by
    rw [safeFrom, safeFrom, safeHere_congr hr hw]
    congr 1
    refine safeFrom_congr ls _ _ ?_ ?_
    · cases a <;> simp only [regexPossible] <;> exact hr
    · cases a <;> rfl

theorem rp_close (v : List Lexeme) : regexPossible (.punct [']'] :: v) = false :=
  show beforeOperand.contains [']'] = false by decide +kernel

theorem rp_semi (v : List Lexeme) : regexPossible (.punct [';'] :: v) = true :=
  show beforeOperand.contains [';'] = true by decide +kernel

/-! ## Replacing literals -/

theorem wordOk_plain {w : List Char} (hne : w ≠ []) (h : ∀ c ∈ w, isBlank c = false ∧ isPunct c = false) : WordOk w := by
  refine ⟨hne, [], .inl rfl, ?_⟩
  intro p c r he
  have := h c (by rw [he]; simp)
  exact ⟨this.1, .inl this.2⟩

/-- An unsigned number without a fraction, of any size. -/
def Digits (d : List Char) : Prop := d ≠ [] ∧ ∀ c ∈ d, Spec.Js.isDigit c = true

theorem Digits.ok {d : List Char} (h : Digits d) : WordOk d := by
  have hs : ∀ c ∈ "0123456789".toList, isBlank c = false ∧ isPunct c = false := by decide +kernel
  exact wordOk_plain h.1 fun c hc => hs c (by simpa [Spec.Js.isDigit] using h.2 c hc)

theorem Digits.last {d : List Char} (h : Digits d) : d.getLast? ≠ some '.' := by
  intro hl
  have := h.2 '.' (List.mem_of_getLast? hl)
  exact absurd this (by decide)

/-- What is put in the place of a literal: a name, or an element of an array. -/
inductive Piece : List Lexeme → Prop
  | name {n : List Char} : Name n → Piece [.word n]
  | elem {n d : List Char} : Name n → Digits d → Piece [.word n, .punct ['['], .word d, .punct [']']]

/-- Some literals are replaced. -/
inductive Swap (rep : List Char → Bool) : List Lexeme → List Lexeme → Prop
  | nil : Swap rep [] []
  | keep {l : Lexeme} {ls ls' : List Lexeme} : Swap rep ls ls' → Swap rep (l :: ls) (l :: ls')
  | new {s : List Char} {p ls ls' : List Lexeme} : rep s = true → Piece p → Swap rep ls ls' → Swap rep (.str s :: ls) (p ++ ls')

/-- How what stands before is changed. -/
def SameBefore (v v' : List Lexeme) : Prop :=
  regexPossible v' = regexPossible v ∧ (wordBefore v' = wordBefore v ∨ (wordBefore v = [] ∧ Name (wordBefore v')))

theorem SameBefore.cons {v v' : List Lexeme} (h : SameBefore v v') (a : Lexeme) : SameBefore (a :: v) (a :: v') := by
  refine ⟨?_, .inl ?_⟩
  · cases a <;> simp only [regexPossible] <;> exact h.1
  · cases a <;> rfl

/-- The next character is as before, or it begins a name. -/
theorem nextChar_swap {after rep} {a : Lexeme} {ls ls' : List Lexeme} (h : Swap rep ls ls')
    (hl : looseFrom after rep (some a) ls = true) :
    nextChar a ls' = nextChar a ls ∨
      (freeBefore a = true ∧ ∃ c, nextChar a ls' = some c ∧ endsNumber c = false ∧ isPunct c = false) := by
  cases h with
  | nil => exact .inl rfl
  | keep h => exact .inl rfl
  | @new s p ls ls' hr hp h =>
    right
    simp only [looseFrom, hr, Bool.not_true, Bool.false_or, Bool.and_eq_true, Option.all_some] at hl
    have ha := hl.1.1
    refine ⟨ha, ?_⟩
    have key : ∀ n rest, Name n → ∃ c, nextChar a (.word n :: rest) = some c ∧ endsNumber c = false ∧ isPunct c = false := by
      intro n rest hn
      obtain ⟨c, hc, h1, h2⟩ := hn.head
      refine ⟨c, ?_, h1, h2⟩
      simp only [nextChar, gap_name hn ha]
      exact hc
    cases hp with
    | name hn => exact key _ _ hn
    | elem hn _ => exact key _ _ hn

theorem safeHere_swap {after rep} {v v' : List Lexeme} {a : Lexeme} {ls ls' : List Lexeme} (hv : SameBefore v v') (h : Swap rep ls ls')
    (hl : looseFrom after rep (some a) ls = true) (hs : safeHere v a ls = true) : safeHere v' a ls' = true := by
  have hn := nextChar_swap h hl
  cases a with
  | word w =>
    have hn : nextChar (.word w) ls' = nextChar (.word w) ls := by
      rcases hn with hn | ⟨hn, -⟩
      · exact hn
      · cases hn
    simp only [safeHere, hn, Bool.and_eq_true] at hs ⊢
    refine ⟨hs.1, ?_⟩
    cases h with
    | nil => rfl
    | @keep l _ _ h => cases l <;> exact hs.2
    | new hr hp h =>
      simp only [looseFrom, hr, Bool.not_true, Bool.false_or, Bool.and_eq_true, Option.all_some] at hl
      cases hl.1.1
  | regex b fl =>
    rcases hn with hn | ⟨hn, -⟩
    · simpa only [safeHere, hn] using hs
    · cases hn
  | punct t =>
    simp only [safeHere, Bool.and_eq_true, Bool.or_eq_true, hv.1] at hs ⊢
    obtain ⟨⟨⟨h1, h2⟩, h3⟩, h4⟩ := hs
    rcases hn with hn | ⟨-, c, hn, hc1, hc2⟩
    · rw [hn]
      refine ⟨⟨⟨h1, h2⟩, ?_⟩, h4⟩
      rcases h3 with h3 | h3
      · exact .inl h3
      · refine .inr ⟨h3.1, ?_⟩
        rcases hv.2 with hw | ⟨hw, hw'⟩
        · rw [hw]; exact h3.2
        · have h5 := h3.1
          have hd : dotInWord (wordBefore v') (nextChar (.punct t) ls).toList = false := by
            unfold dotInWord
            cases hx : nextChar (.punct t) ls with
            | none => simp [hw'.notInteger]
            | some x =>
              rw [hx] at h5
              simp only [Option.any_some, Bool.not_eq_true'] at h5
              simp [hw'.notInteger, h5]
          rw [hd]; rfl
    · rw [hn]
      refine ⟨⟨⟨h1, ?_⟩, ?_⟩, ?_⟩
      · right
        refine ⟨?_, ?_⟩ <;>
        · simp only [bne_iff_ne, ne_eq, Option.some.injEq]
          rintro rfl
          revert hc2; decide
      · right
        have hd := digit_ends hc1
        refine ⟨by simp [hd], ?_⟩
        simp [dotInWord, hd, hc1]
      · cases hx : compounds.contains (t ++ [c]) with
        | false => simp only [hx]; rfl
        | true => rw [compound_punct hx] at hc2; cases hc2
  | _ => rfl

theorem safeHere_name {v : List Lexeme} {n : List Char} {ls : List Lexeme} (hn : Name n) : safeHere v (.word n) ls = true := by
  simp only [safeHere, Bool.and_eq_true, Bool.or_eq_true]
  refine ⟨.inl (by simpa using hn.last), ?_⟩
  split
  · simp [gap, hn.name]
  · rfl

/-- A delimiter that is in no operator. -/
theorem safeHere_delim {v : List Lexeme} {x : Char} {ls : List Lexeme} (hx : x ∈ [',', ';', '[', ']']) :
    safeHere v (.punct [x]) ls = true := by
  have h4 : (match nextChar (.punct [x]) ls with
     | some c => !compounds.contains ([x] ++ [c])
     | none => true) = true := by
    split
    · rename_i c _
      cases hc : compounds.contains ([x] ++ [c]) with
      | false => rfl
      | true => exact absurd hx (compound_first hc)
    · rfl
  simp only [safeHere, Bool.and_eq_true, h4]
  simp only [List.mem_cons, List.not_mem_nil, or_false] at hx
  rcases hx with rfl | rfl | rfl | rfl <;> exact ⟨⟨⟨rfl, rfl⟩, rfl⟩, h4⟩

theorem Swap.safe {after : Lexeme → Bool} {rep : List Char → Bool} :
    ∀ {ls ls' : List Lexeme} {v v' : List Lexeme}, Swap rep ls ls' → SameBefore v v' → looseFrom after rep v.head? ls = true →
      safeFrom v ls = true → safeFrom v' ls' = true
  | _, _, _, _, .nil, _, _, _ => rfl
  | _, _, v, v', .keep (l := l) h, hv, hl, hs => by
    simp only [looseFrom, safeFrom, Bool.and_eq_true] at hl hs ⊢
    exact ⟨safeHere_swap hv h hl.2 hs.1, Swap.safe h (hv.cons l) (v := l :: v) hl.2 hs.2⟩
  | _, _, v, v', .new (s := s) (ls' := ls') hr hp h, hv, hl, hs => by
    simp only [looseFrom, safeFrom, Bool.and_eq_true] at hl hs
    cases hp with
    | @name n hn =>
      simp only [List.cons_append, List.nil_append, safeFrom, Bool.and_eq_true]
      exact ⟨safeHere_name hn, Swap.safe (v := .str s :: v) h ⟨rfl, .inr ⟨rfl, hn⟩⟩ hl.2 hs.2⟩
    | @elem n d hn hd =>
      simp only [List.cons_append, List.nil_append, safeFrom, Bool.and_eq_true]
      refine ⟨safeHere_name hn, safeHere_delim (by simp), ?_, safeHere_delim (by simp), ?_⟩
      · simp only [safeHere, Bool.and_eq_true, Bool.or_eq_true, and_true]
        exact .inl (by simpa using hd.last)
      · exact Swap.safe (v := .str s :: v) h ⟨rp_close _, .inl rfl⟩ hl.2 hs.2

theorem wordOk_piece {p : List Lexeme} (hp : Piece p) : ∀ l ∈ p, Solid l := by
  have hpu : ∀ t ∈ [['['], [']']], t ∈ puncts := by decide +kernel
  intro l hl
  cases hp with
  | name hn =>
    simp only [List.mem_cons, List.not_mem_nil, or_false] at hl
    subst hl
    exact ⟨rfl, rfl, [], hn.ok⟩
  | elem hn hd =>
    simp only [List.mem_cons, List.not_mem_nil, or_false] at hl
    rcases hl with rfl | rfl | rfl | rfl
    · exact ⟨rfl, rfl, [], hn.ok⟩
    · exact ⟨rfl, rfl, [], hpu _ (by simp)⟩
    · exact ⟨rfl, rfl, [], hd.ok⟩
    · exact ⟨rfl, rfl, [], hpu _ (by simp)⟩

theorem Swap.solid {rep : List Char → Bool} {ls ls' : List Lexeme} (h : Swap rep ls ls') (hs : ∀ l ∈ ls, Solid l) :
    ∀ l ∈ ls', Solid l := by
  induction h with
  | nil => exact hs
  | keep h ih =>
    intro l hl
    rcases List.mem_cons.1 hl with rfl | hl
    · exact hs _ List.mem_cons_self
    · exact ih (fun l hl => hs l (List.mem_cons_of_mem _ hl)) l hl
  | new hr hp h ih =>
    intro l hl
    rcases List.mem_append.1 hl with hl | hl
    · exact wordOk_piece hp l hl
    · exact ih (fun l hl => hs l (List.mem_cons_of_mem _ hl)) l hl

theorem Swap.placed {rep : List Char → Bool} : ∀ {ls ls' v v' : List Lexeme}, Swap rep ls ls' →
    regexPossible v' = regexPossible v → Placed v ls → Placed v' ls'
  | _, _, _, _, .nil, _, _ => trivial
  | _, _, v, v', .keep (l := l) h, hr, hp => by
    refine ⟨hp.1.congr hr, h.placed ?_ hp.2⟩
    cases l <;> simp only [regexPossible] <;> exact hr
  | _, _, v, v', .new (s := s) _ hq h, hr, hp => by
    have hpu : ∀ t ∈ [['['], [']']], t ∈ puncts := by decide +kernel
    cases hq with
    | @name n hn => exact ⟨hn.ok, h.placed (v := .str s :: v) rfl hp.2⟩
    | @elem n d hn hd =>
      exact ⟨hn.ok, hpu _ (by simp), hd.ok, hpu _ (by simp), h.placed (v := .str s :: v) (rp_close _) hp.2⟩

/-! ## The declaration -/

/-- Literals and names of a declaration. -/
def DeclOk (D : List (List Char × List Char)) : Prop := ∀ p ∈ D, Name p.2 ∧ Solid (.str p.1)

theorem str_head {s : List Char} (h : Solid (.str s)) : ∃ c, s.head? = some c ∧ c ∈ ['"', '\'', '`'] := by
  obtain ⟨-, -, v, q, b, rfl, h⟩ := h
  refine ⟨q, rfl, ?_⟩
  rcases h with ⟨h | h, -⟩ | ⟨h, -⟩ <;> simp [h]

theorem safeHere_equal {v : List Lexeme} {s : List Char} {ls : List Lexeme} (h : Solid (.str s)) :
    safeHere v (.punct ['=']) (.str s :: ls) = true := by
  obtain ⟨c, hc, hm⟩ := str_head h
  have hn : nextChar (.punct ['=']) (.str s :: ls) = some c := hc
  have h4 : compounds.contains (['='] ++ [c]) = false := by
    cases hx : compounds.contains (['='] ++ [c]) with
    | false => rfl
    | true => exact absurd hm (compound_second hx)
  simp only [safeHere, hn, h4]
  rfl

theorem assignments_ok : ∀ (D : List (List Char × List Char)) (v rest : List Lexeme), DeclOk D → D ≠ [] →
    (Placed [] rest → Placed v (assignments D ++ .punct [';'] :: rest)) ∧
    (safeFrom [] rest = true → safeFrom v (assignments D ++ .punct [';'] :: rest) = true) ∧
    ∀ l ∈ assignments D, Solid l
  | [], _, _, _, h => absurd rfl h
  | [(s, n)], v, rest, hD, _ => by
    obtain ⟨hn, hs⟩ := hD _ List.mem_cons_self
    have hpu : ∀ t ∈ [['='], [';']], t ∈ puncts := by decide +kernel
    refine ⟨fun hr => ⟨hn.ok, hpu _ (by simp), ?_, hpu _ (by simp), ?_⟩, fun hr => ?_, ?_⟩
    · exact hs.2.2.choose_spec
    · exact Placed.mono _ _ _ (rp_semi _) hr
    · simp only [assignments, List.cons_append, List.nil_append, safeFrom, Bool.and_eq_true]
      exact ⟨safeHere_name hn, safeHere_equal hs, rfl, safeHere_delim (by simp), by rw [← hr]; exact safeFrom_congr _ _ _ (rp_semi _) rfl⟩
    · intro l hl
      simp only [assignments, List.mem_cons, List.not_mem_nil, or_false] at hl
      rcases hl with rfl | rfl | rfl
      · exact ⟨rfl, rfl, [], hn.ok⟩
      · exact ⟨rfl, rfl, [], hpu _ (by simp)⟩
      · exact hs
  | (s, n) :: p :: D, v, rest, hD, _ => by
    obtain ⟨hn, hs⟩ := hD _ List.mem_cons_self
    have hpu : ∀ t ∈ [['='], [',']], t ∈ puncts := by decide +kernel
    have ih := fun v => assignments_ok (p :: D) v rest (fun q hq => hD q (List.mem_cons_of_mem _ hq)) (by simp)
    refine ⟨fun hr => ⟨hn.ok, hpu _ (by simp), ?_, hpu _ (by simp), (ih _).1 hr⟩, fun hr => ?_, ?_⟩
    · exact hs.2.2.choose_spec
    · simp only [assignments, List.cons_append, safeFrom, Bool.and_eq_true]
      exact ⟨safeHere_name hn, safeHere_equal hs, rfl, safeHere_delim (by simp), (ih _).2.1 hr⟩
    · intro l hl
      simp only [assignments, List.mem_cons] at hl
      rcases hl with rfl | rfl | rfl | rfl | hl
      · exact ⟨rfl, rfl, [], hn.ok⟩
      · exact ⟨rfl, rfl, [], hpu _ (by simp)⟩
      · exact hs
      · exact ⟨rfl, rfl, [], hpu _ (by simp)⟩
      · exact (ih []).2.2 l hl

theorem wordOk_var : WordOk "var".toList := wordOk_plain (by decide) (by decide +kernel)

theorem prelude_ok (D : List (List Char × List Char)) (rest : List Lexeme) (hD : DeclOk D) :
    (Placed [] rest → Placed [] (prelude D ++ rest)) ∧
    (safeFrom [] rest = true → safeFrom [] (prelude D ++ rest) = true) ∧
    ∀ l ∈ prelude D, Solid l := by
  cases D with
  | nil => exact ⟨id, id, by simp [prelude]⟩
  | cons p D =>
    have ih := fun v => assignments_ok (p :: D) v rest hD (by simp)
    have he : prelude (p :: D) ++ rest = .word "var".toList :: (assignments (p :: D) ++ .punct [';'] :: rest) := by
      simp [prelude]
    rw [he]
    refine ⟨fun hr => ⟨wordOk_var, (ih _).1 hr⟩, fun hr => ?_, ?_⟩
    · rw [safeFrom, Bool.and_eq_true]
      refine ⟨?_, (ih _).2.1 hr⟩
      simp only [safeHere, Bool.and_eq_true, Bool.or_eq_true]
      refine ⟨.inl (by decide), ?_⟩
      split
      · simp [gap, show isName ['v', 'a', 'r'] = true by decide +kernel]
      · rfl
    · intro l hl
      simp only [prelude, List.mem_cons, List.mem_append, List.not_mem_nil, or_false] at hl
      rcases hl with rfl | hl | rfl
      · exact ⟨rfl, rfl, [], wordOk_var⟩
      · exact (ih []).2.2 l hl
      · exact ⟨rfl, rfl, [], show [';'] ∈ puncts by decide +kernel⟩

end Verif.Js
