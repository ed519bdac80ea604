import Verif.Proofs.EcmaParts
import Verif.Proofs.HtmlSoft
import Verif.Spec.HtmlInline
/-!
# Scripts in which gaps become one blank
-/
set_option linter.unusedSimpArgs false
namespace Verif.Spec.Ecma
open Verif.Spec.Html (Soft single easyF easyAfter easyScript)

/-! ## Literals are read on their own -/

private theorem map_some {f : List Char → List Char} {x : Option (List Char × List Char)} {t r : List Char}
    (h : (x.map fun p => (f p.1, p.2)) = some (t, r)) : ∃ u, x = some (u, r) ∧ t = f u := by
  cases x with
  | none => cases h
  | some p => simp at h; exact ⟨p.1, by rw [← h.2], h.1.symm⟩

theorem string_cut (q : Char) : ∀ (k : Nat) (s t r : List Char), s.length < k → string q s = some (t, r) →
    s = t ++ r ∧ t.getLast? = some q ∧ ∀ b, string q (t ++ b) = some (t, b) := by
  intro k
  induction k with
  | zero => intro s t r h; omega
  | succ k ih =>
    intro s t r hl h
    match s, hl, h with
    | [], _, h => simp [string] at h
    | c :: s, hl, h =>
      by_cases hc : c = '\\'
      · subst hc
        cases s with
        | nil => simp [string] at h
        | cons d s =>
          by_cases hd : d = '\r' ∧ s.head? = some '\n'
          · obtain ⟨rfl, hs⟩ := hd
            cases s with
            | nil => cases hs
            | cons e s =>
              simp at hs; subst hs
              rw [string] at h
              obtain ⟨u, hu, rfl⟩ := map_some (f := fun x => '\\' :: '\r' :: '\n' :: x) h
              obtain ⟨rfl, h2, h3⟩ := ih s u r (by simp at hl ⊢; omega) hu
              refine ⟨rfl, by simp [List.getLast?_cons, h2], ?_⟩
              intro b
              simp only [List.cons_append]
              rw [string, h3]; rfl
          · have hstep : ∀ s, ¬(d = '\r' ∧ s.head? = some '\n') → string q ('\\' :: d :: s) = (string q s).map fun p => ('\\' :: d :: p.1, p.2) := by
              intro s hs
              rw [string]
              rintro s' rfl rfl
              exact hs ⟨rfl, rfl⟩
            rw [hstep s hd] at h
            obtain ⟨u, hu, rfl⟩ := map_some (f := fun x => '\\' :: d :: x) h
            obtain ⟨rfl, h2, h3⟩ := ih s u r (by simp at hl ⊢; omega) hu
            refine ⟨rfl, by simp [List.getLast?_cons, h2], ?_⟩
            intro b
            simp only [List.cons_append]
            have hne : u ≠ [] := by rintro rfl; simp at h2
            rw [hstep _ (by cases u with | nil => exact absurd rfl hne | cons e u => simpa using hd), h3]; rfl
      · have hstep : ∀ s, string q (c :: s) =
            if c = q then some ([c], s) else if c == '\n' || c == '\r' then none else (string q s).map fun p => (c :: p.1, p.2) := by
          intro s
          rw [string]
          all_goals (intros; exact absurd ‹c = '\\'› hc)
        rw [hstep] at h
        split at h
        · rename_i hq; cases h
          exact ⟨rfl, by simp [hq], fun b => by rw [List.singleton_append, hstep, if_pos hq]⟩
        · rename_i hq
          split at h
          · cases h
          · rename_i hn
            obtain ⟨u, hu, rfl⟩ := map_some (f := fun x => c :: x) h
            obtain ⟨rfl, h2, h3⟩ := ih s u r (by simpa using hl) hu
            refine ⟨rfl, by simp [List.getLast?_cons, h2], fun b => ?_⟩
            rw [List.cons_append, hstep, if_neg hq, if_neg hn, h3]; rfl

theorem regex_cut : ∀ (k : Nat) (cls : Bool) (s t r : List Char), s.length < k → regex cls s = some (t, r) →
    s = t ++ '/' :: r ∧ ∀ b, regex cls (t ++ '/' :: b) = some (t, b) := by
  intro k
  induction k with
  | zero => intro cls s t r h; omega
  | succ k ih =>
    intro cls s t r hl h
    cases s with
    | nil => simp [regex] at h
    | cons c s =>
      by_cases hc : c = '\\'
      · subst hc
        cases s with
        | nil => simp [regex] at h
        | cons d s =>
          rw [regex] at h
          split at h
          · cases h
          · rename_i hd
            obtain ⟨u, hu, rfl⟩ := map_some (f := fun x => '\\' :: d :: x) h
            obtain ⟨rfl, h2⟩ := ih cls s u r (by simp at hl ⊢; omega) hu
            refine ⟨rfl, fun b => ?_⟩
            simp only [List.cons_append]
            rw [regex, if_neg hd, h2]; rfl
      · have hstep : ∀ s, regex cls (c :: s) = if lineEnd c then none
            else if c = '/' ∧ cls = false then some ([], s)
            else (regex (if c = '[' then true else if c = ']' then false else cls) s).map fun p => (c :: p.1, p.2) := by
          intro s
          rw [regex]
          all_goals (intros; exact absurd ‹c = '\\'› hc)
        rw [hstep] at h
        split at h
        · cases h
        · rename_i hn
          split at h
          · rename_i hq; cases h
            refine ⟨by rw [hq.1]; rfl, fun b => ?_⟩
            have := hstep b
            rw [if_neg hn, if_pos hq, hq.1] at this
            exact this
          · rename_i hq
            obtain ⟨u, hu, rfl⟩ := map_some (f := fun x => c :: x) h
            obtain ⟨rfl, h2⟩ := ih _ s u r (by simpa using hl) hu
            refine ⟨rfl, fun b => ?_⟩
            rw [List.cons_append, hstep, if_neg hn, if_neg hq, h2]; rfl

theorem template_cut : ∀ (k : Nat) (pl : Place) (s t r : List Char), s.length < k → template pl s = some (t, r) →
    s = t ++ r ∧ t.getLast? = some '`' ∧ ∀ b, template pl (t ++ b) = some (t, b) := by
  intro k
  induction k with
  | zero => intro pl s t r h; omega
  | succ k ih =>
    intro pl s t r hl h
    cases s with
    | nil => simp [template] at h
    | cons c s =>
      have hl1 : s.length < k := by simpa using hl
      rw [template] at h
      cases ht : pl.turn c s.head? with
      | stop => rw [ht] at h; cases h
      | close =>
        rw [ht] at h
        cases h
        refine ⟨rfl, by rw [(turn_close ht).1]; rfl, fun b => ?_⟩
        rw [List.singleton_append, template, (turn_close ht).2]
      | one pl' =>
        rw [ht] at h
        obtain ⟨u, hu, rfl⟩ := map_some (f := fun x => c :: x) h
        obtain ⟨rfl, h2, h3⟩ := ih pl' s u r hl1 hu
        refine ⟨rfl, by simp [List.getLast?_cons, h2], fun b => ?_⟩
        have hh : (u ++ b).head? = (u ++ r).head? := by
          cases u with
          | nil => cases h2
          | cons e u => rfl
        rw [List.cons_append, template, hh, ht]
        simp only
        rw [h3]; rfl
      | two pl' =>
        rw [ht] at h
        cases s with
        | nil => cases h
        | cons d s =>
          obtain ⟨u, hu, rfl⟩ := map_some (f := fun x => c :: d :: x) h
          obtain ⟨rfl, h2, h3⟩ := ih pl' s u r (by simp only [List.length_cons] at hl1; omega) hu
          refine ⟨rfl, by simp [List.getLast?_cons, h2], fun b => ?_⟩
          have hh : (d :: u ++ b).head? = (d :: (u ++ r)).head? := rfl
          rw [List.cons_append, template, hh, ht]
          simp only [List.cons_append]
          rw [h3]; rfl

/-! ## White space -/

theorem white_sp : white ' ' = true := by decide +kernel

theorem line_sp : lineEnd ' ' = false := by decide +kernel

/-- A solid character stays. -/
theorem soft_take {c : Char} {s o : List Char} (h : Soft (c :: s) o) (hc : isWhitespace c = false) : ∃ o', o = c :: o' ∧ Soft s o' := by
  generalize hs : c :: s = x at h
  cases h with
  | nil => cases hs
  | char d h => obtain ⟨rfl, rfl⟩ := List.cons.inj hs; exact ⟨_, rfl, h⟩
  | @gap w s' o' h1 h2 h3 =>
    cases w with
    | nil => exact absurd rfl h1
    | cons d w =>
      have := h2 d List.mem_cons_self
      rw [← (List.cons.inj hs).1, hc] at this; cases this

/-- A text with single blanks stays. -/
theorem soft_single {o r : List Char} : ∀ (t : List Char), single t = true → (∀ c, t.getLast? = some c → isWhitespace c = false) →
    Soft (t ++ r) o → ∃ o', o = t ++ o' ∧ Soft r o'
  | [], _, _, h => ⟨o, rfl, h⟩
  | c :: t, hs, hl, h => by
    simp only [single, Bool.and_eq_true, Bool.or_eq_true, Bool.not_eq_true', beq_iff_eq] at hs
    have hl' : ∀ d, t.getLast? = some d → isWhitespace d = false := by
      intro d hd
      exact hl d (by simp [List.getLast?_cons, hd])
    cases hc : isWhitespace c with
    | false =>
      obtain ⟨o', rfl, h'⟩ := soft_take h hc
      obtain ⟨o'', rfl, h''⟩ := soft_single t hs.2 hl' h'
      exact ⟨o'', rfl, h''⟩
    | true =>
      rw [hc] at hs
      simp only [reduceCtorEq, false_or] at hs
      obtain ⟨⟨rfl, hh⟩, hs⟩ := hs
      have step : ∃ o', o = ' ' :: o' ∧ Soft (t ++ r) o' := by
        rw [List.cons_append] at h
        generalize hx : ' ' :: (t ++ r) = x at h
        cases h with
        | nil => cases hx
        | char d h => obtain ⟨rfl, rfl⟩ := List.cons.inj hx; exact ⟨_, rfl, h⟩
        | @gap w s' o' h1 h2 h3 =>
          match w, h1, h2, hx with
          | [d], _, _, hx => obtain ⟨-, rfl⟩ := List.cons.inj hx; exact ⟨_, rfl, h3⟩
          | d :: e :: w, _, h2, hx =>
            exfalso
            cases t with
            | nil => rw [hl ' ' rfl] at hc; cases hc
            | cons x t =>
              obtain ⟨-, hx⟩ := List.cons.inj hx
              obtain ⟨rfl, -⟩ := List.cons.inj hx
              have := h2 x (by simp)
              simp [this] at hh
      obtain ⟨o', rfl, h'⟩ := step
      obtain ⟨o'', rfl, h''⟩ := soft_single t hs hl' h'
      exact ⟨o'', rfl, h''⟩

/-- White space is known to the standard. -/
def Known (s : List Char) : Prop := ∀ c ∈ s, isWhitespace c = true → (white c || lineEnd c) = true

theorem known_not_name {s : List Char} (h : Known s) {c : Char} (hc : c ∈ s) (hw : isWhitespace c = true) :
    nameChar c = false := by
  have := h c hc hw
  simp only [Bool.or_eq_true] at this
  have key : letter c = false ∧ c ≠ '$' ∧ c ≠ '_' ∧ digit c = false := by
    refine ⟨?_, ?_, ?_, ?_⟩
    · cases hl : letter c with
      | false => rfl
      | true =>
        exfalso
        simp only [letter, Bool.or_eq_true, Bool.and_eq_true, decide_eq_true_eq] at hl
        simp only [isWhitespace, Bool.or_eq_true, Bool.and_eq_true, decide_eq_true_eq, beq_iff_eq] at hw
        omega
    · rintro rfl; revert hw; decide +kernel
    · rintro rfl; revert hw; decide +kernel
    · cases hl : digit c with
      | false => rfl
      | true =>
        exfalso
        simp only [digit, Bool.and_eq_true, decide_eq_true_eq] at hl
        simp only [isWhitespace, Bool.or_eq_true, Bool.and_eq_true, decide_eq_true_eq, beq_iff_eq] at hw
        omega
  rw [nameChar, nameStart, key.1, key.2.2.2]
  rcases this with h | h <;> simp [h, key.2.1, key.2.2.1]

theorem soft_while (f : Char → Bool) (hf : f ' ' = false) : ∀ {s o : List Char}, Soft s o → (∀ c ∈ s, isWhitespace c = true → f c = false) →
    o.takeWhile f = s.takeWhile f ∧ Soft (s.dropWhile f) (o.dropWhile f) := by
  intro s o h
  induction h with
  | nil => intro _; exact ⟨rfl, .nil⟩
  | @char s o c h ih =>
    intro hs
    obtain ⟨h1, h2⟩ := ih (fun d hd => hs d (List.mem_cons_of_mem _ hd))
    cases hc : f c with
    | true => simp [hc, h1, h2]
    | false => simp [hc]; exact .char c h
  | @gap w s o h1 h2 h ih =>
    intro hs
    cases w with
    | nil => exact absurd rfl h1
    | cons c w =>
      have := hs c (by simp) (h2 c (by simp))
      simp [this, hf]
      exact .gap (w := c :: w) (by simp) h2 h

theorem soft_number : ∀ {s o : List Char}, Soft s o → ∀ (st : Num), (∀ c ∈ s, isWhitespace c = true → nameChar c = false) →
    (number st o).1 = (number st s).1 ∧ Soft (number st s).2 (number st o).2 := by
  have hw : ∀ (st : Num) (c : Char), isWhitespace c = true → nameChar c = false → st.step c = none := by
    intro st c h1 h2
    have hn : ∀ d, isWhitespace d = false → c ≠ d := by rintro d hd rfl; rw [h1] at hd; cases hd
    have e1 := hn '.' (by decide +kernel)
    have e2 := hn 'e' (by decide +kernel)
    have e3 := hn 'E' (by decide +kernel)
    have e4 := hn '8' (by decide +kernel)
    have e5 := hn '9' (by decide +kernel)
    have e6 := hn '_' (by decide +kernel)
    have e7 := hn '+' (by decide +kernel)
    have e8 := hn '-' (by decide +kernel)
    have e9 : digit c = false := by simp [nameChar] at h2; exact h2.2
    cases st <;> simp [Num.step, e1, e2, e3, e4, e5, e6, e7, e8, e9, h2]
  intro s o h
  induction h with
  | nil => intro st _; exact ⟨rfl, .nil⟩
  | @char s o c h ih =>
    intro st hs
    rw [number, number]
    cases hc : st.step c with
    | some st' =>
      obtain ⟨h1, h2⟩ := ih st' (fun d hd => hs d (List.mem_cons_of_mem _ hd))
      simp only [h1]; exact ⟨trivial, h2⟩
    | none => exact ⟨rfl, .char c h⟩
  | @gap w s o h1 h2 h ih =>
    intro st hs
    cases w with
    | nil => exact absurd rfl h1
    | cons c w =>
      have e := hw st c (h2 c (by simp)) (hs c (by simp) (h2 c (by simp)))
      have e' := hw st ' ' Verif.Html.ws_sp (by decide +kernel)
      rw [List.cons_append, number, number, e, e']
      exact ⟨rfl, .gap (w := c :: w) (by simp) h2 h⟩

theorem soft_headD {s o : List Char} (h : Soft s o) (f : Char → Bool) (hf : ∀ c, isWhitespace c = true → c ∈ s → f c = false) (hs : f ' ' = false) :
    o.head?.any f = s.head?.any f := by
  cases h with
  | nil => rfl
  | char c _ => rfl
  | @gap w s o h1 h2 _ =>
    cases w with
    | nil => exact absurd rfl h1
    | cons c w => simp [hs, hf c (h2 c (by simp)) (by simp)]

/-- Solid texts stand at the beginning of both or of none. -/
theorem soft_starts : ∀ {p s o : List Char}, (∀ c ∈ p, isWhitespace c = false) → Soft s o →
    (p.isPrefixOf o = p.isPrefixOf s) ∧ (p.isPrefixOf s = true → Soft (s.drop p.length) (o.drop p.length))
  | [], s, o, _, h => ⟨by simp, fun _ => h⟩
  | c :: p, s, o, hp, h => by
    have hc := hp c List.mem_cons_self
    cases h with
    | nil => exact ⟨rfl, fun h => by simp at h⟩
    | @char s o d h =>
      obtain ⟨h1, h2⟩ := soft_starts (p := p) (fun d hd => hp d (List.mem_cons_of_mem _ hd)) h
      simp only [List.isPrefixOf_cons_cons, h1, List.length_cons, List.drop_succ_cons]
      refine ⟨trivial, fun h => h2 ?_⟩
      simp only [Bool.and_eq_true] at h; exact h.2
    | @gap w s o h1 h2 h =>
      cases w with
      | nil => exact absurd rfl h1
      | cons d w =>
        have e1 : (c == d) = false := by
          simp only [beq_eq_false_iff_ne]
          rintro rfl; rw [h2 c (by simp)] at hc; cases hc
        have e2 : (c == ' ') = false := by
          simp only [beq_eq_false_iff_ne]
          rintro rfl; rw [Verif.Html.ws_sp] at hc; cases hc
        simp [List.isPrefixOf_cons_cons, e1, e2]

theorem punctuators_solid : ∀ p ∈ punctuators, ∀ c ∈ p, isWhitespace c = false := by decide +kernel

theorem headDigit_eq (s : List Char) : headDigit s = s.head?.any digit := by cases s <;> rfl

theorem digit_ws {c : Char} (h : isWhitespace c = true) : digit c = false := by
  cases hl : digit c with
  | false => rfl
  | true =>
    exfalso
    simp only [digit, Bool.and_eq_true, decide_eq_true_eq] at hl
    simp only [isWhitespace, Bool.or_eq_true, Bool.and_eq_true, decide_eq_true_eq, beq_iff_eq] at h
    omega

theorem soft_headDigit {s o : List Char} (h : Soft s o) : headDigit o = headDigit s := by
  rw [headDigit_eq, headDigit_eq]
  exact soft_headD h _ (fun c hc _ => digit_ws hc) (by decide +kernel)

theorem soft_at {s o : List Char} (h : Soft s o) {p : List Char} (hp : p ∈ punctuators) : at_ o p = at_ s p := by
  obtain ⟨h1, h2⟩ := soft_starts (punctuators_solid p hp) h
  unfold at_
  rw [h1]
  cases hx : p.isPrefixOf s with
  | false => simp
  | true =>
    cases hq : (p == ['?', '.']) with
    | false => simp
    | true =>
      have := h2 hx
      simp only [beq_iff_eq] at hq
      subst hq
      have e := soft_headDigit this
      simp only [List.length_cons, List.length_nil] at e
      rw [e]

theorem soft_punct {s o r : List Char} {t : Tok} (h : Soft s o) (hp : punct s = some (t, r)) : ∃ o', punct o = some (t, o') ∧ Soft r o' := by
  unfold punct at hp ⊢
  have e : ∀ (l : List (List Char)), (∀ p ∈ l, p ∈ punctuators) → l.find? (at_ o) = l.find? (at_ s) := by
    intro l
    induction l with
    | nil => intro _; rfl
    | cons p l ih =>
      intro hl
      simp only [List.find?_cons, soft_at h (hl p List.mem_cons_self), ih fun q hq => hl q (List.mem_cons_of_mem _ hq)]
  rw [e _ fun _ hp => hp]
  cases hf : punctuators.find? (at_ s) with
  | none => rw [hf] at hp; cases hp
  | some p =>
    rw [hf] at hp
    simp only [Option.map_some, Option.some.injEq, Prod.mk.injEq] at hp
    obtain ⟨rfl, rfl⟩ := hp
    have hm := List.mem_of_find?_eq_some hf
    have ha := List.find?_some hf
    simp only [at_, Bool.and_eq_true] at ha
    exact ⟨_, rfl, (soft_starts (punctuators_solid p hm) h).2 ha.1⟩

/-! ## Tokens -/

theorem single_cons {c : Char} {r : List Char} (h : single (c :: r) = true) : single r = true := by
  rw [single, Bool.and_eq_true] at h; exact h.2

theorem single_left : ∀ {a b : List Char}, single (a ++ b) = true → single a = true
  | [], _, _ => rfl
  | c :: a, b, h => by
    rw [List.cons_append, single, Bool.and_eq_true] at h
    rw [single, single_left h.2, Bool.and_true]
    cases a with
    | nil => have := h.1; revert this; cases b <;> simp; grind
    | cons d a => simpa using h.1

theorem consumed (w r : List Char) : (w ++ r).take ((w ++ r).length - r.length) = w := by
  rw [List.length_append, Nat.add_sub_cancel]; simp

theorem soft_token {re : Bool} {c : Char} {r x o : List Char} {t : Tok} (hk : Known (c :: r)) (h : Soft r o)
    (ht : token re c r = some (t, x)) (hs : single ((c :: r).take ((c :: r).length - x.length)) = true) :
    ∃ y, token re c o = some (t, y) ∧ Soft x y := by
  have hkr : ∀ d ∈ r, isWhitespace d = true → nameChar d = false := fun d hd hw =>
    known_not_name hk (List.mem_cons_of_mem _ hd) hw
  have hns : ∀ d, isWhitespace d = true → d ∈ r → nameStart d = false := fun d hw hd => by
    have := hkr d hd hw
    simp only [nameChar, Bool.or_eq_false_iff] at this; exact this.1
  unfold token at ht ⊢
  by_cases h1 : nameStart c = true
  · rw [if_pos h1] at ht ⊢
    simp only [Option.some.injEq, Prod.mk.injEq] at ht
    obtain ⟨rfl, rfl⟩ := ht
    obtain ⟨e1, e2⟩ := soft_while nameChar (by decide +kernel) h hkr
    exact ⟨_, by rw [e1], e2⟩
  rw [if_neg h1] at ht ⊢
  by_cases h2 : c = '#'
  · rw [if_pos h2] at ht ⊢
    rw [soft_headD h nameStart hns (by decide +kernel)]
    split at ht
    · rename_i h3
      rw [if_pos h3]
      simp only [Option.some.injEq, Prod.mk.injEq] at ht
      obtain ⟨rfl, rfl⟩ := ht
      obtain ⟨e1, e2⟩ := soft_while nameChar (by decide +kernel) h hkr
      exact ⟨_, by rw [e1], e2⟩
    · cases ht
  rw [if_neg h2] at ht ⊢
  rw [soft_headDigit h]
  by_cases h3 : (digit c || (c == '.' && headDigit r)) = true
  · rw [if_pos h3] at ht ⊢
    simp only [Option.some.injEq, Prod.mk.injEq] at ht
    obtain ⟨rfl, rfl⟩ := ht
    obtain ⟨e1, e2⟩ := soft_number h (.init c) hkr
    exact ⟨_, by rw [e1], e2⟩
  rw [if_neg h3] at ht ⊢
  by_cases h4 : quote c = true
  · rw [if_pos h4] at ht ⊢
    have hq : c ≠ '\\' ∧ isWhitespace c = false := by
      simp only [quote, Bool.or_eq_true, beq_iff_eq] at h4
      rcases h4 with rfl | rfl <;> exact ⟨by decide, by decide +kernel⟩
    cases hx : string c r with
    | none => rw [hx] at ht; cases ht
    | some p =>
      obtain ⟨u, v⟩ := p
      rw [hx] at ht
      simp only [Option.map_some, Option.some.injEq, Prod.mk.injEq] at ht
      obtain ⟨rfl, rfl⟩ := ht
      obtain ⟨rfl, e2, e3⟩ := string_cut c _ r u v (Nat.lt_succ_self _) hx
      rw [← List.cons_append, consumed] at hs
      obtain ⟨o', rfl, h'⟩ := soft_single u (single_cons hs) (by rw [e2]; intro d hd; cases hd; exact hq.2) h
      exact ⟨o', by rw [e3]; rfl, h'⟩
  rw [if_neg h4] at ht ⊢
  by_cases h5 : c = '`'
  · rw [if_pos h5] at ht ⊢
    cases hx : template (.text []) r with
    | none => rw [hx] at ht; cases ht
    | some p =>
      obtain ⟨u, v⟩ := p
      rw [hx] at ht
      simp only [Option.map_some, Option.some.injEq, Prod.mk.injEq] at ht
      obtain ⟨rfl, rfl⟩ := ht
      obtain ⟨rfl, e2, e3⟩ := template_cut _ _ r u v (Nat.lt_succ_self _) hx
      rw [← List.cons_append, consumed] at hs
      obtain ⟨o', rfl, h'⟩ := soft_single u (single_cons hs) (by rw [e2]; intro d hd; cases hd; decide +kernel) h
      exact ⟨o', by rw [e3]; rfl, h'⟩
  rw [if_neg h5] at ht ⊢
  by_cases h6 : (c == '/' && re) = true
  · rw [if_pos h6] at ht ⊢
    cases hx : regex false r with
    | none => rw [hx] at ht; cases ht
    | some p =>
      obtain ⟨u, v⟩ := p
      rw [hx] at ht
      simp only [Option.map_some, Option.some.injEq, Prod.mk.injEq] at ht
      obtain ⟨rfl, rfl⟩ := ht
      obtain ⟨rfl, e3⟩ := regex_cut _ _ r u v (Nat.lt_succ_self _) hx
      have e4 : c :: (u ++ '/' :: v) = (c :: (u ++ ['/']) ++ v.takeWhile nameChar) ++ v.dropWhile nameChar := by
        simp [List.takeWhile_append_dropWhile]
      rw [e4, consumed] at hs
      have e5 : u ++ '/' :: v = (u ++ ['/']) ++ v := by simp
      rw [e5] at h
      obtain ⟨o', rfl, h'⟩ := soft_single (u ++ ['/']) (single_cons (single_left hs)) (by simp; decide +kernel) h
      have e6 : (u ++ ['/']) ++ o' = u ++ '/' :: o' := by simp
      obtain ⟨e1, e2⟩ := soft_while nameChar (by decide +kernel) h' (fun d hd hw => hkr d (by simp [hd]) hw)
      refine ⟨_, ?_, e2⟩
      rw [e6, e3, ← e1]; rfl
  rw [if_neg h6] at ht ⊢
  exact soft_punct (.char c h) ht

/-! ## Scripts -/

theorem punctuators_ne : ∀ p ∈ punctuators, p ≠ [] := by decide +kernel

theorem same_marks : ∀ {x y : List (Bool × Tok)}, x.map (·.2) = y.map (·.2) → (∀ p ∈ x.zip y, p.1.1 = true → p.2.1 = true) →
    (∀ p ∈ y, p.1 = false) → x = y
  | [], [], _, _, _ => rfl
  | [], _ :: _, h, _, _ => by cases h
  | _ :: _, [], h, _, _ => by cases h
  | (a, t) :: x, (b, u) :: y, h, hz, hy => by
    simp only [List.map_cons, List.cons.injEq] at h
    obtain ⟨rfl, h⟩ := h
    have hb : b = false := hy _ List.mem_cons_self
    have ha : a = false := by
      cases a with
      | false => rfl
      | true => have := hz ((true, t), (b, t)) List.mem_cons_self rfl; rw [hb] at this; cases this
    rw [ha, hb, same_marks h (fun p hp => hz p (List.mem_cons_of_mem _ hp)) fun p hp => hy p (List.mem_cons_of_mem _ hp)]

theorem soft_block : ∀ {s o : List Char}, Soft s o → ∀ r, afterBlock s = some r →
    ∃ x y r', s = x ++ r ∧ afterBlock o = some r' ∧ o = y ++ r' ∧ Soft x y ∧ Soft r r' := by
  intro s o h
  induction h with
  | nil => intro r h; simp [afterBlock] at h
  | @char s o c h ih =>
    intro r hr
    by_cases hc : c = '*' ∧ s.head? = some '/'
    · obtain ⟨rfl, hs⟩ := hc
      cases s with
      | nil => cases hs
      | cons d s =>
        simp at hs; subst hs
        obtain ⟨o', rfl, h'⟩ := soft_take h (by decide +kernel)
        rw [afterBlock] at hr
        cases hr
        exact ⟨['*', '/'], ['*', '/'], o', rfl, by rw [afterBlock], rfl, .refl _, h'⟩
    · rw [afterBlock_step _ hc] at hr
      obtain ⟨x, y, r', rfl, h2, rfl, h4, h5⟩ := ih r hr
      refine ⟨c :: x, c :: y, r', rfl, ?_, rfl, .char c h4, h5⟩
      rw [afterBlock_step _ ?_]; exact h2
      rintro ⟨rfl, hy⟩
      apply hc
      refine ⟨rfl, ?_⟩
      rcases Verif.Html.soft_head h with e | ⟨d, -, -, e⟩
      · rw [e]; exact hy
      · rw [e] at hy; cases hy
  | @gap w s o h1 h2 h ih =>
    intro r hr
    have key : ∀ w : List Char, (∀ c ∈ w, isWhitespace c = true) → afterBlock (w ++ s) = some r → afterBlock s = some r := by
      intro w
      induction w with
      | nil => intro _ h; exact h
      | cons c w ihw =>
        intro hw h
        rw [List.cons_append, afterBlock_step] at h
        · exact ihw (fun d hd => hw d (List.mem_cons_of_mem _ hd)) h
        · rintro ⟨rfl, -⟩
          have := hw '*' List.mem_cons_self
          revert this; decide +kernel
    obtain ⟨x, y, r', rfl, k2, rfl, k4, k5⟩ := ih r (key w h2 hr)
    refine ⟨w ++ x, ' ' :: y, r', by simp, ?_, rfl, .gap h1 h2 k4, k5⟩
    rw [afterBlock_step _ (by simp)]; exact k2

theorem soft_lineEnd {s o : List Char} (h : Soft s o) (ho : o.any lineEnd = true) : s.any lineEnd = true := by
  induction h with
  | nil => exact ho
  | char c _ ih =>
    rw [List.any_cons, Bool.or_eq_true] at ho ⊢
    exact ho.imp id ih
  | gap _ _ _ ih =>
    rw [List.any_cons, line_sp, Bool.false_or] at ho
    rw [List.any_append, ih ho, Bool.or_true]

theorem easyF_fuel (goal : List Tok → Bool) : ∀ (n m : Nat) (hist : List Tok) (s : List Char), s.length ≤ n → s.length ≤ m →
    easyF goal n hist s = easyF goal m hist s
  | 0, 0, hist, s, _, _ => rfl
  | 0, m + 1, hist, s, h, _ => by
    have : s = [] := List.eq_nil_of_length_eq_zero (by omega)
    subst this; rfl
  | n + 1, 0, hist, s, _, h => by
    have : s = [] := List.eq_nil_of_length_eq_zero (by omega)
    subst this; rfl
  | n + 1, m + 1, hist, [], _, _ => rfl
  | n + 1, m + 1, hist, c :: r, hn, hm => by
    have ih := fun hist (s : List Char) (hs : s.length ≤ r.length) => easyF_fuel goal n m hist s
      (by simp at hn; omega) (by simp at hm; omega)
    rw [easyF, easyF]
    split
    · exact ih _ _ (Nat.le_refl _)
    · split
      · rfl
      · split
        · cases hx : afterBlock r.tail with
          | none => rfl
          | some x =>
            have := afterBlock_le _ _ hx
            simp at this
            exact ih _ _ (by omega)
        · cases hx : token (goal hist) c r with
          | none => rfl
          | some p =>
            obtain ⟨t, x⟩ := p
            simp only
            rw [ih _ _ (token_le hx)]

theorem easyAfter_cons (goal : List Tok → Bool) (hist : List Tok) (c : Char) (r : List Char) : easyAfter goal hist (c :: r) =
    if white c || lineEnd c then easyAfter goal hist r
    else if c = '/' ∧ r.head? = some '/' then false
    else if c = '/' ∧ r.head? = some '*' then
      match afterBlock r.tail with
      | some r => easyAfter goal hist r
      | none => false
    else
      match token (goal hist) c r with
      | some (t, x) => single ((c :: r).take ((c :: r).length - x.length)) && easyAfter goal (t :: hist) x
      | none => false := by
  unfold easyAfter
  have ih := fun hist (s : List Char) (hs : s.length ≤ r.length) => easyF_fuel goal r.length s.length hist s hs (Nat.le_refl _)
  rw [List.length_cons, easyF]
  split
  · rfl
  · split
    · rfl
    · split
      · cases hx : afterBlock r.tail with
        | none => rfl
        | some x =>
          have := afterBlock_le _ _ hx
          simp at this
          exact ih _ _ (by omega)
      · cases hx : token (goal hist) c r with
        | none => rfl
        | some p =>
          obtain ⟨t, x⟩ := p
          simp only
          rw [ih _ _ (token_le hx)]; rfl

theorem token_suffix {re : Bool} {c : Char} {r x : List Char} {t : Tok} (h : token re c r = some (t, x)) : x <:+ r := by
  have num : ∀ (r : List Char) (st : Num), (number st r).2 <:+ r := by
    intro r
    induction r with
    | nil => intro st; exact List.suffix_refl _
    | cons c r ih =>
      intro st
      rw [number]
      cases st.step c with
      | none => exact List.suffix_refl _
      | some st' => exact (ih st').trans (List.suffix_cons c r)
  unfold token at h
  split at h
  · cases h; exact List.dropWhile_suffix _
  split at h
  · split at h
    · cases h; exact List.dropWhile_suffix _
    · cases h
  split at h
  · cases h; exact num _ _
  split at h
  · cases hx : string c r with
    | none => rw [hx] at h; cases h
    | some p =>
      obtain ⟨u, v⟩ := p
      rw [hx] at h; cases h
      obtain ⟨rfl, -⟩ := string_cut c _ r u _ (Nat.lt_succ_self _) hx
      exact List.suffix_append _ _
  split at h
  · cases hx : template (.text []) r with
    | none => rw [hx] at h; cases h
    | some p =>
      obtain ⟨u, v⟩ := p
      rw [hx] at h; cases h
      obtain ⟨rfl, -⟩ := template_cut _ _ r u _ (Nat.lt_succ_self _) hx
      exact List.suffix_append _ _
  split at h
  · cases hx : regex false r with
    | none => rw [hx] at h; cases h
    | some p =>
      obtain ⟨u, v⟩ := p
      rw [hx] at h; cases h
      obtain ⟨rfl, -⟩ := regex_cut _ _ r u v (Nat.lt_succ_self _) hx
      exact (List.dropWhile_suffix _).trans ((List.suffix_cons _ _).trans (List.suffix_append _ _))
  obtain ⟨p, hp, rfl, e⟩ := punct_some h
  have hne := punctuators_ne p hp
  cases p with
  | nil => exact absurd rfl hne
  | cons d p => rw [(List.cons.inj e).2]; exact List.suffix_append _ _

theorem soft_parts (goal : List Tok → Bool) : ∀ (k : Nat) (s o : List Char) (hist : List Tok), s.length ≤ k → easyAfter goal hist s = true →
    Known s → Soft s o → Less (partsAfter goal hist o) (partsAfter goal hist s) := by
  intro k
  induction k with
  | zero =>
    intro s o hist hl _ _ h
    have : s = [] := List.eq_nil_of_length_eq_zero (by omega)
    subst this
    generalize hx : ([] : List Char) = x at h
    cases h with
    | nil => exact .nil
    | char => cases hx
    | @gap w s o h1 _ _ => cases w with
      | nil => exact absurd rfl h1
      | cons => cases hx
  | succ k ih =>
    intro s o hist hl he hk h
    by_cases hg : ∃ w s' o', w ≠ [] ∧ (∀ c ∈ w, isWhitespace c = true) ∧ s = w ++ s' ∧ o = ' ' :: o' ∧ Soft s' o'
    · obtain ⟨w, s', o', h1, h2, rfl, rfl, h3⟩ := hg
      have hw : ∀ c ∈ w, (white c || lineEnd c) = true := fun c hc => hk c (by simp [hc]) (h2 c hc)
      have es : easyAfter goal hist (w ++ s') = easyAfter goal hist s' := by
        clear he hl hk h h1 h2
        induction w with
        | nil => rfl
        | cons c w ihw =>
          rw [List.cons_append, easyAfter_cons, if_pos (hw c List.mem_cons_self)]
          exact ihw fun d hd => hw d (List.mem_cons_of_mem _ hd)
      rw [es] at he
      have hlen : s'.length ≤ k := by
        have : 0 < w.length := List.length_pos_iff.mpr h1
        simp at hl; omega
      have := ih s' o' hist hlen he (fun c hc => hk c (by simp [hc])) h3
      rw [partsAfter_cons, if_neg (by rw [line_sp]; decide), if_pos white_sp]
      clear es hl h2 h1 h hk he
      induction w with
      | nil => exact this
      | cons c w ihw =>
        rw [List.cons_append, partsAfter_cons]
        have ihw := ihw fun d hd => hw d (List.mem_cons_of_mem _ hd)
        split
        · exact .drop ihw
        · rename_i hn
          have := hw c List.mem_cons_self
          simp only [Bool.not_eq_true] at hn
          rw [hn, Bool.or_false] at this
          rw [if_pos this]; exact ihw
    · cases h with
      | nil => exact .nil
      | gap h1 h2 h3 => exact absurd ⟨_, _, _, h1, h2, rfl, rfl, h3⟩ hg
      | @char s o c h =>
        clear hg
        rw [easyAfter_cons] at he
        have hk' : Known s := fun d hd => hk d (List.mem_cons_of_mem _ hd)
        have hl' : s.length ≤ k := by simpa using hl
        by_cases hw : (white c || lineEnd c) = true
        · rw [if_pos hw] at he
          have := ih s o hist hl' he hk' h
          rw [partsAfter_cons, partsAfter_cons]
          split
          · exact .both this
          · rename_i hn
            simp only [Bool.not_eq_true] at hn
            rw [hn, Bool.or_false] at hw
            rw [if_pos hw, if_pos hw]; exact this
        · rw [if_neg hw] at he
          simp only [Bool.or_eq_true, not_or] at hw
          rw [partsAfter_cons, partsAfter_cons, if_neg hw.2, if_neg hw.1, if_neg hw.2, if_neg hw.1]
          have hd : ∀ d, isWhitespace d = false → (o.head? = some d ↔ s.head? = some d) := by
            intro d hd
            rcases Verif.Html.soft_head h with e | ⟨x, e, hx, e'⟩
            · rw [e]
            · rw [e, e']
              constructor
              · intro h; cases h; rw [Verif.Html.ws_sp] at hd; cases hd
              · intro h; cases h; rw [hx] at hd; cases hd
          have hd1 := hd '/' (by decide +kernel)
          have hd2 := hd '*' (by decide +kernel)
          by_cases c1 : c = '/' ∧ s.head? = some '/'
          · rw [if_pos c1] at he; cases he
          rw [if_neg c1] at he
          rw [if_neg c1, if_neg (by rw [hd1]; exact c1)]
          by_cases c2 : c = '/' ∧ s.head? = some '*'
          · rw [if_pos c2] at he
            rw [if_pos c2, if_pos (by rw [hd2]; exact c2)]
            cases s with
            | nil => cases c2.2
            | cons d s =>
              have : d = '*' := by simpa using c2.2
              subst this
              obtain ⟨o', rfl, h'⟩ := soft_take h (by decide +kernel)
              simp only [List.tail_cons] at he ⊢
              cases hx : afterBlock s with
              | none => rw [hx] at he; cases he
              | some r =>
                rw [hx] at he
                obtain ⟨x, y, r', rfl, e2, rfl, e4, e5⟩ := soft_block h' r hx
                rw [e2]
                simp only at he ⊢
                have hlen : r.length ≤ k := by simp at hl'; omega
                have := ih r r' hist hlen he (fun d hd => hk' d (by simp [hd])) e5
                refine Less.append ?_ this
                rw [← List.cons_append, ← List.cons_append, consumed, consumed]
                by_cases hy : ('*' :: y).any lineEnd = true
                · rw [if_pos hy, if_pos (soft_lineEnd (.char '*' e4) hy)]; exact .refl _
                · rw [if_neg hy]
                  split
                  · exact .drop .nil
                  · exact .nil
          rw [if_neg c2] at he
          rw [if_neg c2, if_neg (by rw [hd2]; exact c2)]
          cases hx : token (goal hist) c s with
          | none => rw [hx] at he; cases he
          | some p =>
            obtain ⟨t, x⟩ := p
            rw [hx] at he
            simp only [Bool.and_eq_true] at he
            obtain ⟨y, e1, e2⟩ := soft_token hk h hx he.1
            rw [e1]
            exact .tok t (ih x y (t :: hist) (Nat.le_trans (token_le hx) hl') he.2
              (fun d hd => hk' d ((token_suffix hx).mem hd)) e2)

/-- A script in which gaps become one blank is the same to the syntax. -/
theorem soft_lines (rule : List Tok → Tok → Bool) (goal : List Tok → Bool) {s o : List Char} (he : easyScript goal s = true) (hk : Known s)
    (hm : ∀ p ∈ lines rule goal s, p.1 = false) (h : Soft s o) : lines rule goal o = lines rule goal s := by
  have := soft_parts goal _ s o [] (Nat.le_refl _) he hk h
  obtain ⟨h1, h2⟩ := this.marked (rule := rule) [] false false id
  show Ecma.marked rule [] false (parts goal o) = Ecma.marked rule [] false (parts goal s)
  exact same_marks h1 h2 hm

end Verif.Spec.Ecma
