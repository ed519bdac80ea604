import Verif.Proofs.HtmlRe
import Verif.Spec.Html
/-!
# The white space pass of the HTML minifier
-/
set_option linter.unusedSimpArgs false
namespace Verif.Html
open Verif.Spec.Html

/-! ## Greedy repetitions -/

theorem splits_getLast (p : Char → Bool) (s : List Char) :
    (splits p s).getLast? = some (s.takeWhile p, s.dropWhile p) := by
  induction s with
  | nil => rfl
  | cons c s ih =>
    rw [splits]
    by_cases hc : p c = true
    · rw [if_pos hc, List.takeWhile_cons, List.dropWhile_cons, if_pos hc, if_pos hc, List.getLast?_cons, List.getLast?_map, ih]
      rfl
    · rw [if_neg hc, List.takeWhile_cons, List.dropWhile_cons, if_neg hc, if_neg hc]
      rfl

theorem greedy_head (p : Char → Bool) (s : List Char) :
    ∃ hh, ends (.star true p) s = ⟨s.takeWhile p, s.dropWhile p, []⟩ :: hh := by
  have h : ((ends (.star true p) s).head?) = some ⟨s.takeWhile p, s.dropWhile p, []⟩ := by
    simp only [ends, if_true, List.head?_reverse, List.getLast?_map, splits_getLast, Option.map_some]
  cases he : ends (.star true p) s with
  | nil => rw [he] at h; simp at h
  | cons x xs =>
    rw [he] at h
    exact ⟨xs, by rw [Option.some.inj h]⟩

theorem ends_ch_seq (p : Char → Bool) (r : Re) (c : Char) (s : List Char) :
    ends (.seq (.ch p) r) (c :: s) = if p c then (ends r s).map fun h => ⟨c :: h.text, h.rest, h.caps⟩ else [] := by
  by_cases hc : p c = true
  · simp [ends, hc]
  · simp [ends, hc]

theorem ends_ch_nil (p : Char → Bool) (r : Re) : ends (.seq (.ch p) r) [] = [] := by simp [ends]

theorem plus_head {p : Char → Bool} {c : Char} {s : List Char} (hc : p c = true) :
    ∃ hh, ends (.plus p) (c :: s) = ⟨c :: s.takeWhile p, s.dropWhile p, []⟩ :: hh := by
  obtain ⟨hh, h⟩ := greedy_head p s
  rw [Re.plus, ends_ch_seq, if_pos hc, h]
  exact ⟨_, rfl⟩

theorem plus_none {p : Char → Bool} {s : List Char} (h : ∀ c, s.head? = some c → p c = false) : ends (.plus p) s = [] := by
  cases s with
  | nil => exact ends_ch_nil _ _
  | cons c s => rw [Re.plus, ends_ch_seq, h c rfl]; rfl

/-! ## Gaps -/

theorem gap_unique {v w r s : List Char} {c d : Char} (h : v ++ c :: r = w ++ d :: s) (hv : ∀ x ∈ v, isWhitespace x = true)
    (hw : ∀ x ∈ w, isWhitespace x = true) (hc : isWhitespace c = false) (hd : isWhitespace d = false) :
    v = w ∧ c = d ∧ r = s := by
  induction v generalizing w with
  | nil =>
    cases w with
    | nil => exact ⟨rfl, List.cons.inj h⟩
    | cons x w =>
      have := (List.cons.inj h).1
      rw [this, hw x (by simp)] at hc
      exact absurd hc (by decide)
  | cons y v ih =>
    cases w with
    | nil =>
      have := (List.cons.inj h).1
      rw [← this, hv y (by simp)] at hd
      exact absurd hd (by decide)
    | cons x w =>
      obtain ⟨rfl, h'⟩ := List.cons.inj h
      obtain ⟨rfl, h2⟩ := ih h' (fun z hz => hv z (by simp [hz])) (fun z hz => hw z (by simp [hz]))
      exact ⟨rfl, h2⟩

theorem gap_split (s : List Char) : (∀ c ∈ s, isWhitespace c = true) ∨
    ∃ w c r, s = w ++ c :: r ∧ (∀ x ∈ w, isWhitespace x = true) ∧ isWhitespace c = false := by
  induction s with
  | nil => left; simp
  | cons c s ih =>
    by_cases hc : isWhitespace c = true
    · rcases ih with h | ⟨w, d, r, rfl, h1, h2⟩
      · left; intro x hx; simp only [List.mem_cons] at hx
        rcases hx with rfl | hx
        · exact hc
        · exact h x hx
      · right
        refine ⟨c :: w, d, r, rfl, ?_, h2⟩
        intro x hx; simp only [List.mem_cons] at hx
        rcases hx with rfl | hx
        · exact hc
        · exact h1 x hx
    · right
      exact ⟨[], c, s, rfl, by simp, by simpa using hc⟩

theorem gaps_last_inv {g : Option Char → List Char → Option Char → List Char} {prev : Option Char} {w o : List Char}
    (hw : ∀ x ∈ w, isWhitespace x = true) (h : Gaps g prev w o) : o = g prev w none := by
  cases h with
  | last => rfl
  | next _ hc _ =>
    rw [hw _ (by simp)] at hc
    exact absurd hc (by decide)

theorem gaps_next_inv {g : Option Char → List Char → Option Char → List Char} {prev : Option Char} {w s o : List Char}
    {c : Char} (hw : ∀ x ∈ w, isWhitespace x = true) (hc : isWhitespace c = false) (h : Gaps g prev (w ++ c :: s) o) :
    ∃ o', o = g prev w (some c) ++ c :: o' ∧ Gaps g (some c) s o' := by
  generalize he : w ++ c :: s = x at h
  cases h with
  | last hx =>
    rw [← he] at hx
    rw [hx c (by simp)] at hc
    exact absurd hc (by decide)
  | next h1 h2 h3 =>
    obtain ⟨rfl, rfl, rfl⟩ := gap_unique he hw h1 hc h2
    exact ⟨_, rfl, h3⟩

theorem gaps_unique {g : Option Char → List Char → Option Char → List Char} {prev : Option Char} {s o o' : List Char}
    (h : Gaps g prev s o) (h' : Gaps g prev s o') : o = o' := by
  induction h generalizing o' with
  | last hw => exact (gaps_last_inv hw h').symm
  | next hw hc _ ih =>
    obtain ⟨x, rfl, hx⟩ := gaps_next_inv hw hc h'
    rw [ih hx]

theorem gaps_comp {g g' : Option Char → List Char → Option Char → List Char} {prev : Option Char} {s m o : List Char}
    (h : Gaps g prev s m) (h' : Gaps g' prev m o)
    (hg : ∀ p w n, (∀ x ∈ w, isWhitespace x = true) → ∀ x ∈ g p w n, isWhitespace x = true) :
    Gaps (fun p w n => g' p (g p w n) n) prev s o := by
  induction h generalizing o with
  | last hw =>
    rw [gaps_last_inv (hg _ _ _ hw) h']
    exact .last hw
  | next hw hc _ ih =>
    obtain ⟨x, rfl, hx⟩ := gaps_next_inv (hg _ _ _ hw) hc h'
    exact .next hw hc (ih hx)

theorem gaps_congr {g g' : Option Char → List Char → Option Char → List Char} {prev : Option Char} {s o : List Char}
    (h : Gaps g prev s o) (hg : ∀ p w n, g p w n = g' p w n) : Gaps g' prev s o := by
  have : g = g' := by funext p w n; exact hg p w n
  rw [← this]; exact h

/-! ## First step: between tags -/

def betweenTags : Re := .seq (.c '>') (.seq (.plus space) (.c '<'))

theorem solid_betweenTags : solid betweenTags := solid_seq _ (solid_c _)

def pass1 (s : List Char) : List Char := replaceAll betweenTags (fun _ => "> <".toList) s

def gap1 (prev : Option Char) (w : List Char) (next : Option Char) : List Char :=
  if w ≠ [] ∧ prev = some '>' ∧ next = some '<' then [' '] else w

theorem lang_betweenTags {t : List Char} : lang betweenTags t ↔
    ∃ w, t = '>' :: (w ++ ['<']) ∧ w ≠ [] ∧ ∀ c ∈ w, isWhitespace c = true := by
  constructor
  · rintro ⟨u, v, rfl, hu, x, y, rfl, hx, hy⟩
    rw [lang_c.1 hu, lang_c.1 hy]
    obtain ⟨h1, h2⟩ := lang_plus.1 hx
    exact ⟨x, by simp, h1, h2⟩
  · rintro ⟨w, rfl, h1, h2⟩
    exact ⟨['>'], w ++ ['<'], rfl, lang_c.2 rfl, w, _, rfl, lang_plus.2 ⟨h1, h2⟩, lang_c.2 rfl⟩

theorem ws_lt : isWhitespace '<' = false := by decide +kernel
theorem ws_gt : isWhitespace '>' = false := by decide +kernel
theorem ws_sp : isWhitespace ' ' = true := by decide +kernel

theorem pass1_ne {c : Char} (s : List Char) (hc : c ≠ '>') : pass1 (c :: s) = c :: pass1 s := by
  refine replaceAll_miss _ (ends_nil.2 ?_)
  rintro t u e hl
  obtain ⟨w, rfl, -⟩ := lang_betweenTags.1 hl
  exact hc (List.cons.inj e).1

theorem pass1_ws {w s : List Char} (hw : ∀ x ∈ w, isWhitespace x = true) : pass1 (w ++ s) = w ++ pass1 s := by
  induction w with
  | nil => rfl
  | cons c w ih =>
    have : c ≠ '>' := by
      rintro rfl
      have := hw '>' (by simp)
      rw [ws_gt] at this; exact absurd this (by decide)
    rw [List.cons_append, pass1_ne _ this, ih fun x hx => hw x (by simp [hx])]
    rfl

theorem pass1_step {w r : List Char} {p c : Char} (hw : ∀ x ∈ w, isWhitespace x = true) (hc : isWhitespace c = false) :
    pass1 (p :: (w ++ c :: r)) = p :: (gap1 (some p) w (some c) ++ pass1 (c :: r)) := by
  by_cases hh : w ≠ [] ∧ p = '>' ∧ c = '<'
  · obtain ⟨h1, rfl, rfl⟩ := hh
    cases he : ends betweenTags ('>' :: (w ++ '<' :: r)) with
    | nil =>
      exact absurd (lang_betweenTags.2 ⟨w, rfl, h1, hw⟩) (ends_nil.1 he _ r (by simp))
    | cons x xs =>
      obtain ⟨e, hl⟩ := ends_sound (r := betweenTags) (s := '>' :: (w ++ '<' :: r)) (h := x) (by rw [he]; simp)
      obtain ⟨v, hv, h2, h3⟩ := lang_betweenTags.1 hl
      rw [hv] at e
      have e' : w ++ '<' :: r = v ++ '<' :: x.rest := by
        have := (List.cons.inj e).2
        rw [this]; simp
      obtain ⟨rfl, -, rfl⟩ := gap_unique e' hw h3 ws_lt ws_lt
      rw [pass1, replaceAll_hit solid_betweenTags _ he, gap1, if_pos ⟨h1, rfl, rfl⟩, pass1_ne _ (by decide)]
      rfl
  · have hg : gap1 (some p) w (some c) = w := by
      rw [gap1, if_neg]
      rintro ⟨h1, h2, h3⟩
      exact hh ⟨h1, Option.some.inj h2, Option.some.inj h3⟩
    rw [hg, ← pass1_ws hw]
    refine replaceAll_miss _ (ends_nil.2 ?_)
    rintro t u e hl
    obtain ⟨v, rfl, h1, h2⟩ := lang_betweenTags.1 hl
    obtain ⟨rfl, e2⟩ := List.cons.inj e
    have e' : w ++ c :: r = v ++ '<' :: u := by rw [e2]; simp
    obtain ⟨rfl, rfl, -⟩ := gap_unique e' hw h2 hc ws_lt
    exact hh ⟨h1, rfl, rfl⟩

theorem pass1_last {w : List Char} {p : Char} (hw : ∀ x ∈ w, isWhitespace x = true) : pass1 (p :: w) = p :: w := by
  have : pass1 (p :: w) = p :: pass1 w := by
    refine replaceAll_miss _ (ends_nil.2 ?_)
    rintro t u e hl
    obtain ⟨v, rfl, h1, h2⟩ := lang_betweenTags.1 hl
    have e2 := (List.cons.inj e).2
    have := hw '<' (by rw [e2]; simp)
    rw [ws_lt] at this; exact absurd this (by decide)
  rw [this]
  have := pass1_ws (s := []) hw
  rw [List.append_nil] at this
  rw [this]
  exact congrArg (p :: ·) (List.append_nil w)

theorem pass1_after (n : Nat) : ∀ (p : Char) (s : List Char), s.length ≤ n →
    ∃ o, pass1 (p :: s) = p :: o ∧ Gaps gap1 (some p) s o := by
  induction n with
  | zero =>
    intro p s hs
    have : s = [] := List.eq_nil_of_length_eq_zero (by omega)
    subst this
    exact ⟨[], pass1_last (by simp), .last (w := []) (by simp)⟩
  | succ n ih =>
    intro p s hs
    rcases gap_split s with h | ⟨w, c, r, rfl, h1, h2⟩
    · refine ⟨s, pass1_last h, ?_⟩
      have : gap1 (some p) s none = s := by rw [gap1, if_neg]; simp
      have hg := Gaps.last (g := gap1) (prev := some p) h
      rwa [this] at hg
    · simp only [List.length_append, List.length_cons] at hs
      obtain ⟨o, ho, hg⟩ := ih c r (by omega)
      refine ⟨gap1 (some p) w (some c) ++ c :: o, ?_, .next h1 h2 hg⟩
      rw [pass1_step h1 h2, ho]

theorem pass1_gaps (s : List Char) : Gaps gap1 none s (pass1 s) := by
  rcases gap_split s with h | ⟨w, c, r, rfl, h1, h2⟩
  · have e := pass1_ws (s := []) h
    have e2 : pass1 [] = [] := rfl
    rw [e2, List.append_nil] at e
    have : gap1 none s none = s := by rw [gap1, if_neg]; simp
    have hg := Gaps.last (g := gap1) (prev := none) h
    rw [this] at hg
    rw [e]
    exact hg
  · obtain ⟨o, ho, hg⟩ := pass1_after _ c r (Nat.le_refl _)
    have : gap1 none w (some c) = w := by rw [gap1, if_neg]; simp
    have hn := Gaps.next (g := gap1) (prev := none) h1 h2 hg
    rw [this, ← ho] at hn
    rwa [pass1_ws h1]

/-! ## Second step: runs and line breaks -/

def isBreak (c : Char) : Bool := c == '\r' || c == '\n'

def runs : Re := .alt (.seq (.ch space) (.plus space)) (.ch isBreak)

theorem solid_runs : solid runs := solid_alt (solid_seq _ (solid_ch _)) (solid_ch _)

def pass2 (s : List Char) : List Char := replaceAll runs (fun _ => [' ']) s

def gap2 (w : List Char) : List Char := if 2 ≤ w.length ∨ w = ['\r'] ∨ w = ['\n'] then [' '] else w

theorem break_ws {c : Char} (h : isBreak c = true) : isWhitespace c = true := by
  rw [isBreak, Bool.or_eq_true, beq_iff_eq, beq_iff_eq] at h
  rcases h with rfl | rfl <;> decide +kernel

theorem pass2_solid {c : Char} (s : List Char) (hc : isWhitespace c = false) : pass2 (c :: s) = c :: pass2 s := by
  refine replaceAll_miss _ ?_
  have h1 : ends (.seq (.ch space) (.plus space)) (c :: s) = [] := by
    rw [ends_ch_seq]; simp only [space, hc, Bool.false_eq_true, if_false]
  have h2 : isBreak c = false := by
    cases hb : isBreak c
    · rfl
    · rw [break_ws hb] at hc; exact absurd hc (by decide)
  rw [runs, ends, h1, ends, h2]; rfl

theorem takeWhile_gap {w r : List Char} (hw : ∀ x ∈ w, space x = true) (hr : ∀ c, r.head? = some c → space c = false) :
    (w ++ r).takeWhile space = w ∧ (w ++ r).dropWhile space = r := by
  induction w with
  | nil =>
    cases r with
    | nil => exact ⟨rfl, rfl⟩
    | cons c r =>
      rw [List.nil_append, List.takeWhile_cons, List.dropWhile_cons, hr c rfl]
      exact ⟨rfl, rfl⟩
  | cons c w ih =>
    have := ih fun x hx => hw x (by simp [hx])
    rw [List.cons_append, List.takeWhile_cons, List.dropWhile_cons, if_pos (hw c (by simp)), if_pos (hw c (by simp)),
      this.1, this.2]
    exact ⟨rfl, rfl⟩

theorem pass2_gap {w r : List Char} (hw : ∀ x ∈ w, isWhitespace x = true) (hr : ∀ c, r.head? = some c → isWhitespace c = false) :
    pass2 (w ++ r) = gap2 w ++ pass2 r := by
  match w, hw with
  | [], _ => rfl
  | [a], hw =>
    have h1 : ends (.seq (.ch space) (.plus space)) (a :: r) = [] := by
      rw [ends_ch_seq, plus_none (p := space) hr]; simp
    have h0 : ends runs (a :: r) = if isBreak a then [⟨[a], r, []⟩] else [] := by
      rw [runs, ends, h1, ends]; rfl
    by_cases hb : isBreak a = true
    · rw [if_pos hb] at h0
      have hg : gap2 [a] = [' '] := by
        rw [gap2, if_pos]
        rw [isBreak, Bool.or_eq_true, beq_iff_eq, beq_iff_eq] at hb
        rcases hb with rfl | rfl
        · right; left; rfl
        · right; right; rfl
      rw [hg]
      exact replaceAll_hit solid_runs _ h0
    · rw [if_neg hb] at h0
      have hg : gap2 [a] = [a] := by
        rw [gap2, if_neg]
        rintro (h | h | h)
        · simp at h
        · simp at h; subst h; exact hb rfl
        · simp at h; subst h; exact hb rfl
      rw [hg]
      exact replaceAll_miss _ h0
  | a :: b :: w, hw =>
    have hg : gap2 (a :: b :: w) = [' '] := by
      rw [gap2, if_pos]; left; simp
    have ha : space a = true := hw a (by simp)
    have hb : space b = true := hw b (by simp)
    obtain ⟨hh, h1⟩ := plus_head (p := space) (c := b) (s := w ++ r) hb
    obtain ⟨e1, e2⟩ := takeWhile_gap (w := w) (r := r) (fun x hx => hw x (by simp [hx])) hr
    rw [e1, e2] at h1
    have h0 : ∃ hh, ends runs (a :: b :: w ++ r) = ⟨a :: b :: w, r, []⟩ :: hh := by
      rw [runs, ends, List.cons_append, ends_ch_seq, if_pos ha, List.cons_append, h1, List.map_cons]
      exact ⟨_, List.cons_append⟩
    obtain ⟨hh, h0⟩ := h0
    rw [hg]
    exact replaceAll_hit solid_runs _ h0

theorem pass2_gaps (n : Nat) : ∀ (prev : Option Char) (s : List Char), s.length ≤ n →
    Gaps (fun _ w _ => gap2 w) prev s (pass2 s) := by
  induction n with
  | zero =>
    intro prev s hs
    have : s = [] := List.eq_nil_of_length_eq_zero (by omega)
    subst this
    exact .last (g := fun _ w _ => gap2 w) (w := []) (by simp)
  | succ n ih =>
    intro prev s hs
    rcases gap_split s with h | ⟨w, c, r, rfl, h1, h2⟩
    · have e := pass2_gap (r := []) h (by simp)
      have e2 : pass2 [] = [] := rfl
      rw [List.append_nil, e2, List.append_nil] at e
      rw [e]
      exact .last (g := fun _ w _ => gap2 w) h
    · simp only [List.length_append, List.length_cons] at hs
      rw [pass2_gap h1 (by simp [h2]), pass2_solid _ h2]
      exact .next (g := fun _ w _ => gap2 w) h1 h2 (ih (some c) r (by omega))

theorem squeeze_eq (p : Option Char) (w : List Char) (n : Option Char) : gap2 (gap1 p w n) = squeeze p w n := by
  unfold squeeze gap1
  by_cases hw : w = []
  · subst hw; simp [gap2]
  · rw [if_neg hw]
    by_cases hb : p = some '>' ∧ n = some '<'
    · rw [if_pos ⟨hw, hb⟩, if_pos (.inl hb)]; rfl
    · rw [if_neg (fun h => hb h.2)]
      unfold gap2
      by_cases h2 : 2 ≤ w.length ∨ w = ['\r'] ∨ w = ['\n']
      · rw [if_pos h2, if_pos (.inr h2)]
      · rw [if_neg h2, if_neg]
        rintro (h | h)
        · exact hb h
        · exact h2 h

theorem squeeze_spec (s : List Char) : Gaps squeeze none s (pass2 (pass1 s)) := by
  have h := gaps_comp (pass1_gaps s) (pass2_gaps _ none (pass1 s) (Nat.le_refl _)) (by
    intro p w n hw x hx
    unfold gap1 at hx
    split at hx
    · rw [List.mem_singleton] at hx; subst hx; exact ws_sp
    · exact hw x hx)
  exact gaps_congr h squeeze_eq

/-! ## What the result looks like -/

theorem squeeze_cases (p : Option Char) (w : List Char) (n : Option Char) :
    squeeze p w n = [] ∨ ∃ c, squeeze p w n = [c] ∧ c ≠ '\r' ∧ c ≠ '\n' := by
  unfold squeeze
  split
  · left; rfl
  · rename_i h0
    right
    split
    · exact ⟨' ', rfl, by decide, by decide⟩
    · rename_i h
      simp only [not_or] at h
      match w, h0, h with
      | [c], _, h =>
        refine ⟨c, rfl, ?_, ?_⟩
        · rintro rfl; exact h.2.2.1 rfl
        · rintro rfl; exact h.2.2.2 rfl
      | a :: b :: w, _, h => exact absurd h.2.1 (by simp)

theorem gaps_nobreak {prev : Option Char} {s o : List Char} (h : Gaps squeeze prev s o) : '\r' ∉ o ∧ '\n' ∉ o := by
  induction h with
  | @last prev w hw =>
    rcases squeeze_cases prev w none with e | ⟨c, e, h1, h2⟩
    · rw [e]; simp
    · rw [e]; simp [h1.symm, h2.symm]
  | @next prev w s o c hw hc _ ih =>
    have hr : c ≠ '\r' := by rintro rfl; exact absurd hc (by decide +kernel)
    have hn : c ≠ '\n' := by rintro rfl; exact absurd hc (by decide +kernel)
    rcases squeeze_cases prev w (some c) with e | ⟨d, e, h1, h2⟩
    · rw [e]; simp [hr.symm, hn.symm, ih]
    · rw [e]; simp [hr.symm, hn.symm, ih, h1.symm, h2.symm]


theorem apart_cons {c : Char} {s : List Char} (h : Apart s) (hc : ∀ d, s.head? = some d → ¬ (isWhitespace c = true ∧ isWhitespace d = true)) :
    Apart (c :: s) := by
  intro a x y b e
  cases a with
  | nil =>
    obtain ⟨rfl, rfl⟩ := List.cons.inj e
    exact hc y rfl
  | cons d a => exact h a x y b (List.cons.inj e).2

theorem apart_nil : Apart [] := by intro a x y b e; simp at e

theorem gaps_apart {prev : Option Char} {s o : List Char} (h : Gaps squeeze prev s o) : Apart o := by
  induction h with
  | @last prev w hw =>
    rcases squeeze_cases prev w none with e | ⟨c, e, -⟩
    · rw [e]; exact apart_nil
    · rw [e]; exact apart_cons apart_nil (by simp)
  | @next prev w s o c hw hc _ ih =>
    have h1 : Apart (c :: o) := apart_cons ih (by intro d _ h; rw [hc] at h; exact absurd h.1 (by decide))
    rcases squeeze_cases prev w (some c) with e | ⟨d, e, -⟩
    · rw [e]; exact h1
    · rw [e]
      refine apart_cons h1 ?_
      intro x hx h
      obtain rfl : c = x := by simpa using hx
      rw [hc] at h
      exact absurd h.2 (by decide)

theorem condenseWhitespace_eq (T : Tables) (s : List Char) : condenseWhitespace T s =
    if !contains "<textarea".toList (s.flatMap T.lower) && !contains "<pre".toList (s.flatMap T.lower) then pass2 (pass1 s)
    else trim s := rfl

/-! ## Lower case -/

theorem toLower_ascii {c : Char} (h : c.toLower.toNat < 128) : c.toNat < 128 := by
  unfold Char.toLower at h
  split at h
  · rename_i hc
    have h2 : c.val.toNat ≤ 90 := UInt32.le_iff_toNat_le.1 hc.2
    show c.val.toNat < 128
    omega
  · exact h

/-- Characters whose lower case comes from ASCII only. -/
def Plain (d : Char) : Prop := d.toNat < 128 ∧ d ≠ 'i' ∧ d ≠ 'k'

theorem lower_prefix {T : Tables} (hT : T.Ok) {n : List Char} (hn : ∀ d ∈ n, Plain d) {s b : List Char}
    (h : s.flatMap T.lower = n ++ b) : ∃ m r, s = m ++ r ∧ m.map Char.toLower = n ∧ r.flatMap T.lower = b := by
  induction n generalizing s with
  | nil => exact ⟨[], s, rfl, rfl, h⟩
  | cons d n ih =>
    cases s with
    | nil => simp at h
    | cons c s =>
      rw [List.flatMap_cons] at h
      have hd := hn d (by simp)
      by_cases hc : c.toNat < 128
      · rw [hT.lower_ascii c hc] at h
        obtain ⟨h1, h2⟩ := List.cons.inj h
        obtain ⟨m, r, rfl, h3, h4⟩ := ih (fun x hx => hn x (by simp [hx])) h2
        exact ⟨c :: m, r, rfl, by rw [List.map_cons, h1, h3], h4⟩
      · exfalso
        cases hl : T.lower c with
        | nil => exact hT.lower_ne c hl
        | cons e l =>
          rw [hl] at h
          obtain ⟨rfl, -⟩ := List.cons.inj h
          rcases hT.lower_other c (by omega) e (by rw [hl]; simp) hd.1 with h5 | h5
          · exact hd.2.1 h5
          · exact hd.2.2 h5

theorem lower_infix {T : Tables} (hT : T.Ok) {n : List Char} (hn : ∀ d ∈ n, Plain d) (hne : n ≠ []) {s a b : List Char}
    (h : s.flatMap T.lower = a ++ n ++ b) : Mentions n s := by
  induction s generalizing a with
  | nil =>
    have := List.append_eq_nil_iff.1 h.symm
    exact absurd (List.append_eq_nil_iff.1 this.1).2 hne
  | cons c s ih =>
    cases a with
    | nil =>
      obtain ⟨m, r, h1, h2, -⟩ := lower_prefix hT hn (s := c :: s) (b := b) (by simpa using h)
      exact ⟨[], m, r, by simpa using h1, h2⟩
    | cons x a =>
      rw [List.flatMap_cons, List.append_assoc] at h
      have key : ∃ a', x :: a = T.lower c ++ a' := by
        rcases List.append_eq_append_iff.1 h with ⟨a', h1, h2⟩ | ⟨c', h1, h2⟩
        · exact ⟨a', h1⟩
        · cases hc' : c' with
          | nil => exact ⟨[], by rw [h1, hc']; simp⟩
          | cons y c' =>
            exfalso
            subst hc'
            cases n with
            | nil => exact hne rfl
            | cons d n =>
              obtain ⟨rfl, -⟩ := List.cons.inj h2
              have hd := hn d (by simp)
              by_cases hc : c.toNat < 128
              · rw [hT.lower_ascii c hc] at h1
                have := congrArg List.length h1
                simp at this
              · rcases hT.lower_other c (by omega) d (by rw [h1]; simp) hd.1 with h5 | h5
                · exact hd.2.1 h5
                · exact hd.2.2 h5
      obtain ⟨a', ha⟩ := key
      rw [ha, List.append_assoc] at h
      obtain ⟨p, m, q, rfl, hm⟩ := ih (a := a') (by rw [List.append_assoc]; exact List.append_cancel_left h)
      exact ⟨c :: p, m, q, rfl, hm⟩

theorem lower_mentions {T : Tables} (hT : T.Ok) {n : List Char} (hn : ∀ d ∈ n, Plain d) (hne : n ≠ []) (s : List Char) :
    contains n (s.flatMap T.lower) = true ↔ Mentions n s := by
  rw [contains_iff]
  constructor
  · rintro ⟨a, b, h⟩
    exact lower_infix hT hn hne h
  · rintro ⟨a, m, b, rfl, hm⟩
    refine ⟨a.flatMap T.lower, b.flatMap T.lower, ?_⟩
    have : m.flatMap T.lower = n := by
      clear hne
      induction m generalizing n with
      | nil => exact hm
      | cons c m ih =>
        cases n with
        | nil => simp at hm
        | cons d n =>
          rw [List.map_cons] at hm
          obtain ⟨h1, h2⟩ := List.cons.inj hm
          have hd := hn d (by simp)
          have hc : c.toNat < 128 := toLower_ascii (by rw [h1]; exact hd.1)
          rw [List.flatMap_cons, hT.lower_ascii c hc, h1, ih (fun x hx => hn x (by simp [hx])) h2]
          rfl
    rw [List.flatMap_append, List.flatMap_append, this]

theorem plain_textarea : ∀ d ∈ "<textarea".toList, Plain d := by
  unfold Plain; decide
theorem plain_pre : ∀ d ∈ "<pre".toList, Plain d := by
  unfold Plain; decide

/-- The white space pass. -/
theorem condenseWhitespace_spec {T : Tables} (hT : T.Ok) (s : List Char) :
    (Mentions "<pre".toList s ∨ Mentions "<textarea".toList s → condenseWhitespace T s = trim s) ∧
    (¬ Mentions "<pre".toList s → ¬ Mentions "<textarea".toList s → Gaps squeeze none s (condenseWhitespace T s)) := by
  have h1 := lower_mentions hT plain_textarea (by simp) s
  have h2 := lower_mentions hT plain_pre (by simp) s
  rw [condenseWhitespace_eq]
  constructor
  · intro h
    rw [if_neg]
    intro hc
    rw [Bool.and_eq_true, Bool.not_eq_true', Bool.not_eq_true'] at hc
    rcases h with h | h
    · rw [h2.2 h] at hc; exact absurd hc.2 (by decide)
    · rw [h1.2 h] at hc; exact absurd hc.1 (by decide)
  · intro n1 n2
    rw [if_pos]
    · exact squeeze_spec s
    · have e1 : contains "<textarea".toList (s.flatMap T.lower) = false := by
        cases hc : contains "<textarea".toList (s.flatMap T.lower)
        · rfl
        · exact absurd (h1.1 hc) n2
      have e2 : contains "<pre".toList (s.flatMap T.lower) = false := by
        cases hc : contains "<pre".toList (s.flatMap T.lower)
        · rfl
        · exact absurd (h2.1 hc) n1
      rw [e1, e2]; rfl

end Verif.Html
