import Verif.Spec.JsOut
import Verif.Proofs.JsSim
/-!
# The shape of the lexemes that a reading yields

Closing a literal only looks at the literal itself, so a lexeme can be read back in front of any other text.
-/
set_option linter.unusedSimpArgs false
namespace Verif.Js
open Spec.Js

private theorem map_cons_some {f : List Char → List Char} {x : Option (List Char × List Char)} {t r : List Char}
    (h : (x.map fun p => (f p.1, p.2)) = some (t, r)) : ∃ u, x = some (u, r) ∧ t = f u := by
  cases x with
  | none => cases h
  | some p => obtain ⟨u, v⟩ := p; simp at h; exact ⟨u, by simp [h.2], h.1.symm⟩

theorem closeString_stable (q : Char) : ∀ (k : Nat) (cs t r : List Char), cs.length < k → closeString q cs = some (t, r) →
    t ≠ [] ∧ cs = t ++ r ∧ ∀ r', closeString q (t ++ r') = some (t, r') := by
  intro k
  induction k with
  | zero => intro cs t r h; omega
  | succ k ih =>
    intro cs t r hl h
    match cs, hl, h with
    | [], _, h => simp [closeString] at h
    | c :: cs, hl, h =>
      by_cases hc : c = '\\'
      · subst hc
        cases cs with
        | nil => simp [closeString] at h
        | cons d cs =>
          rw [closeString] at h
          obtain ⟨u, hu, rfl⟩ := map_cons_some (f := fun x => '\\' :: d :: x) h
          obtain ⟨-, h1, h2⟩ := ih cs u r (by simp at hl ⊢; omega) hu
          refine ⟨by simp, by simp [h1], fun r' => ?_⟩
          simp only [List.cons_append]
          rw [closeString, h2]; rfl
      · rw [closeString_step _ hc] at h
        by_cases hq : c = q
        · rw [if_pos hq] at h
          simp only [Option.some.injEq, Prod.mk.injEq] at h
          obtain ⟨rfl, rfl⟩ := h
          refine ⟨by simp, rfl, fun r' => ?_⟩
          simp only [List.cons_append, List.nil_append]
          rw [closeString_step _ hc, if_pos hq]
        · rw [if_neg hq] at h
          obtain ⟨u, hu, rfl⟩ := map_cons_some (f := fun x => c :: x) h
          obtain ⟨-, h1, h2⟩ := ih cs u r (by simpa using hl) hu
          refine ⟨by simp, by simp [h1], fun r' => ?_⟩
          simp only [List.cons_append]
          rw [closeString_step _ hc, if_neg hq, h2]; rfl

theorem closeRegex_stable : ∀ (k : Nat) (cs t r : List Char), cs.length < k → closeRegex cs = some (t, r) →
    cs = t ++ '/' :: r ∧ ∀ r', closeRegex (t ++ '/' :: r') = some (t, r') := by
  intro k
  induction k with
  | zero => intro cs t r h; omega
  | succ k ih =>
    intro cs t r hl h
    match cs, hl, h with
    | [], _, h => simp [closeRegex] at h
    | c :: cs, hl, h =>
      by_cases hc : c = '\\'
      · subst hc
        cases cs with
        | nil => simp [closeRegex] at h
        | cons d cs =>
          rw [closeRegex] at h
          obtain ⟨u, hu, rfl⟩ := map_cons_some (f := fun x => '\\' :: d :: x) h
          obtain ⟨h1, h2⟩ := ih cs u r (by simp at hl ⊢; omega) hu
          refine ⟨by simp [h1], fun r' => ?_⟩
          simp only [List.cons_append]
          rw [closeRegex, h2]; rfl
      · rw [closeRegex_step _ hc] at h
        by_cases hq : c = '/'
        · rw [if_pos hq] at h
          simp only [Option.some.injEq, Prod.mk.injEq] at h
          obtain ⟨rfl, rfl⟩ := h
          refine ⟨by simp [hq], fun r' => ?_⟩
          simp only [List.nil_append]
          rw [closeRegex_step _ (by decide), if_pos rfl]
        · rw [if_neg hq] at h
          by_cases hn : isNewline c = true
          · rw [if_pos hn] at h; cases h
          · rw [if_neg hn] at h
            obtain ⟨u, hu, rfl⟩ := map_cons_some (f := fun x => c :: x) h
            obtain ⟨h1, h2⟩ := ih cs u r (by simpa using hl) hu
            refine ⟨by simp [h1], fun r' => ?_⟩
            simp only [List.cons_append]
            rw [closeRegex_step _ hc, if_neg hq, if_neg hn, h2]; rfl

private theorem closeBlock_step {c : Char} (cs : List Char) (h : ¬(c = '*' ∧ cs.head? = some '/')) :
    closeBlock (c :: cs) = (closeBlock cs).map fun p => (c :: p.1, p.2) := by
  rw [closeBlock]
  rintro cs' rfl rfl
  exact h ⟨rfl, rfl⟩

theorem closeBlock_stable : ∀ (cs t r : List Char), closeBlock cs = some (t, r) →
    cs = t ++ '*' :: '/' :: r ∧ ∀ r', closeBlock (t ++ '*' :: '/' :: r') = some (t, r')
  | [], t, r, h => by simp [closeBlock] at h
  | c :: cs, t, r, h => by
    by_cases hc : c = '*' ∧ cs.head? = some '/'
    · obtain ⟨rfl, hh⟩ := hc
      cases cs with
      | nil => cases hh
      | cons d cs =>
        simp at hh; subst hh
        rw [closeBlock] at h
        simp only [Option.some.injEq, Prod.mk.injEq] at h
        obtain ⟨rfl, rfl⟩ := h
        exact ⟨rfl, fun r' => by simp [closeBlock]⟩
    · rw [closeBlock_step cs hc] at h
      obtain ⟨u, hu, rfl⟩ := map_cons_some (f := fun x => c :: x) h
      obtain ⟨h1, h2⟩ := closeBlock_stable cs u r hu
      refine ⟨by simp [h1], fun r' => ?_⟩
      simp only [List.cons_append]
      rw [closeBlock_step, h2]
      · rfl
      · intro hx
        apply hc
        refine ⟨hx.1, ?_⟩
        rw [h1]
        cases u with
        | nil => simp at hx
        | cons => simpa using hx.2

private theorem cons_closed {c : Char} {x : Close} {t r : List Char} (h : x.cons c = .closed t r) :
    ∃ u, t = c :: u ∧ x = .closed u r := by
  cases x with
  | closed u v => simp [Close.cons] at h; exact ⟨u, h.1.symm, by simp [h.2]⟩
  | unclosed => cases h
  | tooDeep => cases h

theorem closeTemplate_stable (L : Nat) : ∀ (k : Nat) (p : Place) (cs t r : List Char), cs.length < k →
    closeTemplate L p cs = .closed t r → t ≠ [] ∧ ∀ r', closeTemplate L p (t ++ r') = .closed t r' := by
  intro k
  induction k with
  | zero => intro p cs t r h; omega
  | succ k ih =>
    intro p cs t r hl h
    match cs, hl, h with
    | [], _, h => rw [ct_nil] at h; cases h
    | c :: cs, hl, h =>
      by_cases hc : c = '\\'
      · subst hc
        cases cs with
        | nil => rw [ct_last] at h; cases h
        | cons d cs =>
          rw [ct_esc] at h
          obtain ⟨u1, ht1, hx1⟩ := cons_closed h
          obtain ⟨u, ht, hx⟩ := cons_closed hx1
          subst ht1 ht
          obtain ⟨-, h2⟩ := ih p cs u r (by simp at hl ⊢; omega) hx
          refine ⟨by simp, fun r' => ?_⟩
          simp only [List.cons_append]
          rw [ct_esc, h2]; rfl
      · have step : ∀ p', (closeTemplate L p' cs).cons c = .closed t r →
            ∃ u, t = c :: u ∧ u ≠ [] ∧ cs = u ++ r ∧ ∀ r', (closeTemplate L p' (u ++ r')).cons c = .closed (c :: u) r' := by
          intro p' h
          obtain ⟨u, ht, hx⟩ := cons_closed h
          obtain ⟨h1, h2⟩ := ih p' cs u r (by simpa using hl) hx
          exact ⟨u, ht, h1, closeTemplate_split L _ p' cs (Nat.lt_succ_self _) hx, fun r' => by rw [h2]; rfl⟩
        cases p with
        | text st =>
          rw [ct_text _ _ _ hc] at h
          by_cases h1 : c = '$' ∧ cs.head? = some '{'
          · rw [if_pos h1] at h
            obtain ⟨u, rfl, hu, hs, h2⟩ := step _ h
            refine ⟨by simp, fun r' => ?_⟩
            simp only [List.cons_append]
            have h1' : (u ++ r').head? = some '{' := by
              have := h1.2
              cases u with
              | nil => exact absurd rfl hu
              | cons x u => rw [hs] at this; simpa using this
            rw [ct_text _ _ _ hc, if_pos ⟨h1.1, h1'⟩, h2]
          · rw [if_neg h1] at h
            have h1' : ∀ u r', u ≠ [] → cs = u ++ r → ¬(c = '$' ∧ (u ++ r').head? = some '{') := by
              intro u r' hu hs hx
              apply h1
              refine ⟨hx.1, ?_⟩
              have := hx.2
              cases u with
              | nil => exact absurd rfl hu
              | cons x u => rw [hs]; simpa using this
            by_cases h2 : c = '`'
            · rw [if_pos h2] at h
              cases st with
              | nil =>
                simp only [Close.closed.injEq] at h
                obtain ⟨rfl, rfl⟩ := h
                refine ⟨by simp, fun r' => ?_⟩
                simp only [List.cons_append, List.nil_append]
                rw [ct_text _ _ _ hc, if_neg (by rintro ⟨rfl, -⟩; exact absurd h2 (by decide)), if_pos h2]
              | cons n st =>
                obtain ⟨u, rfl, hu, hs, h3⟩ := step _ h
                refine ⟨by simp, fun r' => ?_⟩
                simp only [List.cons_append]
                rw [ct_text _ _ _ hc, if_neg (h1' u r' hu hs), if_pos h2]
                exact h3 r'
            · rw [if_neg h2] at h
              obtain ⟨u, rfl, hu, hs, h3⟩ := step _ h
              refine ⟨by simp, fun r' => ?_⟩
              simp only [List.cons_append]
              rw [ct_text _ _ _ hc, if_neg (h1' u r' hu hs), if_neg h2]
              exact h3 r'
        | code n st =>
          rw [ct_code _ _ _ _ hc] at h
          have key : ∀ p', closeTemplate L (.code n st) (c :: cs) = (closeTemplate L p' cs).cons c →
              (∀ r', closeTemplate L (.code n st) (c :: r') = (closeTemplate L p' r').cons c) →
              (closeTemplate L p' cs).cons c = .closed t r →
              t ≠ [] ∧ ∀ r', closeTemplate L (.code n st) (t ++ r') = .closed t r' := by
            intro p' _ he h
            obtain ⟨u, rfl, hu, hs, h3⟩ := step _ h
            exact ⟨by simp, fun r' => by simp only [List.cons_append]; rw [he, h3]⟩
          by_cases h1 : c = '"' ∨ c = '\''
          · rw [if_pos h1] at h
            exact key _ (by rw [ct_code _ _ _ _ hc, if_pos h1]) (fun r' => by rw [ct_code _ _ _ _ hc, if_pos h1]) h
          rw [if_neg h1] at h
          by_cases h2 : c = '`'
          · rw [if_pos h2] at h
            by_cases h3 : L ≤ st.length
            · rw [if_pos h3] at h; cases h
            · rw [if_neg h3] at h
              exact key _ (by rw [ct_code _ _ _ _ hc, if_neg h1, if_pos h2, if_neg h3])
                (fun r' => by rw [ct_code _ _ _ _ hc, if_neg h1, if_pos h2, if_neg h3]) h
          rw [if_neg h2] at h
          by_cases h3 : c = '{'
          · rw [if_pos h3] at h
            exact key _ (by rw [ct_code _ _ _ _ hc, if_neg h1, if_neg h2, if_pos h3])
              (fun r' => by rw [ct_code _ _ _ _ hc, if_neg h1, if_neg h2, if_pos h3]) h
          rw [if_neg h3] at h
          by_cases h4 : c = '}'
          · rw [if_pos h4] at h
            by_cases h5 : n = 1
            · rw [if_pos h5] at h
              exact key _ (by rw [ct_code _ _ _ _ hc, if_neg h1, if_neg h2, if_neg h3, if_pos h4, if_pos h5])
                (fun r' => by rw [ct_code _ _ _ _ hc, if_neg h1, if_neg h2, if_neg h3, if_pos h4, if_pos h5]) h
            · rw [if_neg h5] at h
              exact key _ (by rw [ct_code _ _ _ _ hc, if_neg h1, if_neg h2, if_neg h3, if_pos h4, if_neg h5])
                (fun r' => by rw [ct_code _ _ _ _ hc, if_neg h1, if_neg h2, if_neg h3, if_pos h4, if_neg h5]) h
          rw [if_neg h4] at h
          exact key _ (by rw [ct_code _ _ _ _ hc, if_neg h1, if_neg h2, if_neg h3, if_neg h4])
            (fun r' => by rw [ct_code _ _ _ _ hc, if_neg h1, if_neg h2, if_neg h3, if_neg h4]) h
        | quoted q n st =>
          rw [ct_quoted _ _ _ _ _ hc] at h
          by_cases h1 : c = q
          · rw [if_pos h1] at h
            obtain ⟨u, rfl, hu, hs, h3⟩ := step _ h
            exact ⟨by simp, fun r' => by simp only [List.cons_append]; rw [ct_quoted _ _ _ _ _ hc, if_pos h1, h3]⟩
          · rw [if_neg h1] at h
            obtain ⟨u, rfl, hu, hs, h3⟩ := step _ h
            exact ⟨by simp, fun r' => by simp only [List.cons_append]; rw [ct_quoted _ _ _ _ _ hc, if_neg h1, h3]⟩

/-! ## Words -/

/-- A word that can be read in front of `cs`. -/
def WordSoFar (w cs : List Char) : Prop :=
  ∀ p c r, w = p ++ c :: r → isBlank c = false ∧ (isPunct c = false ∨ (c = '.' ∧ dotInWord p (r ++ cs) = true))

/-- A character that ends a word, or the end of the text. -/
def WordEnd (cs : List Char) : Prop := cs = [] ∨ ∃ x cs', cs = x :: cs' ∧ (isBlank x = true ∨ isPunct x = true)

def WordOk (w : List Char) : Prop := w ≠ [] ∧ ∃ cs, WordEnd cs ∧ WordSoFar w cs

theorem WordSoFar.nil (cs : List Char) : WordSoFar [] cs := by
  intro p c r h
  cases p <;> cases h

theorem WordSoFar.snoc {w : List Char} {c : Char} {cs : List Char} (h : WordSoFar w (c :: cs)) (hb : isBlank c = false)
    (hc : isPunct c = false ∨ (c = '.' ∧ dotInWord w cs = true)) : WordSoFar (w ++ [c]) cs := by
  intro p d r he
  rcases List.append_eq_append_iff.1 he with ⟨a, rfl, ha⟩ | ⟨a, rfl, ha⟩
  · cases a with
    | nil =>
      simp only [List.nil_append, List.cons.injEq] at ha
      obtain ⟨rfl, rfl⟩ := ha
      simpa using ⟨hb, hc⟩
    | cons x a =>
      simp only [List.cons_append, List.cons.injEq] at ha
      have := ha.2
      cases a <;> cases this
  · cases a with
    | nil =>
      simp only [List.nil_append, List.cons.injEq] at ha
      obtain ⟨rfl, rfl⟩ := ha
      rw [List.append_nil] at hc
      exact ⟨hb, hc⟩
    | cons x a =>
      simp only [List.cons_append, List.cons.injEq] at ha
      obtain ⟨rfl, rfl⟩ := ha
      have := h p d a rfl
      simpa using this

/-! ## Lexemes -/

/-- What a lexeme of a reading looks like; the first argument is what was read before it (last one first). -/
def LexOk (v : List Lexeme) : Lexeme → Prop
  | .word w => WordOk w
  | .blank c => isBlank c = true ∧ c ≠ '\r'
  | .punct t => t ∈ puncts
  | .str t => ∃ q b, t = q :: b ∧
      (((q = '"' ∨ q = '\'') ∧ ∀ r, closeString q (b ++ r) = some (b, r)) ∨
        (q = '`' ∧ ∀ r, closeTemplate maxNesting (.text []) (b ++ r) = .closed b r))
  | .regex b fl => regexPossible v = true ∧ (∃ d b', b = d :: b' ∧ d ≠ '/' ∧ d ≠ '*') ∧
      (∀ r, closeRegex (b ++ '/' :: r) = some (b, r)) ∧ ∀ c ∈ fl, isFlag c = true
  | .license b => ∀ r, closeBlock ('!' :: b ++ '*' :: '/' :: r) = some ('!' :: b, r)
  | _ => True

def Wf : List Lexeme → Prop
  | [] => True
  | l :: v => LexOk v l ∧ Wf v

theorem Wf.addWord {v : List Lexeme} {w cs : List Char} (hv : Wf v) (hw : WordSoFar w cs) (he : WordEnd cs) :
    Wf (addWord v w) := by
  unfold Spec.Js.addWord
  cases w with
  | nil => simpa using hv
  | cons c w => simp only [List.isEmpty_cons, Bool.false_eq_true, if_false]; exact ⟨⟨by simp, cs, he, hw⟩, hv⟩

theorem Wf.addPunct {v : List Lexeme} (hv : Wf v) {c : Char} (hc : [c] ∈ puncts) : Wf (addPunct v c) := by
  have hcomp : ∀ t ∈ compounds, t ∈ puncts := by decide +kernel
  unfold Spec.Js.addPunct
  split
  · rename_i t v' 
    split
    · rename_i h
      exact ⟨hcomp _ (by simpa using h), hv.2⟩
    · exact ⟨hc, hv⟩
  · exact ⟨hc, hv⟩

theorem isPunct_puncts {c : Char} (h : isPunct c = true) (h1 : ¬(c = '"' ∨ c = '\'')) (h2 : c ≠ '`') : [c] ∈ puncts := by
  have hs : ∀ c ∈ ",(){}[]:;.'\"!?/%*-+=\\<>|&`".toList, ¬(c = '"' ∨ c = '\'') → c ≠ '`' → [c] ∈ puncts := by
    decide +kernel
  exact hs c (by simpa [isPunct] using h) h1 h2

private theorem takeWhile_all {f : Char → Bool} {l : List Char} : ∀ x ∈ l.takeWhile f, f x = true := by
  induction l with
  | nil => simp
  | cons c l ih =>
    rw [List.takeWhile_cons]
    split
    · rename_i h
      intro x hx
      rcases List.mem_cons.1 hx with rfl | hx
      · exact h
      · exact ih x hx
    · simp

theorem lexFrom_wf : ∀ (n : Nat) (v : List Lexeme) (w cs : List Char), cs.length < n → Wf v → WordSoFar w cs →
    Wf (lexFrom n v w cs) := by
  intro n
  induction n with
  | zero => intro v w cs h; omega
  | succ n ih =>
    intro v w cs hl hv hw
    cases cs with
    | nil => exact hv.addWord hw (.inl rfl)
    | cons c cs =>
      have hl1 : cs.length < n := by simpa using hl
      rw [lexFrom]
      by_cases h1 : c = '.' ∧ dotInWord w cs = true
      · rw [if_pos h1]
        exact ih v (w ++ [c]) cs hl1 hv (hw.snoc (by rw [h1.1]; decide) (.inr h1))
      rw [if_neg h1]
      by_cases h2 : isBlank c = true
      · rw [if_pos h2]
        refine ih _ [] cs hl1 ⟨?_, hv.addWord hw (.inr ⟨c, cs, rfl, .inl h2⟩)⟩ (.nil cs)
        show isBlank (if c = '\r' then '\n' else c) = true ∧ (if c = '\r' then '\n' else c) ≠ '\r'
        split
        · decide
        · rename_i hc; exact ⟨h2, hc⟩
      rw [if_neg h2]
      by_cases h3 : isPunct c = true
      case neg =>
        rw [if_pos (by simpa using h3)]
        exact ih v (w ++ [c]) cs hl1 hv (hw.snoc (by simpa using h2) (.inl (by simpa using h3)))
      rw [if_neg (by simp [h3])]
      have hv' : Wf (Spec.Js.addWord v w) := hv.addWord hw (.inr ⟨c, cs, rfl, .inr h3⟩)
      generalize Spec.Js.addWord v w = u at hv' ⊢
      by_cases h4 : c = '"' ∨ c = '\''
      · simp only [if_pos h4]
        cases hc : closeString c cs with
        | none => exact ⟨trivial, hv'⟩
        | some p =>
          obtain ⟨t, r⟩ := p
          obtain ⟨-, hs, hst⟩ := closeString_stable c _ cs t r (Nat.lt_succ_self _) hc
          exact ih _ [] r (by rw [hs] at hl1; simp at hl1; omega) ⟨⟨c, t, rfl, .inl ⟨h4, hst⟩⟩, hv'⟩ (.nil _)
      simp only [if_neg h4]
      by_cases h5 : c = '`'
      · simp only [if_pos h5]
        cases hc : closeTemplate maxNesting (.text []) cs with
        | unclosed => exact ⟨trivial, hv'⟩
        | tooDeep => exact ⟨trivial, hv'⟩
        | closed t r =>
          have hs := closeTemplate_split _ _ _ cs (Nat.lt_succ_self _) hc
          obtain ⟨-, hst⟩ := closeTemplate_stable _ _ _ cs t r (Nat.lt_succ_self _) hc
          exact ih _ [] r (by rw [hs] at hl1; simp at hl1; omega) ⟨⟨c, t, rfl, .inr ⟨h5, hst⟩⟩, hv'⟩ (.nil _)
      simp only [if_neg h5]
      have hp : Wf (Spec.Js.addPunct u c) := hv'.addPunct (isPunct_puncts h3 h4 h5)
      by_cases h6 : c = '/'
      case neg => simp only [if_neg h6]; exact ih _ [] cs hl1 hp (.nil _)
      simp only [if_pos h6]
      cases cs with
      | nil => exact hp
      | cons d cs =>
        have hl2 : cs.length < n := by simp at hl1; omega
        simp only
        by_cases h7 : d = '/'
        · simp only [if_pos h7]
          cases hc : closeLine cs with
          | none => exact ⟨trivial, hv'⟩
          | some p =>
            obtain ⟨b, r⟩ := p
            have hle : ∀ (cs b r : List Char), closeLine cs = some (b, r) → r.length ≤ cs.length := by
              intro cs
              induction cs with
              | nil => intro b r h; simp [closeLine] at h
              | cons x cs ih' =>
                intro b r h
                rw [closeLine] at h
                split at h
                · simp at h; simp [← h.2]
                · obtain ⟨u, hu, -⟩ := map_cons_some (f := fun y => x :: y) h
                  have := ih' u r hu
                  simp; omega
            exact ih _ [] r (by have := hle _ _ _ hc; omega) ⟨trivial, hv'⟩ (.nil _)
        simp only [if_neg h7]
        by_cases h8 : d = '*'
        · simp only [if_pos h8]
          cases hc : closeBlock cs with
          | none => exact ⟨trivial, hv'⟩
          | some p =>
            obtain ⟨b, r⟩ := p
            obtain ⟨hs, hst⟩ := closeBlock_stable cs b r hc
            refine ih _ [] r (by rw [hs] at hl2; simp at hl2; omega) ⟨?_, hv'⟩ (.nil _)
            unfold blockLexeme
            split
            · exact hst
            · trivial
        simp only [if_neg h8]
        by_cases h9 : regexPossible u = true
        · simp only [if_pos h9]
          cases hc : closeRegex (d :: cs) with
          | none =>
            simp only
            split
            · refine ih _ [] _ hl1 ⟨?_, hv'⟩ (.nil _)
              rw [h6]
              show ['/'] ∈ puncts
              decide +kernel
            · exact ⟨trivial, hv'⟩
          | some p =>
            obtain ⟨b, r⟩ := p
            obtain ⟨hs, hst⟩ := closeRegex_stable _ (d :: cs) b r (Nat.lt_succ_self _) hc
            refine ih _ [] (r.dropWhile isFlag) ?_ ⟨⟨h9, ?_, hst, ?_⟩, hv'⟩ (.nil _)
            · have := (List.dropWhile_suffix (l := r) isFlag).length_le
              rw [hs] at hl1; simp at hl1; omega
            · cases b with
              | nil => simp at hs; exact absurd hs.1 h7
              | cons x b => simp at hs; exact ⟨x, b, rfl, hs.1 ▸ h7, hs.1 ▸ h8⟩
            · intro x hx; exact takeWhile_all x hx
        · simp only [if_neg h9]
          exact ih _ [] _ hl1 hp (.nil _)

theorem lexRev_wf (s : List Char) : Wf (lexRev s) := lexFrom_wf _ _ _ _ (Nat.lt_succ_self _) trivial (.nil _)

end Verif.Js
