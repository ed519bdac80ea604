import Verif.Spec.Json
/-!
# A JSON text denotes one value

A check of `Spec/Json`: the grammar is unambiguous.
-/
set_option linter.unusedSimpArgs false
namespace Verif.Json
open Spec.Json

private def ws (c : Char) : Bool := c == ' ' || c == '\t' || c == '\n' || c == '\r'

private def numChar (c : Char) : Bool := isDigit c || c == '-' || c == '+' || c == '.' || c == 'e' || c == 'E'

/-- `x` is empty or begins with a character that does not satisfy `p`. -/
private def Ends (p : Char → Bool) (x : List Char) : Prop := ∀ c ∈ x.head?, p c = false

private theorem span_unique {p : Char → Bool} : ∀ {s t x y : List Char}, (∀ c ∈ s, p c = true) → (∀ c ∈ t, p c = true) → Ends p x → Ends p y →
    s ++ x = t ++ y → s = t ∧ x = y
  | [], [], _, _, _, _, _, _, h => ⟨rfl, h⟩
  | [], c :: t, x, y, _, ht, hx, _, h => by
    have h : x = c :: (t ++ y) := h
    subst h
    have := hx c rfl
    rw [ht c List.mem_cons_self] at this
    cases this
  | c :: s, [], x, y, hs, _, _, hy, h => by
    have h : c :: (s ++ x) = y := h
    subst h
    have := hy c rfl
    rw [hs c List.mem_cons_self] at this
    cases this
  | c :: s, d :: t, x, y, hs, ht, hx, hy, h => by
    simp only [List.cons_append, List.cons.injEq] at h
    obtain ⟨rfl, h⟩ := h
    have q := span_unique (fun c hc => hs c (List.mem_cons_of_mem _ hc)) (fun c hc => ht c (List.mem_cons_of_mem _ hc)) hx hy h
    clear h
    obtain ⟨rfl, h⟩ := q
    exact ⟨rfl, h⟩

private theorem ws_of {w : List Char} (h : IsWs w) : ∀ c ∈ w, ws c = true := by
  intro c hc
  rcases h c hc with rfl | rfl | rfl | rfl <;> decide

private theorem number_chars {s : List Char} (h : IsNumber s) : ∀ c ∈ s, numChar c = true := by
  obtain ⟨sign, int, frac, exp, rfl, h1, h2, h3, h4⟩ := h
  have dig : ∀ {c}, isDigit c = true → numChar c = true := by intro c h; simp [numChar, h]
  have hs : ∀ c ∈ sign, numChar c = true := by rcases h1 with rfl | rfl <;> simp [numChar]
  have hi : ∀ c ∈ int, numChar c = true := by
    rcases h2 with rfl | ⟨d, ds, rfl, hd, -, hds⟩
    · intro c hc; simp at hc; subst hc; decide
    · intro c hc; rcases List.mem_cons.1 hc with rfl | hc
      · exact dig hd
      · exact dig (hds c hc)
  have hf : ∀ c ∈ frac, numChar c = true := by
    rcases h3 with rfl | ⟨ds, rfl, -, hds⟩
    · simp
    · intro c hc; rcases List.mem_cons.1 hc with rfl | hc
      · decide
      · exact dig (hds c hc)
  have he : ∀ c ∈ exp, numChar c = true := by
    rcases h4 with rfl | ⟨e, sg, ds, rfl, he, hsg, -, hds⟩
    · simp
    · intro c hc
      rcases List.mem_cons.1 hc with rfl | hc
      · rcases he with rfl | rfl <;> decide
      · rcases List.mem_append.1 hc with hc | hc
        · rcases hsg with rfl | rfl | rfl <;> simp at hc <;> subst hc <;> decide
        · exact dig (hds c hc)
  intro c hc
  simp only [List.mem_append] at hc
  rcases hc with ((hc | hc) | hc) | hc
  · exact hs c hc
  · exact hi c hc
  · exact hf c hc
  · exact he c hc

private theorem number_head {s : List Char} (h : IsNumber s) : ∃ c r, s = c :: r ∧ (c = '-' ∨ isDigit c = true) := by
  obtain ⟨sign, int, frac, exp, rfl, h1, h2, -, -⟩ := h
  rcases h1 with rfl | rfl
  · rcases h2 with rfl | ⟨d, ds, rfl, hd, -⟩
    · exact ⟨'0', frac ++ exp, by simp, .inr (by decide)⟩
    · exact ⟨d, ds ++ frac ++ exp, by simp, .inr hd⟩
  · exact ⟨'-', int ++ frac ++ exp, by simp, .inl rfl⟩

private theorem body_unique {b : List Char} (h : Body b) : ∀ {b' x y : List Char}, Body b' → b ++ '"' :: x = b' ++ '"' :: y → b = b' ∧ x = y := by
  induction h with
  | nil =>
    intro b' x y h' e
    cases h' with
    | nil => simp at e; exact ⟨rfl, e⟩
    | plain h1 => simp only [List.nil_append, List.cons_append, List.cons.injEq] at e; exact absurd e.1.symm h1
    | esc => simp at e
    | uni => simp at e
  | plain h1 h2 h3 _ ih =>
    intro b' x y h' e
    cases h' with
    | nil => simp only [List.nil_append, List.cons_append, List.cons.injEq] at e; exact absurd e.1 h1
    | plain _ _ _ hb =>
      simp only [List.cons_append, List.cons.injEq] at e
      obtain ⟨rfl, e⟩ := e
      have q := ih hb e
      clear e
      obtain ⟨rfl, e⟩ := q
      exact ⟨rfl, e⟩
    | esc => simp only [List.cons_append, List.cons.injEq] at e; exact absurd e.1 h2
    | uni => simp only [List.cons_append, List.cons.injEq] at e; exact absurd e.1 h2
  | esc h1 _ ih =>
    intro b' x y h' e
    cases h' with
    | nil => simp at e
    | plain _ h2 => simp only [List.cons_append, List.cons.injEq] at e; exact absurd e.1.symm h2
    | esc _ hb =>
      simp only [List.cons_append, List.cons.injEq, true_and] at e
      obtain ⟨rfl, e⟩ := e
      have q := ih hb e
      clear e
      obtain ⟨rfl, e⟩ := q
      exact ⟨rfl, e⟩
    | uni => simp only [List.cons_append, List.cons.injEq, true_and] at e; rw [e.1] at h1; simp at h1
  | uni _ _ _ _ _ ih =>
    intro b' x y h' e
    cases h' with
    | nil => simp at e
    | plain _ h2 => simp only [List.cons_append, List.cons.injEq] at e; exact absurd e.1.symm h2
    | esc h1 => simp only [List.cons_append, List.cons.injEq, true_and] at e; rw [← e.1] at h1; simp at h1
    | uni _ _ _ _ hb =>
      simp only [List.cons_append, List.cons.injEq, true_and] at e
      obtain ⟨rfl, rfl, rfl, rfl, e⟩ := e
      have q := ih hb e
      clear e
      obtain ⟨rfl, e⟩ := q
      exact ⟨rfl, e⟩

/-- What a value begins with. -/
private theorem value_head {v : JVal} {s : List Char} (h : Value v s) : ∃ c r, s = c :: r ∧ ws c = false ∧ c ≠ ']' ∧ c ≠ '}' := by
  cases h with
  | num hn =>
    obtain ⟨c, r, rfl, hc⟩ := number_head hn
    refine ⟨c, r, rfl, ?_⟩
    rcases hc with rfl | hc
    · decide
    · have : ∀ d, isDigit d = false → c ≠ d := by rintro d hd rfl; rw [hc] at hd; cases hd
      refine ⟨?_, this _ (by decide), this _ (by decide)⟩
      simp [ws, this ' ' (by decide), this '\t' (by decide), this '\n' (by decide), this '\r' (by decide)]
  | str => exact ⟨_, _, rfl, by decide⟩
  | _ => exact ⟨_, _, rfl, by decide⟩

private theorem ends_cons {p : Char → Bool} {c : Char} {x : List Char} (h : p c = false) : Ends p (c :: x) := by
  intro d hd; simp at hd; subst hd; exact h

private theorem ends_ws {w x : List Char} (h : IsWs w) (hx : Ends numChar x) : Ends numChar (w ++ x) := by
  cases w with
  | nil => exact hx
  | cons c w =>
    refine ends_cons ?_
    rcases h c List.mem_cons_self with rfl | rfl | rfl | rfl <;> decide

/-- `x` is empty or begins with a character that can follow a text inside of another one. -/
private def After (x : List Char) : Prop := ∀ c ∈ x.head?, c = ',' ∨ c = ']' ∨ c = '}'

private theorem After.ws {x : List Char} (h : After x) : Ends ws x := by
  intro c hc
  rcases h c hc with rfl | rfl | rfl <;> decide

private theorem After.num {x : List Char} (h : After x) : Ends numChar x := by
  intro c hc
  rcases h c hc with rfl | rfl | rfl <;> decide

private theorem after_cons {c : Char} {x : List Char} (h : c = ',' ∨ c = ']' ∨ c = '}') : After (c :: x) := by
  intro d hd; simp at hd; subst hd; exact h

private theorem digit_ne {c d : Char} (h : c = '-' ∨ isDigit c = true) (h1 : d ≠ '-') (h2 : isDigit d = false) : c ≠ d := by
  rintro rfl
  rcases h with h | h
  · exact h1 h
  · rw [h2] at h; cases h

mutual
private theorem value_unique {v : JVal} {s : List Char} (h : Value v s) : ∀ {w t x y}, Value w t → Ends numChar x → Ends numChar y →
    s ++ x = t ++ y → v = w ∧ s = t := by
  intro w t x y h' hx hy e
  cases h with
  | num hn =>
    obtain ⟨c, r, e1, hc⟩ := number_head hn
    cases h' with
    | num hn' =>
      obtain ⟨rfl, -⟩ := span_unique (number_chars hn) (number_chars hn') hx hy e
      exact ⟨rfl, rfl⟩
    | _ =>
      subst e1
      simp only [quoted, List.cons_append, List.cons.injEq] at e
      exact absurd e.1 (digit_ne hc (by decide) (by decide))
  | str hb =>
    cases h' with
    | str hb' =>
      simp only [quoted, List.cons_append, List.append_assoc, List.cons.injEq, true_and, List.nil_append] at e
      obtain ⟨rfl, -⟩ := body_unique hb hb' e
      exact ⟨rfl, rfl⟩
    | num hn =>
      obtain ⟨c, r, rfl, hc⟩ := number_head hn
      simp only [quoted, List.cons_append, List.cons.injEq] at e
      exact absurd e.1.symm (digit_ne hc (by decide) (by decide))
    | _ => simp [quoted] at e
  | arrNil hw =>
    cases h' with
    | arrNil hw' =>
      simp only [List.cons_append, List.append_assoc, List.cons.injEq, true_and, List.nil_append] at e
      obtain ⟨rfl, -⟩ := span_unique (ws_of hw) (ws_of hw') (ends_cons (by decide)) (ends_cons (by decide)) e
      exact ⟨rfl, rfl⟩
    | arr he =>
      simp only [List.cons_append, List.append_assoc, List.cons.injEq, true_and, List.nil_append] at e
      exact (elems_ne he hw e).elim
    | num hn =>
      obtain ⟨c, r, rfl, hc⟩ := number_head hn
      simp only [quoted, List.cons_append, List.cons.injEq] at e
      exact absurd e.1.symm (digit_ne hc (by decide) (by decide))
    | _ => simp [quoted] at e
  | arr he =>
    cases h' with
    | arrNil hw' =>
      simp only [List.cons_append, List.append_assoc, List.cons.injEq, true_and, List.nil_append] at e
      exact (elems_ne he hw' e.symm).elim
    | arr he' =>
      simp only [List.cons_append, List.append_assoc, List.cons.injEq, true_and, List.nil_append] at e
      obtain ⟨rfl, rfl⟩ := elems_unique he he' e
      exact ⟨rfl, rfl⟩
    | num hn =>
      obtain ⟨c, r, rfl, hc⟩ := number_head hn
      simp only [quoted, List.cons_append, List.cons.injEq] at e
      exact absurd e.1.symm (digit_ne hc (by decide) (by decide))
    | _ => simp [quoted] at e
  | objNil hw =>
    cases h' with
    | objNil hw' =>
      simp only [List.cons_append, List.append_assoc, List.cons.injEq, true_and, List.nil_append] at e
      obtain ⟨rfl, -⟩ := span_unique (ws_of hw) (ws_of hw') (ends_cons (by decide)) (ends_cons (by decide)) e
      exact ⟨rfl, rfl⟩
    | obj he =>
      simp only [List.cons_append, List.append_assoc, List.cons.injEq, true_and, List.nil_append] at e
      exact (members_ne he hw e).elim
    | num hn =>
      obtain ⟨c, r, rfl, hc⟩ := number_head hn
      simp only [quoted, List.cons_append, List.cons.injEq] at e
      exact absurd e.1.symm (digit_ne hc (by decide) (by decide))
    | _ => simp [quoted] at e
  | obj he =>
    cases h' with
    | objNil hw' =>
      simp only [List.cons_append, List.append_assoc, List.cons.injEq, true_and, List.nil_append] at e
      exact (members_ne he hw' e.symm).elim
    | obj he' =>
      simp only [List.cons_append, List.append_assoc, List.cons.injEq, true_and, List.nil_append] at e
      obtain ⟨rfl, rfl⟩ := members_unique he he' e
      exact ⟨rfl, rfl⟩
    | num hn =>
      obtain ⟨c, r, rfl, hc⟩ := number_head hn
      simp only [quoted, List.cons_append, List.cons.injEq] at e
      exact absurd e.1.symm (digit_ne hc (by decide) (by decide))
    | _ => simp [quoted] at e
  | _ =>
    cases h' with
    | num hn =>
      obtain ⟨c, r, rfl, hc⟩ := number_head hn
      simp only [quoted, List.cons_append, List.cons.injEq] at e
      exact absurd e.1.symm (digit_ne hc (by decide) (by decide))
    | _ => first | exact ⟨rfl, rfl⟩ | simp [quoted] at e
private theorem text_unique' {v : JVal} {s : List Char} (h : Text v s) : ∀ {w t x y}, Text w t → After x → After y →
    s ++ x = t ++ y → v = w ∧ s = t ∧ x = y := by
  intro w t x y h' hx hy e
  cases h with
  | mk h1 hv h2 =>
    cases h' with
    | mk h1' hv' h2' =>
      simp only [List.append_assoc] at e
      obtain ⟨c, r, e1, hc, -⟩ := value_head hv
      obtain ⟨c', r', e1', hc', -⟩ := value_head hv'
      have q := span_unique (ws_of h1) (ws_of h1') (by rw [e1]; exact ends_cons hc) (by rw [e1']; exact ends_cons hc') e
      clear e
      obtain ⟨rfl, e⟩ := q
      obtain ⟨rfl, e2⟩ := value_unique hv hv' (ends_ws h2 hx.num) (ends_ws h2' hy.num) e
      subst e2
      replace e := List.append_cancel_left e
      obtain ⟨rfl, rfl⟩ := span_unique (ws_of h2) (ws_of h2') hx.ws hy.ws e
      exact ⟨rfl, rfl, rfl⟩
private theorem elems_ne {vs : JVals} {s : List Char} (h : Elems vs s) {w x y : List Char} (hw : IsWs w) (e : w ++ ']' :: x = s ++ ']' :: y) : False := by
  have key : ∀ {v t z}, Text v t → w ++ ']' :: x = t ++ z → False := by
    intro v t z ht e
    cases ht with
    | mk h1 hv h2 =>
      simp only [List.append_assoc] at e
      obtain ⟨c, r, rfl, hc, hc', -⟩ := value_head hv
      have q := span_unique (ws_of hw) (ws_of h1) (ends_cons (by decide)) (ends_cons hc) e
      clear e
      obtain ⟨-, e⟩ := q
      simp only [List.cons_append, List.cons.injEq] at e
      exact hc' e.1.symm
  cases h with
  | one ht => exact key ht e
  | cons ht _ => rw [List.append_assoc] at e; exact key ht e
private theorem elems_unique {vs : JVals} {s : List Char} (h : Elems vs s) : ∀ {ws t x y}, Elems ws t →
    s ++ ']' :: x = t ++ ']' :: y → vs = ws ∧ s = t := by
  intro ws t x y h' e
  cases h with
  | one ht =>
    cases h' with
    | one ht' =>
      obtain ⟨rfl, rfl, -⟩ := text_unique' ht ht' (after_cons (by simp)) (after_cons (by simp)) e
      exact ⟨rfl, rfl⟩
    | cons ht' _ =>
      rw [List.append_assoc] at e
      have q := text_unique' ht ht' (after_cons (by simp)) (after_cons (by simp)) e
      clear e
      obtain ⟨-, -, e⟩ := q
      simp at e
  | cons ht he =>
    cases h' with
    | one ht' =>
      rw [List.append_assoc] at e
      have q := text_unique' ht ht' (after_cons (by simp)) (after_cons (by simp)) e
      clear e
      obtain ⟨-, -, e⟩ := q
      simp at e
    | cons ht' he' =>
      rw [List.append_assoc, List.append_assoc] at e
      have q := text_unique' ht ht' (after_cons (by simp)) (after_cons (by simp)) e
      clear e
      obtain ⟨rfl, rfl, e⟩ := q
      simp only [List.cons_append, List.cons.injEq, true_and] at e
      obtain ⟨rfl, rfl⟩ := elems_unique he he' e
      exact ⟨rfl, rfl⟩
private theorem members_ne {ms : JMems} {s : List Char} (h : Members ms s) {w x y : List Char} (hw : IsWs w) (e : w ++ '}' :: x = s ++ '}' :: y) :
    False := by
  have key : ∀ {w1 k z : List Char}, IsWs w1 → w ++ '}' :: x = w1 ++ (quoted k ++ z) → False := by
    intro w1 k z h1 e
    have q := span_unique (ws_of hw) (ws_of h1) (ends_cons (by decide)) (ends_cons (by decide)) e
    clear e
    obtain ⟨-, e⟩ := q
    simp at e
  cases h with
  | one h1 _ _ _ => simp only [List.append_assoc] at e; exact key h1 e
  | cons h1 _ _ _ _ => simp only [List.append_assoc] at e; exact key h1 e
private theorem members_unique {ms : JMems} {s : List Char} (h : Members ms s) : ∀ {ns t x y}, Members ns t →
    s ++ '}' :: x = t ++ '}' :: y → ms = ns ∧ s = t := by
  have key : ∀ {k k' w1 w1' w2 w2' z z' : List Char}, IsWs w1 → IsWs w1' → Body k → Body k' → IsWs w2 → IsWs w2' →
      w1 ++ (quoted k ++ (w2 ++ ':' :: z)) = w1' ++ (quoted k' ++ (w2' ++ ':' :: z')) → w1 = w1' ∧ k = k' ∧ w2 = w2' ∧ z = z' := by
    intro k k' w1 w1' w2 w2' z z' h1 h1' hk hk' h2 h2' e
    simp only [quoted, List.cons_append, List.append_assoc, List.nil_append] at e
    have q := span_unique (ws_of h1) (ws_of h1') (ends_cons (by decide)) (ends_cons (by decide)) e
    clear e
    obtain ⟨rfl, e⟩ := q
    simp only [List.cons.injEq, true_and] at e
    have q := body_unique hk hk' e
    clear e
    obtain ⟨rfl, e⟩ := q
    have q := span_unique (ws_of h2) (ws_of h2') (ends_cons (by decide)) (ends_cons (by decide)) e
    clear e
    obtain ⟨rfl, e⟩ := q
    simp only [List.cons.injEq, true_and] at e
    exact ⟨rfl, rfl, rfl, e⟩
  intro ns t x y h' e
  cases h with
  | one h1 hk h2 ht =>
    cases h' with
    | one h1' hk' h2' ht' =>
      simp only [List.append_assoc, List.cons_append] at e
      have q := key h1 h1' hk hk' h2 h2' e
      clear e
      obtain ⟨rfl, rfl, rfl, e⟩ := q
      obtain ⟨rfl, rfl, -⟩ := text_unique' ht ht' (after_cons (by simp)) (after_cons (by simp)) e
      exact ⟨rfl, rfl⟩
    | cons h1' hk' h2' ht' _ =>
      simp only [List.append_assoc, List.cons_append] at e
      have q := key h1 h1' hk hk' h2 h2' e
      clear e
      obtain ⟨rfl, rfl, rfl, e⟩ := q
      have q := text_unique' ht ht' (after_cons (by simp)) (after_cons (by simp)) e
      clear e
      obtain ⟨-, -, e⟩ := q
      simp at e
  | cons h1 hk h2 ht hm =>
    cases h' with
    | one h1' hk' h2' ht' =>
      simp only [List.append_assoc, List.cons_append] at e
      have q := key h1 h1' hk hk' h2 h2' e
      clear e
      obtain ⟨rfl, rfl, rfl, e⟩ := q
      have q := text_unique' ht ht' (after_cons (by simp)) (after_cons (by simp)) e
      clear e
      obtain ⟨-, -, e⟩ := q
      simp at e
    | cons h1' hk' h2' ht' hm' =>
      simp only [List.append_assoc, List.cons_append] at e
      have q := key h1 h1' hk hk' h2 h2' e
      clear e
      obtain ⟨rfl, rfl, rfl, e⟩ := q
      have q := text_unique' ht ht' (after_cons (by simp)) (after_cons (by simp)) e
      clear e
      obtain ⟨rfl, rfl, e⟩ := q
      simp only [List.cons.injEq, true_and] at e
      obtain ⟨rfl, rfl⟩ := members_unique hm hm' e
      exact ⟨rfl, rfl⟩
end

/-- A JSON text denotes one value. -/
theorem text_unique {v w : JVal} {s : List Char} (h : Text v s) (h' : Text w s) : v = w :=
  (text_unique' (x := []) (y := []) h h' (by intro c hc; cases hc) (by intro c hc; cases hc) rfl).1

end Verif.Json
