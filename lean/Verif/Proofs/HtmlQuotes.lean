import Verif.Proofs.HtmlSoft
import Verif.Proofs.HtmlPlain
import Verif.Spec.HtmlSettled
/-!
# The quotes of a tag, a second time
-/
set_option linter.unusedSimpArgs false
namespace Verif.Html
open Verif.Spec.Html

/-- The last pass over a tag. -/
def quotes (s : List Char) : List Char := replaceAll quotesInTag unquote s

theorem quotes_nil : quotes [] = [] := rfl

theorem lang_quotes {t : List Char} : lang quotesInTag t ↔ ∃ k v, t = k ++ '=' :: '"' :: (v ++ ['"']) ∧ k ≠ [] ∧
    (∀ c ∈ k, letter c = true) ∧ v ≠ [] ∧ ∀ c ∈ v, simple c = true := by
  have e0 : "=\"".toList = ['=', '"'] := by decide +kernel
  constructor
  · rintro ⟨k, y, rfl, h1, h2⟩
    obtain ⟨k1, k2⟩ := lang_plus.1 (show lang (.plus letter) k from h1)
    obtain ⟨u, rfl, h3⟩ := lang_lit.1 h2
    obtain ⟨v, z, rfl, h4, h5⟩ := h3
    obtain ⟨v1, v2⟩ := lang_plus.1 (show lang (.plus simple) v from h4)
    exact ⟨k, v, by rw [lang_c.1 h5, e0]; simp, k1, k2, v1, v2⟩
  · rintro ⟨k, v, rfl, k1, k2, v1, v2⟩
    refine ⟨k, '=' :: '"' :: (v ++ ['"']), rfl, lang_plus.2 ⟨k1, k2⟩, lang_lit.2 ⟨v ++ ['"'], by rw [e0]; rfl, v, ['"'], rfl,
      lang_plus.2 ⟨v1, v2⟩, lang_c.2 rfl⟩⟩

theorem letter_eq : letter '=' = false := by decide +kernel
theorem letter_dq : letter '"' = false := by decide +kernel
theorem simple_eq : simple '=' = false := by decide +kernel
theorem simple_dq : simple '"' = false := by decide +kernel
theorem letter_simple {c : Char} (h : letter c = true) : simple c = true := by simp [simple, h]
theorem simple_ws {c : Char} (h : simple c = true) : isWhitespace c = false := by
  have hlt : c.toNat < 128 := by
    simp only [simple, letter, Bool.or_eq_true, Bool.and_eq_true, decide_eq_true_eq, beq_iff_eq] at h
    rcases h with ((((⟨-, h⟩ | ⟨-, h⟩) | ⟨-, h⟩) | h) | h) | h
    · have := UInt32.le_iff_toNat_le.1 h; exact Nat.lt_of_le_of_lt this (by decide)
    · have := UInt32.le_iff_toNat_le.1 h; exact Nat.lt_of_le_of_lt this (by decide)
    · have := UInt32.le_iff_toNat_le.1 h; exact Nat.lt_of_le_of_lt this (by decide)
    all_goals (subst h; decide)
  have : ∀ n : Fin 128, simple (Char.ofNat n.1) = true → isWhitespace (Char.ofNat n.1) = false := by decide +kernel
  have h2 := this ⟨c.toNat, hlt⟩
  simp only [Char.ofNat_toNat] at h2
  exact h2 h
theorem ws_letter {c : Char} (h : isWhitespace c = true) : letter c = false := by
  cases hl : letter c with
  | false => rfl
  | true => rw [simple_ws (letter_simple hl)] at h; cases h
theorem letter_gt : letter '>' = false := by decide +kernel
theorem ws_eq : isWhitespace '=' = false := by decide +kernel
theorem ws_dq : isWhitespace '"' = false := by decide +kernel

/-- The first character outside of a class is where it is. -/
theorem class_split {p : Char → Bool} {k l : List Char} {x y : Char} {u v : List Char} (hk : ∀ c ∈ k, p c = true)
    (hl : ∀ c ∈ l, p c = true) (hx : p x = false) (hy : p y = false) (e : k ++ x :: u = l ++ y :: v) : k = l ∧ x = y ∧ u = v := by
  induction k generalizing l with
  | nil =>
    cases l with
    | nil => obtain ⟨rfl, rfl⟩ := List.cons.inj e; exact ⟨rfl, rfl, rfl⟩
    | cons d l =>
      rw [(List.cons.inj e).1, hl d (by simp)] at hx; cases hx
  | cons c k ih =>
    cases l with
    | nil =>
      rw [← (List.cons.inj e).1, hk c (by simp)] at hy; cases hy
    | cons d l =>
      obtain ⟨rfl, e'⟩ := List.cons.inj e
      obtain ⟨rfl, h⟩ := ih (fun z hz => hk z (by simp [hz])) (fun z hz => hl z (by simp [hz])) e'
      exact ⟨rfl, h⟩

/-- A whole attribute at the start. -/
theorem quotes_at {k v : List Char} (k1 : k ≠ []) (k2 : ∀ c ∈ k, letter c = true) (v1 : v ≠ []) (v2 : ∀ c ∈ v, simple c = true)
    (z : List Char) : quotes (k ++ '=' :: '"' :: (v ++ '"' :: z)) =
      (if k = "width".toList ∨ k = "height".toList then k ++ '=' :: v else k ++ '=' :: '"' :: (v ++ ['"'])) ++ quotes z := by
  have hl : lang quotesInTag (k ++ '=' :: '"' :: (v ++ ['"'])) := lang_quotes.2 ⟨k, v, rfl, k1, k2, v1, v2⟩
  obtain ⟨x, hx, -, -⟩ := ends_complete (u := z) hl
  have e : k ++ '=' :: '"' :: (v ++ '"' :: z) = k ++ '=' :: '"' :: (v ++ ['"']) ++ z := by simp
  rw [e]
  cases he : ends quotesInTag (k ++ '=' :: '"' :: (v ++ ['"']) ++ z) with
  | nil => rw [he] at hx; cases hx
  | cons h hh =>
    have hm : h ∈ ends quotesInTag (k ++ '=' :: '"' :: (v ++ ['"']) ++ z) := by rw [he]; simp
    obtain ⟨hs, -⟩ := ends_sound hm
    obtain ⟨ht, m1, m2, w1, w2⟩ := quotes_caps hm
    rw [ht] at hs
    have hs' : k ++ '=' :: ('"' :: (v ++ '"' :: z)) = h.cap 1 ++ '=' :: ('"' :: (h.cap 2 ++ '"' :: h.rest)) := by
      rw [← e] at hs; rw [hs]; simp
    obtain ⟨e1, -, e2⟩ := class_split k2 m2 letter_eq letter_eq hs'
    obtain ⟨e3, -, e4⟩ := class_split v2 w2 simple_dq simple_dq (List.cons.inj e2).2
    rw [quotes, replaceAll_hit solid_quotesInTag _ he, unquote, ← e1, ← e3, ← e4]
    by_cases hk : k = "width".toList ∨ k = "height".toList
    · rw [if_pos hk, if_pos (by simpa using hk)]; rfl
    · rw [if_neg hk, if_neg (by simpa using hk)]; rfl

theorem quotes_miss {c : Char} {s : List Char} (h : ends quotesInTag (c :: s) = []) : quotes (c :: s) = c :: quotes s :=
  replaceAll_miss _ h

/-- No attribute with quotes begins in a text that has none, up to a character that is not part of an attribute. -/
theorem quotes_skip {p : List Char} {d : Char} (z : List Char) (h1 : '"' ∉ p) (h2 : letter d = false) (h3 : d ≠ '=')
    (h4 : d ≠ '"' ∨ '=' ∉ p) : quotes (p ++ d :: z) = p ++ quotes (d :: z) := by
  induction p with
  | nil => rfl
  | cons c p ih =>
    have key : ∀ (k p : List Char) (y : List Char), '"' ∉ p → (d ≠ '"' ∨ '=' ∉ p) → (∀ c ∈ k, letter c = true) →
        p ++ d :: z ≠ k ++ '=' :: '"' :: y := by
      intro k
      induction k with
      | nil =>
        intro p y g1 g2 _ e
        match p, e, g1, g2 with
        | [], e, _, _ => exact h3 (List.cons.inj e).1
        | [x], e, _, g2 =>
          obtain ⟨rfl, e'⟩ := List.cons.inj e
          rcases g2 with g2 | g2
          · exact g2 (List.cons.inj e').1
          · simp at g2
        | x :: x' :: p, e, g1, _ =>
          obtain ⟨rfl, e'⟩ := List.cons.inj e
          obtain ⟨rfl, e''⟩ := List.cons.inj e'
          simp at g1
      | cons a k ihk =>
        intro p y g1 g2 hk e
        cases p with
        | nil =>
          have := hk a (by simp)
          rw [← (List.cons.inj e).1, h2] at this; cases this
        | cons x p =>
          refine ihk p y (fun h => g1 (by simp [h])) ?_ (fun c hc => hk c (by simp [hc])) (List.cons.inj e).2
          rcases g2 with g2 | g2
          · exact .inl g2
          · exact .inr fun h => g2 (by simp [h])
    have hm : ends quotesInTag (c :: (p ++ d :: z)) = [] := by
      refine ends_nil.2 ?_
      intro t u e hl
      obtain ⟨k, v, rfl, k1, k2, v1, v2⟩ := lang_quotes.1 hl
      exact key k (c :: p) (v ++ ['"'] ++ u) h1 h4 k2 (by rw [List.cons_append, e]; simp)
    rw [List.cons_append, quotes_miss hm, ih (fun h => h1 (by simp [h]))]
    · rfl
    · rcases h4 with h4 | h4
      · exact .inl h4
      · exact .inr fun h => h4 (by simp [h])

/-- The form of a match, and what becomes of it. -/
theorem quotes_hit {s : List Char} {h : Hit} {hh : List Hit} (he : ends quotesInTag s = h :: hh) :
    ∃ k v, k ≠ [] ∧ (∀ c ∈ k, letter c = true) ∧ v ≠ [] ∧ (∀ c ∈ v, simple c = true) ∧
      h.text = k ++ '=' :: '"' :: (v ++ ['"']) ∧ s = k ++ '=' :: '"' :: (v ++ '"' :: h.rest) ∧
      quotes s = (if k = "width".toList ∨ k = "height".toList then k ++ '=' :: v else k ++ '=' :: '"' :: (v ++ ['"'])) ++
        quotes h.rest := by
  have hm : h ∈ ends quotesInTag s := by rw [he]; simp
  obtain ⟨hs, -⟩ := ends_sound hm
  obtain ⟨ht, m1, m2, w1, w2⟩ := quotes_caps hm
  have e : s = h.cap 1 ++ '=' :: '"' :: (h.cap 2 ++ '"' :: h.rest) := by rw [ht] at hs; rw [hs]; simp
  refine ⟨h.cap 1, h.cap 2, m1, m2, w1, w2, ht, e, ?_⟩
  rw [← quotes_at m1 m2 w1 w2, ← e]

/-- The first character stays. -/
theorem quotes_head (s : List Char) : (quotes s).head? = s.head? := by
  induction s using cut_induct solid_quotesInTag with
  | nil => rfl
  | miss c s he ih => rw [quotes_miss he]; rfl
  | hit s h hh he ih =>
    obtain ⟨k, v, k1, k2, v1, v2, ht, e, eq⟩ := quotes_hit he
    rw [eq, e]
    cases k with
    | nil => exact absurd rfl k1
    | cons c k => split <;> rfl

/-- The end of a value in the result is one in the source. -/
theorem value_back {s v u : List Char} (hv : ∀ c ∈ v, simple c = true) (e : quotes s = v ++ '"' :: u) : ∃ u', s = v ++ '"' :: u' := by
  induction s using cut_induct solid_quotesInTag generalizing v u with
  | nil => rw [quotes_nil] at e; cases v <;> cases e
  | miss c s he ih =>
    rw [quotes_miss he] at e
    cases v with
    | nil => obtain ⟨rfl, -⟩ := List.cons.inj e; exact ⟨s, rfl⟩
    | cons x v =>
      obtain ⟨rfl, e'⟩ := List.cons.inj e
      obtain ⟨u', rfl⟩ := ih (fun z hz => hv z (by simp [hz])) e'
      exact ⟨u', rfl⟩
  | hit s h hh he ih =>
    exfalso
    obtain ⟨k, w, k1, k2, w1, w2, ht, es, eq⟩ := quotes_hit he
    rw [eq] at e
    have : ∃ y, k ++ '=' :: y = v ++ '"' :: u := by
      by_cases hk : k = "width".toList ∨ k = "height".toList
      · rw [if_pos hk] at e; exact ⟨w ++ quotes h.rest, by rw [← e]; simp⟩
      · rw [if_neg hk] at e; exact ⟨'"' :: (w ++ ['"']) ++ quotes h.rest, by rw [← e]; simp⟩
    obtain ⟨y, hy⟩ := this
    exact absurd (class_split (fun c hc => letter_simple (k2 c hc)) hv simple_eq simple_dq hy).2.1 (by decide)

/-- The same for an attribute. -/
theorem attr_back {y : List Char} (hy : ∀ s u, quotes s = y ++ u → ∃ u', s = y ++ u') {s l u : List Char}
    (hl : ∀ c ∈ l, letter c = true) (e : quotes s = l ++ '=' :: '"' :: (y ++ u)) : ∃ u', s = l ++ '=' :: '"' :: (y ++ u') := by
  induction s using cut_induct solid_quotesInTag generalizing l u with
  | nil => rw [quotes_nil] at e; cases l <;> cases e
  | miss c s he ih =>
    rw [quotes_miss he] at e
    cases l with
    | nil =>
      obtain ⟨rfl, e'⟩ := List.cons.inj e
      obtain ⟨u', h⟩ := value_back (v := []) (by simp) e'
      subst h
      have hm : ends quotesInTag ('"' :: u') = [] := by
        refine ends_nil.2 ?_
        intro t u e hl
        have := lang_quotes_head e hl
        rw [letter_dq] at this; cases this
      rw [List.nil_append, quotes_miss hm] at e'
      obtain ⟨u'', rfl⟩ := hy _ _ (List.cons.inj e').2
      exact ⟨u'', rfl⟩
    | cons x l =>
      obtain ⟨rfl, e'⟩ := List.cons.inj e
      obtain ⟨u', rfl⟩ := ih (fun z hz => hl z (by simp [hz])) e'
      exact ⟨u', rfl⟩
  | hit s h hh he ih =>
    obtain ⟨k, w, k1, k2, w1, w2, ht, es, eq⟩ := quotes_hit he
    rw [eq] at e
    by_cases hk : k = "width".toList ∨ k = "height".toList
    · exfalso
      rw [if_pos hk, List.append_assoc, List.cons_append] at e
      obtain ⟨-, -, e⟩ := class_split k2 hl letter_eq letter_eq e
      cases w with
      | nil => exact w1 rfl
      | cons x w =>
        have := w2 x (by simp)
        rw [(List.cons.inj e).1, simple_dq] at this; cases this
    · rw [if_neg hk] at e
      have e : k ++ '=' :: ('"' :: (w ++ '"' :: quotes h.rest)) = l ++ '=' :: ('"' :: (y ++ u)) := by
        rw [← e]; simp
      obtain ⟨rfl, -, e⟩ := class_split k2 hl letter_eq letter_eq e
      have e := (List.cons.inj e).2
      have hm : ends quotesInTag ('"' :: h.rest) = [] := by
        refine ends_nil.2 ?_
        intro t u e hl
        have := lang_quotes_head e hl
        rw [letter_dq] at this; cases this
      have hq : quotes (w ++ '"' :: h.rest) = w ++ '"' :: quotes h.rest := by
        rw [quotes_skip h.rest (fun hc => by have := w2 _ hc; rw [simple_dq] at this; cases this) letter_dq (by decide)
          (.inr fun hc => by have := w2 _ hc; rw [simple_eq] at this; cases this), quotes_miss hm]
      obtain ⟨u', hu⟩ := hy _ _ (hq.trans e)
      exact ⟨u', by rw [es, hu]⟩

/-- Every value that could lose its quotes is followed by white space, a slash or the end of the tag. -/
def Sep (s : List Char) : Prop := ∀ a t u, s = a ++ t ++ u → lang quotesInTag t → Stops u

theorem sep_suffix {a s : List Char} (h : Sep (a ++ s)) : Sep s := by
  intro b t u e hl
  exact h (a ++ b) t u (by rw [e]; simp) hl

theorem quotes_again {s : List Char} (h : Sep s) : quotes (quotes s) = quotes s := by
  induction s using cut_induct solid_quotesInTag with
  | nil => rfl
  | miss c s he ih =>
    rw [quotes_miss he]
    have hm : ends quotesInTag (c :: quotes s) = [] := by
      refine ends_nil.2 ?_
      intro t u e hl
      obtain ⟨k, v, rfl, k1, k2, v1, v2⟩ := lang_quotes.1 hl
      cases k with
      | nil => exact k1 rfl
      | cons x k =>
        have e : c :: quotes s = x :: (k ++ '=' :: '"' :: ((v ++ ['"']) ++ u)) := by rw [e]; simp
        obtain ⟨rfl, e'⟩ := List.cons.inj e
        obtain ⟨u', rfl⟩ := attr_back (y := v ++ ['"']) (fun s u e => by
          rw [List.append_assoc] at e
          obtain ⟨u', h⟩ := value_back v2 e
          exact ⟨u', by rw [h]; simp⟩) (fun z hz => k2 z (by simp [hz])) e'
        exact ends_nil.1 he (c :: k ++ '=' :: '"' :: (v ++ ['"'])) u' (by simp) hl
    rw [quotes_miss hm, ih (sep_suffix (a := [c]) h)]
  | hit s h' hh he ih =>
    obtain ⟨k, w, k1, k2, w1, w2, ht, es, eq⟩ := quotes_hit he
    have hm : h' ∈ ends quotesInTag s := by rw [he]; simp
    obtain ⟨hs, hl⟩ := ends_sound hm
    have hst := h [] h'.text h'.rest (by rw [List.nil_append]; exact hs) hl
    have ih := ih (sep_suffix (a := h'.text) (by rw [← hs]; exact h))
    rw [eq]
    by_cases hk : k = "width".toList ∨ k = "height".toList
    · rw [if_pos hk]
      obtain ⟨d, v, hd, hd2⟩ := hst
      have hh := quotes_head h'.rest
      rw [hd] at hh
      have : ∃ z, quotes h'.rest = d :: z := by
        rw [hd]
        cases hz : quotes (d :: v) with
        | nil => rw [hz] at hh; cases hh
        | cons x z => rw [hz] at hh; exact ⟨z, by rw [Option.some.inj hh]⟩
      obtain ⟨z, hz⟩ := this
      rw [hz] at ih ⊢
      rw [quotes_skip, ih]
      · intro hc
        simp only [List.mem_append, List.mem_cons] at hc
        rcases hc with hc | hc | hc
        · have := k2 _ hc; rw [letter_dq] at this; cases this
        · exact absurd hc (by decide)
        · have := w2 _ hc; rw [simple_dq] at this; cases this
      · rcases hd2 with hd2 | rfl | rfl
        · exact ws_letter hd2
        · exact letter_gt
        · decide +kernel
      · rintro rfl
        rcases hd2 with hd2 | hd2
        · rw [ws_eq] at hd2; cases hd2
        · exact absurd hd2 (by decide)
      · left; rintro rfl
        rcases hd2 with hd2 | hd2
        · rw [ws_dq] at hd2; cases hd2
        · exact absurd hd2 (by decide)
    · rw [if_neg hk]
      have e : k ++ '=' :: '"' :: (w ++ ['"']) ++ quotes h'.rest = k ++ '=' :: '"' :: (w ++ '"' :: quotes h'.rest) := by simp
      rw [e, quotes_at k1 k2 w1 w2, if_neg hk, ih]; simp

end Verif.Html
