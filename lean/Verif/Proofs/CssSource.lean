import Verif.Proofs.CssSame
/-!
# A style sheet as the text of its marks

`Src xs a`: the text `a` consists of the marks `xs` (last one first), each with a text for the gap before it.
-/
set_option linter.unusedSimpArgs false

namespace Verif.Spec.CssSyntax
open Spec.Css

/-! ## Comments -/

def NoEnd (b : List Char) : Prop := ∀ s, afterComment (b ++ '*' :: '/' :: s) = s

theorem afterComment_ne {c : Char} (h : c ≠ '*') (s : List Char) : afterComment (c :: s) = afterComment s := by
  rw [afterComment.eq_def]
  split
  · rename_i he; exact absurd (List.cons.inj he).1 h
  · rename_i he; cases he; rfl
  · rename_i he; cases he

theorem afterComment_star {s : List Char} (h : s.head? ≠ some '/') : afterComment ('*' :: s) = afterComment s := by
  rw [afterComment.eq_def]
  split
  · rename_i he; cases he; simp at h
  · rename_i he; cases he; rfl
  · rename_i he; cases he

theorem NoEnd.tail {c : Char} {b : List Char} (h : NoEnd (c :: b)) : NoEnd b := by
  intro s
  by_cases hc : c = '*'
  · subst hc
    by_cases hb : (b ++ '*' :: '/' :: s).head? = some '/'
    · cases b with
      | nil => simp at hb
      | cons d b =>
        simp only [List.cons_append, List.head?_cons, Option.some.injEq] at hb
        subst hb
        have := h []
        have e : afterComment ('*' :: '/' :: b ++ ['*', '/']) = b ++ ['*', '/'] := rfl
        rw [e] at this
        simp at this
    · have := h s
      rwa [List.cons_append, afterComment_star hb] at this
  · have := h s
    rwa [List.cons_append, afterComment_ne hc] at this

theorem NoEnd.cons {c : Char} {b : List Char} (hc : c ≠ '*') (h : NoEnd b) : NoEnd (c :: b) := by
  intro s
  rw [List.cons_append, afterComment_ne hc]
  exact h s

theorem comment_items (s : List Char) : ∀ acc : List Char,
    (.openComment ∈ itemsFrom (.comment acc) s ∨
      ∃ b r, s = b ++ '*' :: '/' :: r ∧ itemsFrom (.comment acc) s = commentItem (acc ++ b) :: items r ∧ NoEnd b) ∧
    (.openComment ∈ itemsFrom (.commentStar acc) s ∨
      ∃ b r, '*' :: s = b ++ '*' :: '/' :: r ∧ itemsFrom (.commentStar acc) s = commentItem (acc ++ b) :: items r ∧ NoEnd b) := by
  induction s with
  | nil => intro acc; exact ⟨.inl (by simp [itemsFrom, finish]), .inl (by simp [itemsFrom, finish])⟩
  | cons c s ih =>
    intro acc
    constructor
    · by_cases hc : c = '*'
      · subst hc
        have e : itemsFrom (.comment acc) ('*' :: s) = itemsFrom (.commentStar acc) s := by simp [itemsFrom, step]
        rw [e]
        exact (ih acc).2
      · have e : itemsFrom (.comment acc) (c :: s) = itemsFrom (.comment (acc ++ [c])) s := by simp [itemsFrom, step, hc]
        rw [e]
        rcases (ih (acc ++ [c])).1 with h | ⟨b, r, rfl, h2, h3⟩
        · exact .inl h
        · exact .inr ⟨c :: b, r, rfl, by rw [h2]; simp, h3.cons hc⟩
    · by_cases hs : c = '/'
      · subst hs
        refine .inr ⟨[], s, rfl, ?_, fun _ => rfl⟩
        simp [itemsFrom, step, items]
      · by_cases hc : c = '*'
        · subst hc
          have e : itemsFrom (.commentStar acc) ('*' :: s) = itemsFrom (.commentStar (acc ++ ['*'])) s := by simp [itemsFrom, step]
          rw [e]
          rcases (ih (acc ++ ['*'])).2 with h | ⟨b, r, h1, h2, h3⟩
          · exact .inl h
          · refine .inr ⟨'*' :: b, r, by rw [h1]; rfl, by rw [h2]; simp, ?_⟩
            intro t
            rw [List.cons_append, afterComment_star]
            · exact h3 t
            · cases b with
              | nil => simp
              | cons d b => cases h1; simp
        · have e : itemsFrom (.commentStar acc) (c :: s) = itemsFrom (.comment (acc ++ ['*', c])) s := by simp [itemsFrom, step, hs, hc]
          rw [e]
          rcases (ih (acc ++ ['*', c])).1 with h | ⟨b, r, rfl, h2, h3⟩
          · exact .inl h
          · refine .inr ⟨'*' :: c :: b, r, rfl, by rw [h2]; simp, ?_⟩
            intro t
            rw [List.cons_append, afterComment_star (by simpa using hs)]
            exact h3.cons hc t

/-! ## Strings -/

/-- The text between the quotes. -/
inductive Body (q : Char) : List Char → Prop
  | nil : Body q []
  | chr {c : Char} {b : List Char} : c ≠ q → c ≠ '\\' → Body q b → Body q (c :: b)
  | esc {c : Char} {b : List Char} : Body q b → Body q ('\\' :: c :: b)

theorem string_items (q : Char) (k : Nat) : ∀ (s acc : List Char), s.length ≤ k →
    .openStr ∈ itemsFrom (.str q acc) s ∨
      ∃ b r, s = b ++ q :: r ∧ itemsFrom (.str q acc) s = .str (acc ++ b ++ [q]) :: items r ∧ (q ≠ '\\' → Body q b) := by
  induction k with
  | zero =>
    intro s acc h
    have : s = [] := List.eq_nil_of_length_eq_zero (by omega)
    subst this
    exact .inl (by simp [itemsFrom, finish])
  | succ k ih =>
    intro s acc h
    cases s with
    | nil => exact .inl (by simp [itemsFrom, finish])
    | cons c s =>
      simp only [List.length_cons] at h
      by_cases hb : c = '\\'
      · subst hb
        cases s with
        | nil => exact .inl (by simp [itemsFrom, step, finish])
        | cons d s =>
          simp only [List.length_cons] at h
          have e : itemsFrom (.str q acc) ('\\' :: d :: s) = itemsFrom (.str q (acc ++ ['\\', d])) s := by simp [itemsFrom, step]
          rw [e]
          rcases ih s (acc ++ ['\\', d]) (by omega) with h | ⟨b, r, rfl, h2, h3⟩
          · exact .inl h
          · exact .inr ⟨'\\' :: d :: b, r, rfl, by rw [h2]; simp, fun hq => .esc (h3 hq)⟩
      · by_cases hq : c = q
        · subst hq
          refine .inr ⟨[], s, rfl, ?_, fun _ => .nil⟩
          simp [itemsFrom, step, hb, items]
        · have e : itemsFrom (.str q acc) (c :: s) = itemsFrom (.str q (acc ++ [c])) s := by simp [itemsFrom, step, hb, hq]
          rw [e]
          rcases ih s (acc ++ [c]) (by omega) with h | ⟨b, r, rfl, h2, h3⟩
          · exact .inl h
          · exact .inr ⟨c :: b, r, rfl, by rw [h2]; simp, fun hq' => .chr hq hb (h3 hq')⟩

theorem Body.tail {q c : Char} {b : List Char} (h : Body q (c :: b)) (hc : c ≠ '\\') : Body q b := by
  generalize e : c :: b = s at h
  cases h with
  | nil => cases e
  | chr _ _ h => cases e; exact h
  | esc h => cases e; exact absurd rfl hc

theorem lineBreak_cons {c : Char} (h : c ≠ '\\') (b : List Char) : lineBreak (c :: b) = (newline c || lineBreak b) := by
  rw [lineBreak.eq_def]
  split
  · rename_i he; exact absurd (List.cons.inj he).1 h
  · rename_i he; cases he; rfl
  · rename_i he; cases he

theorem hex_ne {c : Char} (h : hex c = true) : c ≠ '\\' := by rintro rfl; exact absurd h (by decide)

theorem hexDigits_body {q : Char} (hq : hex q = false) (n : Nat) : ∀ (b : List Char), Body q b → lineBreak (b ++ [q]) = false →
    (∀ r, hexDigits n (b ++ q :: r) = ((hexDigits n b).1, (hexDigits n b).2 ++ q :: r)) ∧ Body q (hexDigits n b).2 ∧
      lineBreak ((hexDigits n b).2 ++ [q]) = false ∧ (hexDigits n b).2.length ≤ b.length := by
  induction n with
  | zero => intro b h hl; refine ⟨fun r => ?_, ?_, ?_, ?_⟩ <;> cases b <;> simp [hexDigits, h] <;> exact hl
  | succ n ih =>
    intro b h hl
    cases b with
    | nil => refine ⟨fun r => ?_, .nil, hl, ?_⟩ <;> simp [hexDigits, hq]
    | cons c b =>
      cases hc : hex c with
      | false =>
        have e : hexDigits (n + 1) (c :: b) = ([], c :: b) := by simp [hexDigits, hc]
        rw [e]
        exact ⟨fun r => by simp [hexDigits, hc], h, hl, Nat.le_refl _⟩
      | true =>
        have hne := hex_ne hc
        rw [List.cons_append, lineBreak_cons hne, Bool.or_eq_false_iff] at hl
        obtain ⟨h1, h2, h3, h4⟩ := ih b (h.tail hne) hl.2
        have e : ∀ l, hexDigits (n + 1) (c :: l) = (c :: (hexDigits n l).1, (hexDigits n l).2) := by intro l; simp [hexDigits, hc]
        rw [e]
        refine ⟨fun r => ?_, h2, h3, by simp only [List.length_cons]; omega⟩
        rw [List.cons_append, e, h1]

theorem quote_hex {q : Char} (h : quote q = true) : hex q = false ∧ newline q = false ∧ q ≠ '\\' := by
  simp only [quote, Bool.or_eq_true, beq_iff_eq] at h
  rcases h with rfl | rfl <;> decide

theorem body_string {q : Char} (hq : quote q = true) (k : Nat) : ∀ b : List Char, b.length ≤ k → Body q b → lineBreak (b ++ [q]) = false →
    ∃ v, ∀ n r, (b ++ q :: r).length ≤ n → stringF q n (b ++ q :: r) = (some v, r) := by
  have hq' := quote_hex hq
  have done : ∃ v, ∀ n r, ([] ++ q :: r : List Char).length ≤ n → stringF q n ([] ++ q :: r) = (some v, r) := by
    refine ⟨[], fun n r hn => ?_⟩
    simp only [List.nil_append, List.length_cons] at hn ⊢
    obtain ⟨n, rfl⟩ : ∃ k, n = k + 1 := ⟨n - 1, by omega⟩
    simp [stringF]
  induction k with
  | zero =>
    intro b hb _ _
    have : b = [] := List.eq_nil_of_length_eq_zero (by omega)
    subst this
    exact done
  | succ k ih =>
    intro b hb h hl
    cases h with
    | nil => exact done
    | @chr c b h1 h2 h3 =>
      simp only [List.length_cons] at hb
      rw [List.cons_append, lineBreak_cons h2, Bool.or_eq_false_iff] at hl
      obtain ⟨v, hv⟩ := ih b (by omega) h3 hl.2
      refine ⟨c :: v, fun n r hn => ?_⟩
      simp only [List.cons_append, List.length_cons] at hn ⊢
      obtain ⟨n, rfl⟩ : ∃ k, n = k + 1 := ⟨n - 1, by omega⟩
      simp [stringF, h1, h2, hl.1, hv n r (by omega)]
    | @esc c b h3 =>
      simp only [List.length_cons] at hb
      have hl' : lineBreak (b ++ [q]) = false := by simpa [lineBreak] using hl
      have step : ∀ n r, stringF q (n + 1) ('\\' :: c :: b ++ q :: r) =
          if newline c then stringF q n (b ++ q :: r)
          else ((stringF q n (escape (c :: b ++ q :: r)).2).1.map ((escape (c :: b ++ q :: r)).1 :: ·),
            (stringF q n (escape (c :: b ++ q :: r)).2).2) := by
        intro n r
        have hne : '\\' ≠ q := fun h => hq'.2.2 h.symm
        simp only [List.cons_append, stringF]
        rw [if_neg hne, if_neg (by decide)]
        simp
      cases hc : newline c with
      | true =>
        obtain ⟨v, hv⟩ := ih b (by omega) h3 hl'
        refine ⟨v, fun n r hn => ?_⟩
        simp only [List.cons_append, List.length_cons] at hn
        obtain ⟨n, rfl⟩ : ∃ k, n = k + 1 := ⟨n - 1, by omega⟩
        rw [step, if_pos hc]
        exact hv n r (by omega)
      | false =>
        have key : ∃ d b', b'.length ≤ b.length ∧ Body q b' ∧ lineBreak (b' ++ [q]) = false ∧
            ∀ r, escape (c :: b ++ q :: r) = (d, b' ++ q :: r) := by
          cases hx : hex c with
          | false => exact ⟨c, b, Nat.le_refl _, h3, hl', fun r => by simp [escape, hx]⟩
          | true =>
            obtain ⟨e1, e2, e3, e4⟩ := hexDigits_body hq'.1 5 b h3 hl'
            have e : ∀ l, hexDigits 6 (c :: l) = (c :: (hexDigits 5 l).1, (hexDigits 5 l).2) := by intro l; simp [hexDigits, hx]
            have e' : ∀ r, escape (c :: b ++ q :: r) =
                (codePoint (c :: (hexDigits 5 b).1), dropWhite1 ((hexDigits 5 b).2 ++ q :: r)) := by
              intro r
              simp only [List.cons_append, escape, hx, ↓reduceIte, e, e1]
            generalize (hexDigits 5 b).1 = u at *
            generalize (hexDigits 5 b).2 = w at *
            cases w with
            | nil =>
              refine ⟨codePoint (c :: u), [], by simp, .nil, e3, fun r => ?_⟩
              rw [e']
              simp [dropWhite1, quote_white hq]
            | cons d w =>
              cases hd : white d with
              | false =>
                refine ⟨codePoint (c :: u), d :: w, e4, e2, e3, fun r => ?_⟩
                rw [e']
                simp [dropWhite1, hd]
              | true =>
                have hne : d ≠ '\\' := by rintro rfl; exact absurd hd (by decide)
                rw [List.cons_append, lineBreak_cons hne, Bool.or_eq_false_iff] at e3
                refine ⟨codePoint (c :: u), w, by simp at e4; omega, e2.tail hne, e3.2, fun r => ?_⟩
                rw [e']
                simp [dropWhite1, hd]
        obtain ⟨d, b', hb', hB, hL, he⟩ := key
        obtain ⟨v, hv⟩ := ih b' (by omega) hB hL
        refine ⟨d :: v, fun n r hn => ?_⟩
        simp only [List.cons_append, List.length_cons, List.length_append] at hn
        obtain ⟨n, rfl⟩ : ∃ k, n = k + 1 := ⟨n - 1, by omega⟩
        rw [step, hc, he, hv n r (by simp only [List.length_append, List.length_cons]; omega)]
        rfl

theorem strText_of {q : Char} {b : List Char} (hq : quote q = true) (hb : Body q b) (hl : lineBreak ([q] ++ b ++ [q]) = false) :
    StrText ([q] ++ b ++ [q]) := by
  have hl' : lineBreak (b ++ [q]) = false := by
    simp only [List.cons_append, List.nil_append] at hl
    rw [lineBreak_cons (quote_hex hq).2.2, Bool.or_eq_false_iff] at hl
    exact hl.2
  obtain ⟨v, hv⟩ := body_string hq _ b (Nat.le_refl _) hb hl'
  refine ⟨q, b ++ [q], v, hq, by simp, fun n r hn => ?_⟩
  have := hv n r (by simpa using hn)
  simpa using this

/-! ## Texts of marks -/

/-- The text of a gap. -/
def GapText (g : Gap) (b : List Char) : Prop :=
  Skip b ∧ (g = .none ↔ b = [])

/-- The text of an item. -/
inductive ItemSrc : Item → List Char → Prop
  | chr {c : Char} : isBlank c = false → quote c = false → c ≠ '\\' → ItemSrc (.chr c) [c]
  | back : ItemSrc (.chr '\\') ['\\']
  | lit {c : Char} : hex c = false → newline c = false → ItemSrc (.lit c) [c]
  | str {t : List Char} : StrText t → ItemSrc (.str t) t
  | license {b : List Char} {c : Char} : NoEnd (c :: b) → ItemSrc (.license b) ('/' :: '*' :: c :: b ++ ['*', '/'])

/-- What the items before and after each other cannot be. -/
def Adj (xs : List Mark) (g : Gap) (x : Item) : Prop :=
  (g = .none → x = .chr '*' → lastIs '/' xs = false) ∧ ((lastIs '\\' xs = true) ↔ ∃ c, x = .lit c) ∧ (lastIs '\\' xs = true → g = .none)

inductive Src : List Mark → List Char → Prop
  | nil : Src [] []
  | snoc {xs a g b x c} : Src xs a → GapText g b → ItemSrc x c → Adj xs g x → Src ((g, x) :: xs) (a ++ b ++ c)

theorem gapText_none : GapText .none [] := ⟨.nil, by simp⟩

theorem GapText.blank {g : Gap} {b : List Char} (h : GapText g b) {c : Char} (hc : isBlank c = true) :
    GapText (if g = .comment then .comment else .blank) (b ++ [c]) := by
  refine ⟨h.1.append (.blank hc .nil), ?_⟩
  split <;> simp

theorem GapText.comment {g : Gap} {b : List Char} (h : GapText g b) {t : List Char} (ht : NoEnd t) :
    GapText .comment (b ++ ('/' :: '*' :: t ++ ['*', '/'])) := by
  refine ⟨h.1.append ?_, by simp⟩
  exact Skip.comment ht .nil

theorem items_code (c : Char) (s : List Char) : items (c :: s) =
    (stepCode c).1 ++ itemsFrom (stepCode c).2 s := rfl

theorem tame_tail {i : Item} {is : List Item} (h : tame (i :: is) = true) : tame is = true := by
  rw [tame.eq_def] at h
  split at h
  · rename_i he; cases he
  · cases h
  · rename_i he; cases he; simp only [Bool.and_eq_true] at h; exact h.2
  · rename_i he; cases he; simp only [Bool.and_eq_true] at h; exact h.2
  · rename_i he; cases he; exact h

theorem src_marks (k : Nat) : ∀ (s : List Char) (m : Marks) (a b : List Char), s.length ≤ k → Src m.acc a → GapText m.gap b →
    .openStr ∉ items s → .openComment ∉ items s → tame (items s) = true → lastIs '\\' m.acc = false →
    (m.gap = .none → lastIs '/' m.acc = true → s.head? ≠ some '*') →
    ∃ a' b', a ++ b ++ s = a' ++ b' ∧ Src ((items s).foldl mark m).acc a' ∧ GapText ((items s).foldl mark m).gap b' ∧
      lastIs '\\' ((items s).foldl mark m).acc = false := by
  induction k with
  | zero =>
    intro s m a b hs h1 h2 _ _ _ h3 _
    have : s = [] := List.eq_nil_of_length_eq_zero (by omega)
    subst this
    exact ⟨a, b, by simp, h1, h2, h3⟩
  | succ k ih =>
    intro s m a b hs h1 h2 ho hc ht h3 h4
    cases s with
    | nil => exact ⟨a, b, by simp, h1, h2, h3⟩
    | cons c s =>
      simp only [List.length_cons] at hs
      -- one ordinary item
      have one : ∀ (x : Item) (t r : List Char), items (c :: s) = x :: items r → c :: s = t ++ r → r.length ≤ k → ItemSrc x t →
          Adj m.acc m.gap x → x ≠ .chr '\\' → (∀ m', mark m x = m' → m' = ⟨(m.gap, x) :: m.acc, .none⟩) →
          (x = .chr '/' → r.head? ≠ some '*') → ∃ a' b', a ++ b ++ (c :: s) = a' ++ b' ∧ Src ((items (c :: s)).foldl mark m).acc a' ∧
            GapText ((items (c :: s)).foldl mark m).gap b' ∧ lastIs '\\' ((items (c :: s)).foldl mark m).acc = false := by
        intro x t r e1 e2 hr hx hadj hx' hm hsl
        rw [e1] at ho hc ht ⊢
        rw [List.foldl_cons, hm _ rfl, e2]
        have := ih r ⟨(m.gap, x) :: m.acc, .none⟩ (a ++ b ++ t) [] hr (.snoc h1 h2 hx hadj) gapText_none
          (fun h => ho (by simp [h])) (fun h => hc (by simp [h])) (tame_tail ht)
          (by simp only [lastIs]; simp [hx']) (fun _ h => hsl (by simpa [lastIs] using h))
        simpa using this
      by_cases hb : c = '\\'
      · subst hb
        cases s with
        | nil => exact absurd ht (by decide)
        | cons d s =>
          have e : items ('\\' :: d :: s) = .chr '\\' :: .lit d :: items s := rfl
          rw [e] at ho hc ht ⊢
          have ht1 := tame_tail ht
          have hd : hex d = false ∧ newline d = false := by
            rw [tame.eq_def] at ht1
            simp only [Bool.and_eq_true, Bool.not_eq_true'] at ht1
            exact ht1.1
          rw [List.foldl_cons, List.foldl_cons]
          have hs1 : Src ((m.gap, .chr '\\') :: m.acc) (a ++ b ++ ['\\']) :=
            .snoc h1 h2 .back ⟨(by intro _ h; cases h), by simp [h3], by simp [h3]⟩
          have hs2 : Src ((.none, .lit d) :: (m.gap, .chr '\\') :: m.acc) (a ++ b ++ ['\\'] ++ [] ++ [d]) :=
            .snoc hs1 gapText_none (.lit hd.1 hd.2) ⟨(by intro _ h; cases h), by simp [lastIs], fun _ => rfl⟩
          have := ih s ⟨(.none, .lit d) :: (m.gap, .chr '\\') :: m.acc, .none⟩ _ [] (by simp at hs; omega) hs2 gapText_none
            (fun h => ho (by simp [h])) (fun h => hc (by simp [h])) (tame_tail ht1) rfl (by intro _ h; cases h)
          simpa [mark] using this
      · by_cases hq : quote c = true
        · have hq' : c = '"' ∨ c = '\'' := by simpa [quote] using hq
          have e : items (c :: s) = itemsFrom (.str c [c]) s := by
            rw [items_code]; simp [stepCode, hb, hq']
          rcases string_items c s.length s [c] (Nat.le_refl _) with h | ⟨b', r, rfl, e2, hB⟩
          · rw [e] at ho; exact absurd h ho
          · rw [e2] at e
            refine one (.str ([c] ++ b' ++ [c])) ([c] ++ b' ++ [c]) r e (by simp) (by simp at hs; omega) ?_ ?_ (by simp) ?_ (by simp)
            · refine .str (strText_of hq (hB hb) ?_)
              rw [e, tame.eq_def] at ht
              simp only [Bool.and_eq_true, Bool.not_eq_true'] at ht
              exact ht.1
            · exact ⟨(by intro _ h; cases h), by simp [h3], by simp [h3]⟩
            · rintro _ rfl; rfl
        · have hq' : ¬ (c = '"' ∨ c = '\'') := by simpa [quote] using hq
          by_cases hsl : c = '/'
          · subst hsl
            by_cases hst : s.head? = some '*'
            · cases s with
              | nil => cases hst
              | cons d s =>
                simp only [List.head?_cons, Option.some.injEq] at hst
                subst hst
                have e : items ('/' :: '*' :: s) = itemsFrom (.comment []) s := by
                  rw [items_code]; simp [stepCode, itemsFrom, step]
                rcases (comment_items s []).1 with h | ⟨t, r, rfl, e2, hN⟩
                · rw [e] at hc; exact absurd h hc
                · rw [e2] at e
                  simp only [List.nil_append] at e
                  have plain : (∀ x, commentItem t = x → ∀ m' : Marks, mark m' x = { m' with gap := .comment }) →
                      ∃ a' b', a ++ b ++ ('/' :: '*' :: (t ++ '*' :: '/' :: r)) = a' ++ b' ∧
                        Src ((items ('/' :: '*' :: (t ++ '*' :: '/' :: r))).foldl mark m).acc a' ∧
                        GapText ((items ('/' :: '*' :: (t ++ '*' :: '/' :: r))).foldl mark m).gap b' ∧
                        lastIs '\\' ((items ('/' :: '*' :: (t ++ '*' :: '/' :: r))).foldl mark m).acc = false := by
                    intro hm
                    rw [e] at ho hc ht ⊢
                    rw [List.foldl_cons, hm _ rfl]
                    have := ih r { m with gap := .comment } a (b ++ ('/' :: '*' :: t ++ ['*', '/'])) (by simp at hs; omega) h1
                      (h2.comment hN) (fun h => ho (by simp [h])) (fun h => hc (by simp [h])) (tame_tail ht) h3
                      (by intro h; cases h)
                    simpa using this
                  cases t with
                  | nil => exact plain (by rintro _ rfl m'; rfl)
                  | cons d t =>
                    by_cases hd : d = '!' ∨ d = '*'
                    · have ec : commentItem (d :: t) = .license t := by simp [commentItem, hd]
                      rw [ec] at e
                      refine one (.license t) ('/' :: '*' :: d :: t ++ ['*', '/']) r e (by simp) (by simp at hs; omega) (.license hN) ?_
                        (by simp) ?_ (by simp)
                      · exact ⟨(by intro _ h; cases h), by simp [h3], by simp [h3]⟩
                      · rintro _ rfl; rfl
                    · have ec : commentItem (d :: t) = .comment (d :: t) := by simp [commentItem, hd]
                      exact plain (by rw [ec]; rintro _ rfl m'; rfl)
            · have e : items ('/' :: s) = .chr '/' :: items s := by
                rw [items_code]
                simp only [stepCode]
                rw [if_neg (by decide), if_neg (by decide), if_pos trivial]
                cases s with
                | nil => rfl
                | cons d s =>
                  have hd : d ≠ '*' := by simpa using hst
                  simp [itemsFrom, step, hd, items]
              refine one (.chr '/') ['/'] s e rfl (by omega) (.chr (by decide) (by decide) (by decide)) ?_ (by decide) ?_ (fun _ => hst)
              · exact ⟨(by intro _ h; cases h), by simp [h3], by simp [h3]⟩
              · rintro _ rfl; rfl
          · by_cases hbl : isBlank c = true
            · have e : items (c :: s) = .blank :: items s := by
                rw [items_code]; simp [stepCode, hb, hq', hsl, hbl, items]
              rw [e] at ho hc ht ⊢
              rw [List.foldl_cons]
              have := ih s (mark m .blank) a (b ++ [c]) (by omega) h1 (h2.blank hbl)
                (fun h => ho (by simp [h])) (fun h => hc (by simp [h])) (tame_tail ht) h3
                (by intro h; simp only [mark] at h; split at h <;> cases h)
              simpa using this
            · have e : items (c :: s) = .chr c :: items s := by
                rw [items_code]; simp [stepCode, hb, hq', hsl, hbl, items]
              refine one (.chr c) [c] s e rfl (by omega) (.chr (by simpa using hbl) (by simpa using hq) hb) ?_ (by simpa using hb) ?_
                (fun h => absurd (Item.chr.inj h) hsl)
              · refine ⟨?_, by simp [h3], by simp [h3]⟩
                intro hg hx
                cases hx
                cases hl : lastIs '/' m.acc with
                | false => rfl
                | true => exact absurd rfl (h4 hg hl)
              · rintro _ rfl; rfl

end Verif.Spec.CssSyntax
