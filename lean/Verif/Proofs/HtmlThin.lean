import Verif.Proofs.HtmlQuotes
/-!
# Tags with single white space
-/
set_option linter.unusedSimpArgs false
namespace Verif.Html
open Verif.Spec.Html

/-! ## White space before the end -/

/-- `"\s+>` or `'\s+>`. -/
def shut (q : Char) (s : List Char) : List Char := replaceAll (spacesBeforeClose q) (fun _ => [q, '>']) s

/-- White space after a last quote. -/
def Open (q : Char) (x : List Char) : Prop := ∃ a w, x = a ++ q :: w ∧ w ≠ [] ∧ ∀ c ∈ w, isWhitespace c = true

theorem shut_open {q : Char} (hq : isWhitespace q = false) (hg : q ≠ '>') {a w : List Char} (ha : '>' ∉ a) (h1 : w ≠ [])
    (h2 : ∀ c ∈ w, isWhitespace c = true) : shut q (a ++ q :: w ++ ['>']) = a ++ [q] ++ ['>'] := by
  have hw : '>' ∉ w := fun hc => by have := h2 _ hc; rw [ws_gt] at this; cases this
  induction a with
  | nil =>
    have hl : lang (spacesBeforeClose q) (q :: (w ++ ['>'])) := lang_spacesBeforeClose.2 ⟨w, rfl, h1, h2⟩
    obtain ⟨x, hx, -, -⟩ := ends_complete (u := []) hl
    cases he : ends (spacesBeforeClose q) (q :: (w ++ ['>']) ++ []) with
    | nil => rw [he] at hx; cases hx
    | cons k kk =>
      obtain ⟨e, hl'⟩ := ends_sound (r := spacesBeforeClose q) (h := k) (by rw [he]; simp)
      obtain ⟨w', e2, g1, g2⟩ := lang_spacesBeforeClose.1 hl'
      rw [List.append_nil] at he e
      have hw' : '>' ∉ w' := fun hc => by have := g2 _ hc; rw [ws_gt] at this; cases this
      rw [e2] at e
      have e3 : w ++ '>' :: [] = w' ++ '>' :: k.rest := by have := (List.cons.inj e).2; rw [this]; simp
      have e4 := (notGt_unique hw hw' e3).2
      show shut q (q :: (w ++ ['>'])) = _
      rw [shut, replaceAll_hit (solid_spacesBeforeClose q) _ he, ← e4, replaceAll_nil]; rfl
  | cons c a ih =>
    simp only [List.mem_cons, not_or] at ha
    have hm : ends (spacesBeforeClose q) (c :: (a ++ q :: w ++ ['>'])) = [] := by
      refine ends_nil.2 ?_
      intro t u e hl
      obtain ⟨w', rfl, g1, g2⟩ := lang_spacesBeforeClose.1 hl
      have hw' : '>' ∉ w' := fun hc => by have := g2 _ hc; rw [ws_gt] at this; cases this
      have e1 : (a ++ q :: w) ++ '>' :: [] = w' ++ '>' :: u := by
        have := (List.cons.inj e).2
        rw [this]; simp
      have e2 := (notGt_unique (by
        intro hc
        simp only [List.mem_append, List.mem_cons] at hc
        rcases hc with hc | hc | hc
        · exact ha.2 hc
        · exact hg hc.symm
        · exact hw hc) hw' e1).1
      have := g2 q (by rw [← e2]; simp)
      rw [hq] at this; cases this
    show shut q (c :: (a ++ q :: w ++ ['>'])) = _
    rw [shut, replaceAll_miss _ hm]
    exact congrArg (c :: ·) (ih ha.2)

theorem shut_closed {q : Char} {x : List Char} (hx : '>' ∉ x) (h : ¬ Open q x) : shut q (x ++ ['>']) = x ++ ['>'] := by
  rcases replaceAll_close (q := q) hx with e | ⟨a, w, e, h1, h2, -⟩
  · exact e
  · exact absurd ⟨a, w, e, h1, h2⟩ h

theorem not_open {q r : Char} (hr : isWhitespace r = false) {a : List Char} : ¬ Open q (a ++ [r]) := by
  rintro ⟨b, w, e, h1, h2⟩
  cases hw : w.reverse with
  | nil => exact h1 (by simpa using hw)
  | cons x v =>
    have hw : w = v.reverse ++ [x] := by have := congrArg List.reverse hw; simpa using this
    have e : a ++ [r] = (b ++ q :: v.reverse) ++ [x] := by rw [e, hw]; simp
    have h3 := List.append_inj_right' e rfl
    have := h2 x (by rw [hw]; simp)
    rw [← (List.cons.inj h3).1, hr] at this; cases this

theorem shut_spec {q : Char} (hq : q = '"' ∨ q = '\'') {x : List Char} (hx : '>' ∉ x) :
    ∃ y, shut q (x ++ ['>']) = y ++ ['>'] ∧ '>' ∉ y ∧ ¬ Open q y ∧
      (y = x ∨ ∃ a w, x = a ++ q :: w ∧ w ≠ [] ∧ (∀ c ∈ w, isWhitespace c = true) ∧ y = a ++ [q]) := by
  have hqw : isWhitespace q = false := by rcases hq with rfl | rfl <;> decide +kernel
  have hqg : q ≠ '>' := by rcases hq with rfl | rfl <;> decide
  by_cases h : Open q x
  · obtain ⟨a, w, rfl, h1, h2⟩ := h
    have ha : '>' ∉ a := fun hc => hx (by simp [hc])
    refine ⟨a ++ [q], shut_open hqw hqg ha h1 h2, ?_, not_open hqw, .inr ⟨a, w, rfl, h1, h2, rfl⟩⟩
    intro hc
    simp only [List.mem_append, List.mem_singleton] at hc
    rcases hc with hc | hc
    · exact ha hc
    · exact hqg hc.symm
  · exact ⟨x, shut_closed hx h, hx, h, .inl rfl⟩

/-! ## Single white space -/

theorem apart_infix {a s b : List Char} (h : Apart (a ++ s ++ b)) : Apart s := by
  intro x c d y e
  exact h (a ++ x) c d (y ++ b) (by rw [e]; simp)

theorem apart_left {a s : List Char} (h : Apart (a ++ s)) : Apart a := by
  have : Apart ([] ++ a ++ s) := h
  exact apart_infix this

theorem apart_right {a s : List Char} (h : Apart (a ++ s)) : Apart s := by
  have : Apart (a ++ s ++ []) := by rw [List.append_nil]; exact h
  exact apart_infix this

/-- A solid character keeps two texts apart. -/
theorem apart_join {a b : List Char} {c : Char} (hc : isWhitespace c = false) (ha : Apart a) (hb : Apart b) : Apart (a ++ c :: b) := by
  induction a with
  | nil =>
    refine apart_cons hb ?_
    rintro d - ⟨h, -⟩
    rw [hc] at h; cases h
  | cons x a ih =>
    refine apart_cons (ih (apart_right (a := [x]) ha)) ?_
    intro d hd
    cases a with
    | nil =>
      have : c = d := by simpa using hd
      rintro ⟨-, h⟩
      rw [← this, hc] at h; cases h
    | cons y a =>
      have : y = d := by simpa using hd
      rw [← this]
      exact ha [] x y a rfl

theorem findIter_infix {r : Re} (hs : solid r) {s t : List Char} (h : t ∈ findIter r s) : ∃ a b, s = a ++ t ++ b := by
  induction s using cut_induct hs with
  | nil => rw [findIter_nil] at h; cases h
  | miss c s he ih =>
    rw [findIter_miss he] at h
    obtain ⟨a, b, e⟩ := ih h
    exact ⟨c :: a, b, by rw [e]; rfl⟩
  | hit s k kk he ih =>
    rw [findIter_hit hs he] at h
    obtain ⟨e, -⟩ := ends_sound (r := r) (h := k) (by rw [he]; simp)
    rcases List.mem_cons.1 h with rfl | h
    · exact ⟨[], k.rest, e⟩
    · obtain ⟨a, b, e2⟩ := ih h
      refine ⟨k.text ++ a, b, ?_⟩
      rw [e, e2]; simp

theorem oneSpace_apart {s : List Char} (h : Apart s) : oneSpace s = s := by
  refine replaceAll_none solid_extraSpaces ?_
  rintro a t b rfl hl
  obtain ⟨h1, h2⟩ := lang_extraSpaces hl
  match t, h1, h2 with
  | x :: y :: t, _, h2 =>
    exact apart_infix h [] x y t rfl ⟨h2 x (by simp), h2 y (by simp)⟩

theorem replaceStr_same (x s : List Char) : replaceStr x x s = s := by
  refine replaceAll_id (solid_str x) s ?_
  intro u h hm
  have hl := (ends_sound hm).2
  cases x with
  | nil => obtain ⟨c, -, hc⟩ := hl; cases hc
  | cons c x => exact ((lang_str (by simp)).1 hl).symm

/-- The loop finds nothing to change. -/
theorem spaceLoop_apart {as bs : List (List Char)} (tag : List Char) (ha : ∀ a ∈ as, Apart a ∧ ∃ x c, a = x ++ [c] ∧ isWhitespace c = false)
    (hb : ∀ b ∈ bs, Apart b) : spaceLoop as bs tag = tag := by
  have key : ∀ (as bs : List (List Char)), (∀ a ∈ as, Apart a ∧ ∃ x c, a = x ++ [c] ∧ isWhitespace c = false) → (∀ b ∈ bs, Apart b) →
      ∀ x ∈ replacements as bs, Apart x := by
    intro as
    induction as with
    | nil => intro bs _ hb x hx; exact hb x hx
    | cons a as ih =>
      intro bs ha hb x hx
      cases bs with
      | nil => exact (ha x hx).1
      | cons b bs =>
        rcases List.mem_cons.1 hx with rfl | hx
        · obtain ⟨h1, y, c, rfl, hc⟩ := ha a (by simp)
          have := apart_join hc (apart_left h1) (hb b (by simp))
          rw [List.append_assoc]; exact this
        · exact ih bs (fun a h => ha a (by simp [h])) (fun b h => hb b (by simp [h])) x hx
  have key2 : ∀ (xs : List (List Char)) (tag : List Char), (∀ x ∈ xs, Apart x) →
      xs.foldl (fun tag x => replaceStr x (oneSpace x) tag) tag = tag := by
    intro xs
    induction xs with
    | nil => intro tag _; rfl
    | cons x xs ih =>
      intro tag h
      rw [List.foldl_cons, oneSpace_apart (h x (by simp)), replaceStr_same]
      exact ih tag fun y hy => h y (by simp [hy])
  exact key2 _ tag (key as bs ha hb)

theorem names_apart {T : Tables} {s : List Char} (h : Apart s) : findIter (extraSpaces2 T) s = [] := by
  refine List.eq_nil_iff_forall_not_mem.2 ?_
  intro t ht
  obtain ⟨a, b, rfl⟩ := findIter_infix (solid_extraSpaces2 T) ht
  have hl := findIter_lang (solid_extraSpaces2 T) ht
  obtain ⟨q, x, y, u, -, rfl, g1, g2⟩ := lang_extraSpaces2 hl
  exact apart_infix h [q] x y u rfl ⟨g1, g2⟩

/-- A tag with single white space only loses white space at its end, and quotes. -/
theorem tidyTag_apart {T : Tables} (hT : T.Ok) {s : List Char} (hx : '>' ∉ s) (h : Apart (s ++ ['>'])) :
    tidyTag T (s ++ ['>']) = some (s ++ ['>']) ∨ tidyTag T (s ++ ['>']) = some (quotes (shut '\'' (shut '"' (s ++ ['>'])))) := by
  unfold tidyTag
  split
  · exact .inl rfl
  · right
    simp only
    have e1 : replaceAll (spacesBeforeClose '"') (fun _ => "\">".toList) (s ++ ['>']) = shut '"' (s ++ ['>']) := rfl
    obtain ⟨y, f1, hy, -, hc⟩ := shut_spec (.inl rfl) hx
    have e2 : replaceAll (spacesBeforeClose '\'') (fun _ => "'>".toList) (y ++ ['>']) = shut '\'' (y ++ ['>']) := rfl
    obtain ⟨z, f2, hz, -, hc2⟩ := shut_spec (.inr rfl) hy
    rw [e1, f1, e2, f2]
    have step : ∀ {q : Char} {x y : List Char}, isWhitespace q = false → Apart (x ++ ['>']) →
        (y = x ∨ ∃ a w, x = a ++ q :: w ∧ w ≠ [] ∧ (∀ c ∈ w, isWhitespace c = true) ∧ y = a ++ [q]) → Apart (y ++ ['>']) := by
      rintro q x y hq hx (rfl | ⟨a, w, rfl, -, -, rfl⟩)
      · exact hx
      · rw [List.append_assoc]
        refine apart_join hq ?_ ?_
        · exact apart_left (s := q :: w ++ ['>']) (by simpa using hx)
        · exact apart_cons apart_nil (by simp)
    have ay := step (by decide +kernel) h hc
    have az := step (by decide +kernel) ay hc2
    rw [spaceLoop_apart]
    · rw [names_apart az]; rfl
    · intro a ha
      obtain ⟨p, q, e⟩ := findIter_infix (solid_betweenWords T) ha
      have hl := findIter_lang (solid_betweenWords T) ha
      refine ⟨by rw [e] at az; exact apart_infix az, ?_⟩
      obtain ⟨a1, a2, rfl, -, a3, a4, rfl, -, c, rfl, hc⟩ := hl
      exact ⟨a1 ++ a3, c, by simp, hT.word_space c hc⟩
    · intro b hb
      obtain ⟨p, q, e⟩ := findIter_infix (solid_extraSpaces3 T) hb
      rw [e] at az; exact apart_infix az

/-! ## Quotes and white space -/

/-- The pass cannot look across a character that is not part of an attribute. -/
theorem quotes_split {d : Char} (h1 : simple d = false) (h2 : d ≠ '=') (h3 : d ≠ '"') (a b : List Char) :
    quotes (a ++ d :: b) = quotes a ++ d :: quotes b := by
  have hl : letter d = false := by
    cases h : letter d with
    | false => rfl
    | true => rw [letter_simple h] at h1; cases h1
  have miss : ∀ u, ends quotesInTag (d :: u) = [] := by
    intro u
    refine ends_nil.2 ?_
    intro t v e h
    have := lang_quotes_head e h
    rw [hl] at this; cases this
  induction a using cut_induct solid_quotesInTag with
  | nil => rw [List.nil_append, quotes_miss (miss b)]; rfl
  | miss c s he ih =>
    have hm : ends quotesInTag (c :: (s ++ d :: b)) = [] := by
      refine ends_nil.2 ?_
      intro t u e hl
      obtain ⟨k, v, rfl, k1, k2, v1, v2⟩ := lang_quotes.1 hl
      have hd : d ∉ k ++ '=' :: '"' :: (v ++ ['"']) := by
        intro hc
        simp only [List.mem_append, List.mem_cons, List.not_mem_nil, or_false] at hc
        rcases hc with hc | hc | hc | hc | hc
        · rw [letter_simple (k2 d hc)] at h1; cases h1
        · exact h2 hc
        · exact h3 hc
        · rw [v2 d hc] at h1; cases h1
        · exact h3 hc
      have e' : (c :: s) ++ d :: b = (k ++ '=' :: '"' :: (v ++ ['"'])) ++ u := e
      rcases List.append_eq_append_iff.1 e' with ⟨x, g1, g2⟩ | ⟨x, g1, g2⟩
      · cases x with
        | nil =>
          rw [List.append_nil] at g1
          exact ends_nil.1 he (k ++ '=' :: '"' :: (v ++ ['"'])) [] (by rw [List.append_nil, g1]) hl
        | cons y x =>
          refine hd ?_
          rw [g1, (List.cons.inj g2).1]; simp
      · exact ends_nil.1 he _ x g1 hl
    rw [List.cons_append, quotes_miss hm, quotes_miss he, ih]; rfl
  | hit s h hh he ih =>
    obtain ⟨k, v, k1, k2, v1, v2, -, es, eq⟩ := quotes_hit he
    have e : s ++ d :: b = k ++ '=' :: '"' :: (v ++ '"' :: (h.rest ++ d :: b)) := by rw [es]; simp
    rw [e, quotes_at k1 k2 v1 v2, ih, eq]; simp

theorem simple_gt : simple '>' = false := by decide +kernel
theorem simple_lt : simple '<' = false := by decide +kernel

theorem quotes_tag (z : List Char) : quotes ('<' :: (z ++ ['>'])) = '<' :: (quotes z ++ ['>']) := by
  have e1 := quotes_split (d := '<') simple_lt (by decide) (by decide) [] (z ++ ['>'])
  have e2 := quotes_split (d := '>') simple_gt (by decide) (by decide) z []
  rw [List.nil_append, quotes_nil, List.nil_append] at e1
  rw [e1, e2, quotes_nil]

/-- What replaces a match has no white space in it. -/
theorem quotes_cases (s : List Char) {h : Hit} {hh : List Hit} (he : ends quotesInTag s = h :: hh) :
    ∃ x y, quotes s = x ++ [y] ++ quotes h.rest ∧ (∀ c ∈ x, isWhitespace c = false) ∧ isWhitespace y = false ∧ y ≠ '\'' ∧
      (y = '"' → h.text = x ++ [y]) := by
  obtain ⟨k, v, k1, k2, v1, v2, ht, -, eq⟩ := quotes_hit he
  have hk : ∀ c ∈ k, isWhitespace c = false := fun c hc => simple_ws (letter_simple (k2 c hc))
  have hv : ∀ c ∈ v, isWhitespace c = false := fun c hc => simple_ws (v2 c hc)
  by_cases hw : k = "width".toList ∨ k = "height".toList
  · rw [if_pos hw] at eq
    cases hr : v.reverse with
    | nil => exact absurd (by simpa using hr) v1
    | cons y w =>
      have ev : v = w.reverse ++ [y] := by have := congrArg List.reverse hr; simpa using this
      have hy : simple y = true := v2 y (by rw [ev]; simp)
      refine ⟨k ++ '=' :: w.reverse, y, by rw [eq, ev]; simp, ?_, simple_ws hy, (simple_facts hy).2.2.1, ?_⟩
      · intro c hc
        rcases List.mem_append.1 hc with hc | hc
        · exact hk c hc
        · rcases List.mem_cons.1 hc with rfl | hc
          · exact ws_eq
          · exact hv c (by rw [ev]; exact List.mem_append_left _ hc)
      · rintro rfl; rw [simple_dq] at hy; cases hy
  · rw [if_neg hw] at eq
    refine ⟨k ++ '=' :: '"' :: v, '"', by rw [eq]; simp, ?_, ws_dq, by decide, fun _ => by rw [ht]; simp⟩
    intro c hc
    rcases List.mem_append.1 hc with hc | hc
    · exact hk c hc
    · rcases List.mem_cons.1 hc with rfl | hc
      · exact ws_eq
      · rcases List.mem_cons.1 hc with rfl | hc
        · exact ws_dq
        · exact hv c hc

theorem apart_solid {x : List Char} (h : ∀ c ∈ x, isWhitespace c = false) : Apart x := by
  rintro a p q b rfl ⟨h1, -⟩
  rw [h p (by simp)] at h1; cases h1

theorem apart_quotes {s : List Char} (h : Apart s) : Apart (quotes s) := by
  induction s using cut_induct solid_quotesInTag with
  | nil => exact apart_nil
  | miss c s he ih =>
    rw [quotes_miss he]
    refine apart_cons (ih (apart_right (a := [c]) h)) ?_
    intro d hd
    rw [quotes_head] at hd
    cases s with
    | nil => cases hd
    | cons x s =>
      have : x = d := by simpa using hd
      rw [← this]
      exact h [] c x s rfl
  | hit s k kk he ih =>
    obtain ⟨x, y, e, h1, h2, -, -⟩ := quotes_cases s he
    rw [e, List.append_assoc]
    refine apart_join h2 (apart_solid h1) (ih ?_)
    obtain ⟨e, -⟩ := ends_sound (r := quotesInTag) (h := k) (by rw [he]; simp)
    exact apart_right (a := k.text) (by rw [← e]; exact h)

/-- If the result is white space, so was the source. -/
theorem quotes_ws {s : List Char} (h : ∀ c ∈ quotes s, isWhitespace c = true) : quotes s = s := by
  induction s using cut_induct solid_quotesInTag with
  | nil => rfl
  | miss c s he ih =>
    rw [quotes_miss he] at h ⊢
    rw [ih fun c hc => h c (by simp [hc])]
  | hit s k kk he ih =>
    obtain ⟨x, y, e, -, h2, -, -⟩ := quotes_cases s he
    have := h y (by rw [e]; simp)
    rw [h2] at this; cases this

/-- White space after a last quote was there before. -/
theorem open_quotes {q : Char} (hq : q = '"' ∨ q = '\'') {s : List Char} (h : Open q (quotes s)) : Open q s := by
  obtain ⟨a, w, e, h1, h2⟩ := h
  induction s using cut_induct solid_quotesInTag generalizing a with
  | nil => rw [quotes_nil] at e; cases a <;> cases e
  | miss c s he ih =>
    rw [quotes_miss he] at e
    cases a with
    | nil =>
      obtain ⟨rfl, e'⟩ := List.cons.inj e
      have := quotes_ws (s := s) (by rw [show quotes s = w from e']; exact h2)
      exact ⟨[], w, by rw [← this, show quotes s = w from e']; rfl, h1, h2⟩
    | cons x a =>
      obtain ⟨a', w', e', g1, g2⟩ := ih a (List.cons.inj e).2
      exact ⟨c :: a', w', by rw [e']; rfl, g1, g2⟩
  | hit s k kk he ih =>
    obtain ⟨x, y, eq, -, hy, hy2, hy3⟩ := quotes_cases s he
    obtain ⟨es, -⟩ := ends_sound (r := quotesInTag) (h := k) (by rw [he]; simp)
    rw [eq] at e
    have lift : Open q k.rest → Open q s := by
      rintro ⟨a', w', e', g1, g2⟩
      exact ⟨k.text ++ a', w', by rw [es, e']; simp, g1, g2⟩
    rcases List.append_eq_append_iff.1 e with ⟨z, g1, g2⟩ | ⟨z, g1, g2⟩
    · exact lift (ih z g2)
    · cases z with
      | nil => exact lift (ih [] g2.symm)
      | cons z0 z =>
        obtain ⟨rfl, g3⟩ := List.cons.inj g2
        -- the part of the white space inside of the replaced match is empty
        have hz : z = [] := by
          cases hr : z.reverse with
          | nil => simpa using hr
          | cons y' z' =>
            exfalso
            have ez : z = z'.reverse ++ [y'] := by have := congrArg List.reverse hr; simpa using this
            have : x ++ [y] = (a ++ q :: z'.reverse) ++ [y'] := by rw [g1, ez]; simp
            have := (List.cons.inj (List.append_inj_right' this rfl)).1
            have h3 := h2 y' (by rw [show w = z ++ quotes k.rest from g3, ez]; simp)
            rw [← this, hy] at h3; cases h3
        subst hz
        have : w = quotes k.rest := g3
        have g4 := quotes_ws (s := k.rest) (by rw [← this]; exact h2)
        have g5 := (List.cons.inj (List.append_inj_right' g1 rfl)).1
        have hq' : q = '"' := by
          rcases hq with h | h
          · exact h
          · rw [g5] at hy2; exact absurd h hy2
        refine ⟨a, w, ?_, h1, h2⟩
        rw [es, hy3 (by rw [g5, hq']), this, g4, g1]; simp

/-! ## The tag as a whole -/

/-- A tag after its last white space has gone. -/
def Shut (t z : List Char) : Prop :=
  z = t ∨ ∃ q a w, (q = '"' ∨ q = '\'') ∧ t = a ++ q :: w ∧ w ≠ [] ∧ (∀ c ∈ w, isWhitespace c = true) ∧ z = a ++ [q]

theorem shut_both {t : List Char} (h2 : '>' ∉ t) : ∃ z, shut '\'' (shut '"' ('<' :: t ++ ['>'])) = '<' :: (z ++ ['>']) ∧ Shut t z ∧
    '>' ∉ z ∧ ¬ Open '"' z ∧ ¬ Open '\'' z := by
  have cons : ∀ {q : Char} {x : List Char}, Open q x → Open q ('<' :: x) := by
    rintro q x ⟨a, w, rfl, g⟩; exact ⟨'<' :: a, w, rfl, g⟩
  have form : ∀ {q : Char} {x y : List Char}, (q = '"' ∨ q = '\'') →
      (y = '<' :: x ∨ ∃ a w, '<' :: x = a ++ q :: w ∧ w ≠ [] ∧ (∀ c ∈ w, isWhitespace c = true) ∧ y = a ++ [q]) →
      ∃ y', y = '<' :: y' ∧ (y' = x ∨ ∃ a w, x = a ++ q :: w ∧ w ≠ [] ∧ (∀ c ∈ w, isWhitespace c = true) ∧ y' = a ++ [q]) := by
    rintro q x y hq (rfl | ⟨a, w, e, g1, g2, rfl⟩)
    · exact ⟨x, rfl, .inl rfl⟩
    · cases a with
      | nil =>
        have := (List.cons.inj e).1
        rcases hq with rfl | rfl <;> exact absurd this (by decide)
      | cons d a =>
        obtain ⟨rfl, e'⟩ := List.cons.inj e
        exact ⟨a ++ [q], rfl, .inr ⟨a, w, e', g1, g2, rfl⟩⟩
  obtain ⟨y0, f1, hy, n1, hc0⟩ := shut_spec (q := '"') (.inl rfl) (x := '<' :: t) (by simp [h2])
  obtain ⟨y, rfl, hc⟩ := form (.inl rfl) hc0
  obtain ⟨z0, f2, hz, n2, hc1⟩ := shut_spec (q := '\'') (.inr rfl) (x := '<' :: y) hy
  obtain ⟨z, rfl, hc2⟩ := form (.inr rfl) hc1
  rw [f1, f2]
  refine ⟨z, rfl, ?_, fun h => hz (by simp [h]), ?_, fun h => n2 (cons h)⟩
  · rcases hc2 with rfl | ⟨a, w, rfl, g1, g2, rfl⟩
    · rcases hc with rfl | ⟨a, w, rfl, g1, g2, rfl⟩
      · exact .inl rfl
      · exact .inr ⟨'"', a, w, .inl rfl, rfl, g1, g2, rfl⟩
    · rcases hc with hc | ⟨a', w', -, -, -, e⟩
      · exact .inr ⟨'\'', a, w, .inr rfl, hc.symm, g1, g2, rfl⟩
      · exfalso
        exact not_open (q := '\'') ws_dq (a := a') (by rw [← e]; exact ⟨a, w, rfl, g1, g2⟩)
  · rcases hc2 with rfl | ⟨a, w, rfl, g1, g2, rfl⟩
    · exact fun h => n1 (cons h)
    · exact not_open (by decide +kernel)

theorem shut_twice {z : List Char} (hz : '>' ∉ z) (n1 : ¬ Open '"' z) (n2 : ¬ Open '\'' z) :
    shut '\'' (shut '"' ('<' :: z ++ ['>'])) = '<' :: z ++ ['>'] := by
  have cons : ∀ {q : Char}, (q = '"' ∨ q = '\'') → ¬ Open q z → ¬ Open q ('<' :: z) := by
    rintro q hq h ⟨a, w, e, g⟩
    cases a with
    | nil =>
      have := (List.cons.inj e).1
      rcases hq with rfl | rfl <;> exact absurd this (by decide)
    | cons d a => exact h ⟨a, w, (List.cons.inj e).2, g⟩
  rw [shut_closed (q := '"') (x := '<' :: z) (by simp [hz]) (cons (.inl rfl) n1),
    shut_closed (q := '\'') (x := '<' :: z) (by simp [hz]) (cons (.inr rfl) n2)]

theorem apart_shut {t z : List Char} (h : Apart t) (hs : Shut t z) : Apart z := by
  rcases hs with rfl | ⟨q, a, w, hq, rfl, -, -, rfl⟩
  · exact h
  · refine apart_join (b := []) ?_ (apart_left h) apart_nil
    rcases hq with rfl | rfl <;> decide +kernel

theorem quotes_gt {s : List Char} (h : '>' ∉ s) : '>' ∉ quotes s := by
  intro hc
  have := (shrinks_quotes s).ink
  have h2 : '>' ∈ ink (quotes s) := by simp [ink, hc, ws_gt]
  exact h (List.mem_filter.1 (this.subset h2)).1

theorem quotes_lt {s : List Char} (h : '<' ∉ s) : '<' ∉ quotes s := by
  intro hc
  have := (shrinks_quotes s).ink
  have h2 : '<' ∈ ink (quotes s) := by simp [ink, hc, ws_lt]
  exact h (List.mem_filter.1 (this.subset h2)).1

theorem stops_append {u v : List Char} (h : Stops u) : Stops (u ++ v) := by
  obtain ⟨d, w, rfl, h⟩ := h
  exact ⟨d, w ++ v, rfl, h⟩

theorem sep_shut {t z : List Char} (h : Sep (t ++ ['>'])) (hz : '>' ∉ z) (hs : Shut t z) : Sep (z ++ ['>']) := by
  rcases hs with rfl | ⟨q, a, w, hq, rfl, g1, g2, rfl⟩
  · exact h
  · intro b m u e hl
    have hg : '>' ∉ m := by
      intro hc
      obtain ⟨k, v, rfl, k1, k2, v1, v2⟩ := lang_quotes.1 hl
      simp only [List.mem_append, List.mem_cons, List.not_mem_nil, or_false] at hc
      rcases hc with hc | hc | hc | hc | hc
      · have := k2 _ hc; rw [letter_gt] at this; cases this
      · exact absurd hc (by decide)
      · exact absurd hc (by decide)
      · have := v2 _ hc; rw [simple_gt] at this; cases this
      · exact absurd hc (by decide)
    cases hr : u.reverse with
    | nil =>
      exfalso
      have : u = [] := by simpa using hr
      subst this
      rw [List.append_nil] at e
      cases hm : m.reverse with
      | nil =>
        have : m = [] := by simpa using hm
        subst this
        exact solid_quotesInTag hl
      | cons y m' =>
        have em : m = m'.reverse ++ [y] := by have := congrArg List.reverse hm; simpa using this
        have : a ++ [q] ++ ['>'] = (b ++ m'.reverse) ++ [y] := by rw [e, em]; simp
        have := (List.cons.inj (List.append_inj_right' this rfl)).1
        exact hg (by rw [em, this]; simp)
    | cons y u' =>
      have eu : u = u'.reverse ++ [y] := by have := congrArg List.reverse hr; simpa using this
      have e2 : (a ++ [q]) ++ ['>'] = (b ++ m ++ u'.reverse) ++ [y] := by rw [e, eu]; simp
      have e3 := List.append_inj_left' e2 rfl
      have e4 := (List.cons.inj (List.append_inj_right' e2 rfl)).1
      cases hr' : u'.reverse with
      | nil => exact ⟨y, [], by rw [eu, hr']; rfl, .inr (.inl e4.symm)⟩
      | cons d x =>
        -- the rest of the tag ends like `a`
        have := h b m (u'.reverse ++ w ++ ['>']) (by
          rw [show a ++ q :: w = (a ++ [q]) ++ w by simp, e3]; simp) hl
        rw [hr'] at this
        obtain ⟨d', x', e5, g⟩ := this
        have : d = d' := (List.cons.inj e5).1
        exact ⟨d, x ++ [y], by rw [eu, hr']; rfl, by rw [this]; exact g⟩

/-- One run settles a tag. -/
theorem tag_again {T : Tables} (hT : T.Ok) {t t' : List Char} (h1 : '<' ∉ t) (h2 : '>' ∉ t) (ha : Apart t) (hs : Sep (t ++ ['>']))
    (ho : tagOut T t = some ('<' :: (t' ++ ['>']))) :
    tagOut T t' = some ('<' :: (t' ++ ['>'])) ∧ Apart t' ∧ (t' = t ∨ ∃ z, Shut t z ∧ '>' ∉ z ∧ Sep (z ++ ['>']) ∧ t' = quotes z) := by
  have cancel : ∀ {a b : List Char}, some ('<' :: (a ++ ['>'])) = some ('<' :: (b ++ ['>'])) → a = b := by
    intro a b e
    exact List.append_inj_left' (List.cons.inj (Option.some.inj e)).2 rfl
  have aw : ∀ {x : List Char}, Apart x → Apart ('<' :: x ++ ['>']) := by
    intro x hx
    refine apart_join (a := '<' :: x) (b := []) ws_gt ?_ apart_nil
    exact apart_cons hx (by rintro d - ⟨g, -⟩; rw [ws_lt] at g; cases g)
  rcases tagOut_cases hT h1 h2 with e | e
  · rw [ho] at e
    rcases tidyTag_apart hT (s := '<' :: t) (by simp [h2]) (aw ha) with g | g
    · have : t' = t := cancel (e.trans g)
      subst this
      exact ⟨ho, ha, .inl rfl⟩
    · obtain ⟨z, f1, f2, f3, n1, n2⟩ := shut_both h2
      have : some ('<' :: (t' ++ ['>'])) = some ('<' :: (quotes z ++ ['>'])) := by
        rw [← quotes_tag, ← f1]; exact e.trans g
      have := cancel this
      subst this
      have az := apart_shut ha f2
      have sz := sep_shut hs f3 f2
      refine ⟨?_, apart_quotes az, .inr ⟨z, f2, f3, sz, rfl⟩⟩
      have hlt : '<' ∉ z := by
        rcases f2 with rfl | ⟨q, a, w, hq, rfl, -, -, rfl⟩
        · exact h1
        · intro hc
          simp only [List.mem_append, List.mem_singleton] at hc
          rcases hc with hc | hc
          · exact h1 (by simp [hc])
          · rcases hq with rfl | rfl <;> exact absurd hc (by decide)
      rcases tagOut_cases hT (quotes_lt hlt) (quotes_gt f3) with e | e
      · rw [e]
        rcases tidyTag_apart hT (s := '<' :: quotes z) (by simp [quotes_gt f3]) (aw (apart_quotes az)) with g | g
        · exact g
        · have g0 : tidyTag T ('<' :: (quotes z ++ ['>'])) = _ := g
          rw [g0, shut_twice (quotes_gt f3) (fun h => n1 (open_quotes (.inl rfl) h)) (fun h => n2 (open_quotes (.inr rfl) h)),
            List.cons_append, quotes_tag]
          have end_ : ∀ x : List Char, quotes (x ++ ['>']) = quotes x ++ ['>'] := by
            intro x
            rw [quotes_split (d := '>') simple_gt (by decide) (by decide) x [], quotes_nil]
          have := quotes_again sz
          rw [end_, end_] at this
          rw [List.append_inj_left' this rfl]
      · exact e
  · rw [ho] at e
    have := cancel e
    subst this
    exact ⟨ho, ha, .inl rfl⟩

end Verif.Html
