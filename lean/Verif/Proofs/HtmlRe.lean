import Verif.Model.Html
/-!
# Regular expressions: the matcher and the languages
-/
set_option linter.unusedSimpArgs false
namespace Verif.Html

/-- The texts that an expression matches. -/
def lang : Re → List Char → Prop
  | .ch p, t => ∃ c, t = [c] ∧ p c = true
  | .seq a b, t => ∃ u v, t = u ++ v ∧ lang a u ∧ lang b v
  | .alt a b, t => lang a t ∨ lang b t
  | .star _ p, t => ∀ c ∈ t, p c = true
  | .grp _ r, t => lang r t

theorem mem_splits {p : Char → Bool} {s t r : List Char} :
    (t, r) ∈ splits p s ↔ s = t ++ r ∧ ∀ c ∈ t, p c = true := by
  induction s generalizing t with
  | nil =>
    simp only [splits, List.mem_singleton, Prod.mk.injEq]
    constructor
    · rintro ⟨rfl, rfl⟩; simp
    · rintro ⟨h, -⟩
      have := List.append_eq_nil_iff.1 h.symm
      exact this
  | cons c s ih =>
    rw [splits, List.mem_cons]
    constructor
    · rintro (h | h)
      · obtain ⟨rfl, rfl⟩ := Prod.mk.inj h; simp
      · split at h
        · rename_i hc
          obtain ⟨⟨t', r'⟩, h1, h2⟩ := List.mem_map.1 h
          obtain ⟨rfl, rfl⟩ := Prod.mk.inj h2
          obtain ⟨rfl, h3⟩ := ih.1 h1
          refine ⟨rfl, ?_⟩
          simpa [hc] using h3
        · simp at h
    · rintro ⟨h, hp⟩
      cases t with
      | nil => left; simpa using h.symm
      | cons d t =>
        right
        obtain ⟨rfl, h'⟩ := List.cons.inj h
        rw [if_pos (hp _ (by simp))]
        exact List.mem_map.2 ⟨(t, r), ih.2 ⟨h', fun c hc => hp c (by simp [hc])⟩, rfl⟩

theorem ends_sound {r : Re} {s : List Char} {h : Hit} (hm : h ∈ ends r s) : s = h.text ++ h.rest ∧ lang r h.text := by
  induction r generalizing s h with
  | ch p =>
    cases s with
    | nil => simp [ends] at hm
    | cons c s =>
      rw [ends] at hm
      split at hm
      · rename_i hc
        rw [List.mem_singleton] at hm; subst hm
        exact ⟨rfl, c, rfl, hc⟩
      · simp at hm
  | seq a b iha ihb =>
    rw [ends] at hm
    obtain ⟨x, h1, h2⟩ := List.mem_flatMap.1 hm
    obtain ⟨y, h3, rfl⟩ := List.mem_map.1 h2
    obtain ⟨e1, l1⟩ := iha h1
    obtain ⟨e2, l2⟩ := ihb h3
    exact ⟨by rw [e1, e2]; simp, _, _, rfl, l1, l2⟩
  | alt a b iha ihb =>
    rw [ends] at hm
    rcases List.mem_append.1 hm with h1 | h1
    · exact ⟨(iha h1).1, .inl (iha h1).2⟩
    · exact ⟨(ihb h1).1, .inr (ihb h1).2⟩
  | star g p =>
    rw [ends] at hm
    have : h ∈ (splits p s).map fun x => ⟨x.1, x.2, []⟩ := by
      cases g
      · simpa using hm
      · simpa using hm
    obtain ⟨⟨t, u⟩, h1, rfl⟩ := List.mem_map.1 this
    exact mem_splits.1 h1
  | grp i r ih =>
    rw [ends] at hm
    obtain ⟨x, h1, rfl⟩ := List.mem_map.1 hm
    have := ih h1
    exact ⟨this.1, this.2⟩

theorem ends_complete {r : Re} {t u : List Char} (h : lang r t) : ∃ x ∈ ends r (t ++ u), x.text = t ∧ x.rest = u := by
  induction r generalizing t u with
  | ch p =>
    obtain ⟨c, rfl, hc⟩ := h
    exact ⟨⟨[c], u, []⟩, by simp [ends, hc], rfl, rfl⟩
  | seq a b iha ihb =>
    obtain ⟨v, w, rfl, h1, h2⟩ := h
    obtain ⟨x, hx, e1, e2⟩ := iha (u := w ++ u) h1
    obtain ⟨y, hy, e3, e4⟩ := ihb (u := u) h2
    refine ⟨⟨x.text ++ y.text, y.rest, x.caps ++ y.caps⟩, ?_, by rw [e1, e3], e4⟩
    rw [ends, List.append_assoc]
    exact List.mem_flatMap.2 ⟨x, hx, List.mem_map.2 ⟨y, by rw [e2]; exact hy, rfl⟩⟩
  | alt a b iha ihb =>
    rcases h with h | h
    · obtain ⟨x, hx, e⟩ := iha (u := u) h
      exact ⟨x, by rw [ends]; exact List.mem_append.2 (.inl hx), e⟩
    · obtain ⟨x, hx, e⟩ := ihb (u := u) h
      exact ⟨x, by rw [ends]; exact List.mem_append.2 (.inr hx), e⟩
  | star g p =>
    refine ⟨⟨t, u, []⟩, ?_, rfl, rfl⟩
    have h1 : (⟨t, u, []⟩ : Hit) ∈ (splits p (t ++ u)).map fun x => ⟨x.1, x.2, []⟩ :=
      List.mem_map.2 ⟨(t, u), mem_splits.2 ⟨rfl, h⟩, rfl⟩
    rw [ends]
    cases g
    · simpa using h1
    · simpa using h1
  | grp i r ih =>
    obtain ⟨x, hx, e1, e2⟩ := ih (u := u) h
    exact ⟨{ x with caps := (i, x.text) :: x.caps }, by rw [ends]; exact List.mem_map.2 ⟨x, hx, rfl⟩, e1, e2⟩

theorem ends_nil {r : Re} {s : List Char} : ends r s = [] ↔ ∀ t u, s = t ++ u → ¬ lang r t := by
  constructor
  · rintro h t u rfl hl
    obtain ⟨x, hx, -⟩ := ends_complete (u := u) hl
    rw [h] at hx; simp at hx
  · intro h
    cases he : ends r s with
    | nil => rfl
    | cons x xs =>
      obtain ⟨e, hl⟩ := ends_sound (r := r) (s := s) (h := x) (by rw [he]; simp)
      exact absurd hl (h _ _ e)

/-- The empty text is not matched. -/
def solid (r : Re) : Prop := ¬ lang r []

theorem solid_ch (p : Char → Bool) : solid (.ch p) := by rintro ⟨c, h, -⟩; simp at h
theorem solid_seq {a : Re} (b : Re) (h : solid a) : solid (.seq a b) := by
  rintro ⟨u, v, e, h1, -⟩
  have := List.append_eq_nil_iff.1 e.symm
  rw [this.1] at h1; exact h h1
theorem solid_seq' (a : Re) {b : Re} (h : solid b) : solid (.seq a b) := by
  rintro ⟨u, v, e, -, h1⟩
  have := List.append_eq_nil_iff.1 e.symm
  rw [this.2] at h1; exact h h1
theorem solid_alt {a b : Re} (h : solid a) (h' : solid b) : solid (.alt a b) := by
  rintro (h1 | h1)
  · exact h h1
  · exact h' h1
theorem solid_grp {i : Nat} {r : Re} (h : solid r) : solid (.grp i r) := h
theorem solid_plus (p : Char → Bool) : solid (.plus p) := solid_seq _ (solid_ch _)
theorem solid_c (c : Char) : solid (.c c) := solid_ch _
theorem solid_lit {s : List Char} {r : Re} (h : s ≠ []) : solid (.lit s r) := by
  cases s with
  | nil => exact absurd rfl h
  | cons c s => exact solid_seq _ (solid_c c)
theorem solid_str (s : List Char) : solid (.str s) := by
  match s with
  | [] => exact solid_ch _
  | [c] => exact solid_c c
  | c :: d :: s => exact solid_seq _ (solid_c c)

theorem hit_ne {r : Re} (hs : solid r) {s : List Char} {h : Hit} (hm : h ∈ ends r s) : h.text ≠ [] := by
  intro e
  have := (ends_sound hm).2
  rw [e] at this
  exact hs this

theorem hit_rest_lt {r : Re} (hs : solid r) {s : List Char} {h : Hit} (hm : h ∈ ends r s) : h.rest.length < s.length := by
  have h1 := hit_ne hs hm
  have h2 := (ends_sound hm).1
  rw [h2, List.length_append]
  have := List.length_pos_iff.2 h1
  omega

theorem cutFuel_eq {r : Re} (hs : solid r) {n m : Nat} {s : List Char} (hn : s.length ≤ n) (hm : s.length ≤ m) :
    cutFuel r n s = cutFuel r m s := by
  induction n generalizing m s with
  | zero =>
    have : s = [] := List.eq_nil_of_length_eq_zero (by omega)
    subst this
    cases m <;> rfl
  | succ n ih =>
    cases s with
    | nil => cases m <;> rfl
    | cons c s =>
      cases m with
      | zero => simp at hm
      | succ m =>
        simp only [List.length_cons] at hn hm
        rw [cutFuel, cutFuel]
        cases he : ends r (c :: s) with
        | nil => simp only; rw [ih (m := m) (by omega) (by omega)]
        | cons h hh =>
          have h1 : h ∈ ends r (c :: s) := by rw [he]; simp
          have h2 := hit_rest_lt hs h1
          simp only [List.length_cons] at h2
          have h3 : h.text.isEmpty = false := by simpa using hit_ne hs h1
          simp only [h3, Bool.false_eq_true, if_false]
          rw [ih (m := m) (by omega) (by omega)]

theorem cut_nil (r : Re) : cut r [] = [] := rfl

theorem cut_miss {r : Re} {c : Char} {s : List Char} (h : ends r (c :: s) = []) : cut r (c :: s) = .chr c :: cut r s := by
  rw [cut, List.length_cons, cutFuel, h]
  rfl

theorem cut_hit {r : Re} (hs : solid r) {h : Hit} {hh : List Hit} {s : List Char} (he : ends r s = h :: hh) :
    cut r s = .hit h :: cut r h.rest := by
  have h1 : h ∈ ends r s := by rw [he]; simp
  have h2 := hit_rest_lt hs h1
  cases s with
  | nil => simp at h2
  | cons c s =>
    have h3 : h.text.isEmpty = false := by simpa using hit_ne hs h1
    rw [cut, List.length_cons, cutFuel, he]
    simp only [h3, Bool.false_eq_true, if_false]
    simp only [List.length_cons] at h2
    rw [cut, cutFuel_eq hs (m := h.rest.length) (by omega) (by omega)]

/-- Induction along the matches of a text. -/
theorem cut_induct {r : Re} (hs : solid r) {P : List Char → Prop} (nil : P [])
    (miss : ∀ c s, ends r (c :: s) = [] → P s → P (c :: s))
    (hit : ∀ s h hh, ends r s = h :: hh → P h.rest → P s) (s : List Char) : P s := by
  have : ∀ n, ∀ s : List Char, s.length ≤ n → P s := by
    intro n
    induction n with
    | zero => intro s h; rw [List.eq_nil_of_length_eq_zero (l := s) (by omega)]; exact nil
    | succ n ih =>
      intro s hn
      cases s with
      | nil => exact nil
      | cons c s =>
        simp only [List.length_cons] at hn
        cases he : ends r (c :: s) with
        | nil => exact miss c s he (ih s (by omega))
        | cons h hh =>
          have := hit_rest_lt hs (s := c :: s) (h := h) (by rw [he]; simp)
          simp only [List.length_cons] at this
          exact hit _ h hh he (ih _ (by omega))
  exact this s.length s (Nat.le_refl _)

theorem replaceAll_nil (r : Re) (f : Hit → List Char) : replaceAll r f [] = [] := rfl

theorem replaceAll_miss {r : Re} (f : Hit → List Char) {c : Char} {s : List Char} (h : ends r (c :: s) = []) :
    replaceAll r f (c :: s) = c :: replaceAll r f s := by
  rw [replaceAll, cut_miss h]; rfl

theorem replaceAll_hit {r : Re} (hs : solid r) (f : Hit → List Char) {h : Hit} {hh : List Hit} {s : List Char}
    (he : ends r s = h :: hh) : replaceAll r f s = f h ++ replaceAll r f h.rest := by
  rw [replaceAll, cut_hit hs he]; rfl

theorem findIter_nil (r : Re) : findIter r [] = [] := rfl

theorem findIter_miss {r : Re} {c : Char} {s : List Char} (h : ends r (c :: s) = []) :
    findIter r (c :: s) = findIter r s := by
  rw [findIter, cut_miss h]; rfl

theorem findIter_hit {r : Re} (hs : solid r) {h : Hit} {hh : List Hit} {s : List Char}
    (he : ends r s = h :: hh) : findIter r s = h.text :: findIter r h.rest := by
  rw [findIter, cut_hit hs he]; rfl

theorem findIter_lang {r : Re} (hs : solid r) {s t : List Char} (h : t ∈ findIter r s) : lang r t := by
  induction s using cut_induct hs with
  | nil => simp [findIter_nil] at h
  | miss c s he ih => rw [findIter_miss he] at h; exact ih h
  | hit s x hh he ih =>
    rw [findIter_hit hs he, List.mem_cons] at h
    rcases h with rfl | h
    · exact (ends_sound (r := r) (s := s) (h := x) (by rw [he]; simp)).2
    · exact ih h

/-- A relation between a text and what becomes of it, built up from pieces. -/
structure Piecewise (R : List Char → List Char → Prop) : Prop where
  nil : R [] []
  one : ∀ c, R [c] [c]
  app : ∀ a b c d, R a b → R c d → R (a ++ c) (b ++ d)

theorem Piecewise.refl {R : List Char → List Char → Prop} (h : Piecewise R) (s : List Char) : R s s := by
  induction s with
  | nil => exact h.nil
  | cons c s ih => exact h.app [c] [c] s s (h.one c) ih

theorem replaceAll_rel {R : List Char → List Char → Prop} (hR : Piecewise R) {r : Re} (hs : solid r) {f : Hit → List Char}
    (s : List Char) (hf : ∀ u, ∀ h ∈ ends r u, R h.text (f h)) : R s (replaceAll r f s) := by
  induction s using cut_induct hs with
  | nil => exact hR.nil
  | miss c s he ih =>
    rw [replaceAll_miss _ he]
    exact hR.app [c] [c] _ _ (hR.one c) ih
  | hit s h hh he ih =>
    have hm : h ∈ ends r s := by rw [he]; simp
    rw [replaceAll_hit hs _ he]
    have := hR.app _ _ _ _ (hf s h hm) ih
    rwa [← (ends_sound hm).1] at this

theorem replaceAll_id {r : Re} (hs : solid r) {f : Hit → List Char} (s : List Char)
    (hf : ∀ u, ∀ h ∈ ends r u, f h = h.text) : replaceAll r f s = s := by
  have : Piecewise (fun a b : List Char => b = a) :=
    ⟨rfl, fun _ => rfl, by rintro a b c d rfl rfl; rfl⟩
  exact replaceAll_rel this hs s hf

/-- If nothing in a text is matched, it stays. -/
theorem replaceAll_none {r : Re} (hs : solid r) {f : Hit → List Char} {s : List Char}
    (h : ∀ a t b, s = a ++ t ++ b → ¬ lang r t) : replaceAll r f s = s := by
  induction s using cut_induct hs with
  | nil => rfl
  | miss c s he ih =>
    rw [replaceAll_miss _ he, ih]
    intro a t b e
    exact h (c :: a) t b (by rw [e]; simp)
  | hit s x hh he ih =>
    obtain ⟨e, hl⟩ := ends_sound (r := r) (s := s) (h := x) (by rw [he]; simp)
    exact absurd hl (h [] _ x.rest (by simpa using e))

/-! ## Literal texts -/

theorem lang_c {c : Char} {t : List Char} : lang (.c c) t ↔ t = [c] := by
  constructor
  · rintro ⟨d, rfl, h⟩; rw [beq_iff_eq.1 h]
  · rintro rfl; exact ⟨c, rfl, by simp⟩

theorem lang_lit {s t : List Char} {r : Re} : lang (.lit s r) t ↔ ∃ u, t = s ++ u ∧ lang r u := by
  induction s generalizing t with
  | nil => simp [Re.lit]
  | cons c s ih =>
    show lang (.seq (.c c) (.lit s r)) t ↔ _
    constructor
    · rintro ⟨u, v, rfl, h1, h2⟩
      obtain ⟨w, rfl, h3⟩ := ih.1 h2
      rw [lang_c.1 h1]
      exact ⟨w, by simp, h3⟩
    · rintro ⟨u, rfl, h⟩
      exact ⟨[c], s ++ u, by simp, lang_c.2 rfl, ih.2 ⟨u, rfl, h⟩⟩

theorem lang_str {s t : List Char} (h : s ≠ []) : lang (.str s) t ↔ t = s := by
  match s with
  | [] => exact absurd rfl h
  | [c] => exact lang_c
  | c :: d :: s =>
    have ih := fun t => lang_str (s := d :: s) (t := t) (by simp)
    show lang (.seq (.c c) (.str (d :: s))) t ↔ _
    constructor
    · rintro ⟨u, v, rfl, h1, h2⟩
      rw [lang_c.1 h1, (ih v).1 h2]; rfl
    · rintro rfl
      exact ⟨[c], d :: s, rfl, lang_c.2 rfl, (ih _).2 rfl⟩

theorem lang_plus {p : Char → Bool} {t : List Char} : lang (.plus p) t ↔ t ≠ [] ∧ ∀ c ∈ t, p c = true := by
  constructor
  · rintro ⟨u, v, rfl, ⟨c, rfl, hc⟩, h2⟩
    refine ⟨by simp, ?_⟩
    intro d hd
    simp only [List.singleton_append, List.mem_cons] at hd
    rcases hd with rfl | hd
    · exact hc
    · exact h2 d hd
  · rintro ⟨h1, h2⟩
    cases t with
    | nil => exact absurd rfl h1
    | cons c t => exact ⟨[c], t, rfl, ⟨c, rfl, h2 c (by simp)⟩, fun d hd => h2 d (by simp [hd])⟩

/-! ## `str::replace` -/

theorem replaceStr_nil (pat to : List Char) : replaceStr pat to [] = [] := rfl

theorem ends_str {pat s : List Char} (hp : pat ≠ []) :
    (∃ u, s = pat ++ u ∧ ∃ h hh, ends (.str pat) s = h :: hh ∧ h.text = pat ∧ h.rest = u) ∨
    ((¬ ∃ u, s = pat ++ u) ∧ ends (.str pat) s = []) := by
  cases he : ends (.str pat) s with
  | nil =>
    right
    refine ⟨?_, rfl⟩
    rintro ⟨u, e⟩
    exact ends_nil.1 he _ _ e ((lang_str hp).2 rfl)
  | cons h hh =>
    left
    obtain ⟨e, hl⟩ := ends_sound (r := .str pat) (s := s) (h := h) (by rw [he]; simp)
    have := (lang_str hp).1 hl
    exact ⟨h.rest, by rw [← this]; exact e, h, hh, rfl, this, rfl⟩

theorem replaceStr_hit {pat to u : List Char} (hp : pat ≠ []) :
    replaceStr pat to (pat ++ u) = to ++ replaceStr pat to u := by
  rcases ends_str (s := pat ++ u) hp with ⟨v, e, h, hh, he, h1, h2⟩ | ⟨h, -⟩
  · have := List.append_cancel_left e
    subst this
    rw [replaceStr, replaceAll_hit (solid_str pat) _ he, h2]; rfl
  · exact absurd ⟨u, rfl⟩ h

theorem replaceStr_miss {pat to s : List Char} {c : Char} (h : ¬ ∃ u, c :: s = pat ++ u) (hp : pat ≠ []) :
    replaceStr pat to (c :: s) = c :: replaceStr pat to s := by
  rcases ends_str (s := c :: s) hp with ⟨v, e, -⟩ | ⟨-, he⟩
  · exact absurd ⟨v, e⟩ h
  · exact replaceAll_miss _ he

theorem str_induct {pat : List Char} (hp : pat ≠ []) {P : List Char → Prop} (nil : P [])
    (miss : ∀ c s, (¬ ∃ u, c :: s = pat ++ u) → P s → P (c :: s)) (hit : ∀ u, P u → P (pat ++ u)) (s : List Char) : P s := by
  refine cut_induct (solid_str pat) nil ?_ ?_ s
  · intro c s he hP
    refine miss c s ?_ hP
    rintro ⟨u, e⟩
    exact ends_nil.1 he _ _ e ((lang_str hp).2 rfl)
  · intro s h hh he hP
    obtain ⟨e, hl⟩ := ends_sound (r := .str pat) (s := s) (h := h) (by rw [he]; simp)
    rw [e, (lang_str hp).1 hl]
    exact hit _ hP

theorem replaceStr_rel {R : List Char → List Char → Prop} (hR : Piecewise R) {pat to : List Char} (s : List Char)
    (hf : R pat to) : R s (replaceStr pat to s) := by
  by_cases hp : pat = []
  · subst hp
    have : replaceStr [] to s = s := by
      refine replaceAll_none (solid_str _) ?_
      rintro a t b - ⟨c, -, h⟩
      simp at h
    rw [this]; exact hR.refl s
  · induction s using str_induct hp with
    | nil => exact hR.nil
    | miss c s h ih =>
      rw [replaceStr_miss h hp]
      exact hR.app [c] [c] _ _ (hR.one c) ih
    | hit u ih =>
      rw [replaceStr_hit hp]
      exact hR.app _ _ _ _ hf ih

/-! ## Searching and trimming -/

theorem startsWith_iff {pat s : List Char} : startsWith pat s = true ↔ ∃ u, s = pat ++ u := by
  rw [startsWith, List.isPrefixOf_iff_prefix]
  constructor
  · rintro ⟨u, rfl⟩; exact ⟨u, rfl⟩
  · rintro ⟨u, rfl⟩; exact ⟨u, rfl⟩

theorem contains_iff {pat s : List Char} : contains pat s = true ↔ ∃ a b, s = a ++ pat ++ b := by
  induction s with
  | nil =>
    rw [contains]
    constructor
    · intro h; exact ⟨[], [], by simpa using h⟩
    · rintro ⟨a, b, h⟩
      have := List.append_eq_nil_iff.1 h.symm
      have := List.append_eq_nil_iff.1 this.1
      simp [this.2]
  | cons c s ih =>
    rw [contains, Bool.or_eq_true, startsWith_iff, ih]
    constructor
    · rintro (⟨u, h⟩ | ⟨a, b, h⟩)
      · exact ⟨[], u, h⟩
      · exact ⟨c :: a, b, by rw [h]; rfl⟩
    · rintro ⟨a, b, h⟩
      cases a with
      | nil => left; exact ⟨b, h⟩
      | cons d a =>
        right
        exact ⟨a, b, (List.cons.inj h).2⟩

theorem dropWhile_split (p : Char → Bool) (s : List Char) :
    ∃ a, s = a ++ s.dropWhile p ∧ (∀ c ∈ a, p c = true) ∧ ∀ c, (s.dropWhile p).head? = some c → p c = false := by
  induction s with
  | nil => exact ⟨[], by simp⟩
  | cons c s ih =>
    rw [List.dropWhile_cons]
    split
    · rename_i hc
      obtain ⟨a, h1, h2, h3⟩ := ih
      refine ⟨c :: a, by rw [List.cons_append, ← h1], ?_, h3⟩
      intro d hd
      simp only [List.mem_cons] at hd
      rcases hd with rfl | hd
      · exact hc
      · exact h2 d hd
    · rename_i hc
      exact ⟨[], by simp, by simp, by intro d hd; simp at hd; subst hd; simpa using hc⟩

/-- What `trim` does. -/
theorem trim_spec (s : List Char) : ∃ a b, s = a ++ trim s ++ b ∧ (∀ c ∈ a, space c = true) ∧ (∀ c ∈ b, space c = true) ∧
    (∀ c, (trim s).head? = some c → space c = false) ∧ (∀ c, (trim s).getLast? = some c → space c = false) := by
  obtain ⟨a, h1, h2, h3⟩ := dropWhile_split space s
  obtain ⟨b, h4, h5, h6⟩ := dropWhile_split space (trimStart s).reverse
  have e : trimStart s = trim s ++ b.reverse := by
    have := congrArg List.reverse h4
    rw [List.reverse_reverse, List.reverse_append] at this
    exact this
  refine ⟨a, b.reverse, ?_, h2, by simpa using h5, ?_, ?_⟩
  · rw [List.append_assoc, ← e]; exact h1
  · intro c hc
    refine h3 c ?_
    show (trimStart s).head? = some c
    rw [e, List.head?_append, hc]; rfl
  · intro c hc
    refine h6 c ?_
    rw [trim, List.getLast?_reverse] at hc
    exact hc

theorem trim_unique {s a t b : List Char} (h : s = a ++ t ++ b) (ha : ∀ c ∈ a, space c = true) (hb : ∀ c ∈ b, space c = true)
    (h1 : ∀ c, t.head? = some c → space c = false) (h2 : ∀ c, t.getLast? = some c → space c = false) : trim s = t := by
  have hd : ∀ (p : Char → Bool) (x y : List Char), (∀ c ∈ x, p c = true) → (∀ c, y.head? = some c → p c = false) →
      (x ++ y).dropWhile p = y := by
    intro p x y hx hy
    induction x with
    | nil =>
      cases y with
      | nil => rfl
      | cons c y => rw [List.nil_append, List.dropWhile_cons, hy c rfl]; rfl
    | cons c x ih =>
      rw [List.cons_append, List.dropWhile_cons, hx c (by simp)]
      exact ih fun d hd => hx d (by simp [hd])
  cases t with
  | nil =>
    have : trimStart s = [] := by
      have h' := hd space s [] (by
        rw [h]; intro c hc
        simp only [List.append_nil, List.mem_append] at hc
        rcases hc with hc | hc
        · exact ha c hc
        · exact hb c hc) (by simp)
      rwa [List.append_nil] at h'
    rw [trim, this]; rfl
  | cons c t =>
    have e1 : trimStart s = c :: t ++ b := by
      rw [h, List.append_assoc]
      exact hd space a _ ha (by intro d hd; simp at hd; subst hd; exact h1 _ rfl)
    rw [trim, e1, List.reverse_append, hd space b.reverse _ (by simpa using hb) ?_, List.reverse_reverse]
    intro d hd'
    rw [List.head?_reverse] at hd'
    exact h2 d hd'

theorem trim_trim (s : List Char) : trim (trim s) = trim s := by
  obtain ⟨a, b, -, -, -, h1, h2⟩ := trim_spec s
  exact trim_unique (a := []) (b := []) (by simp) (by simp) (by simp) h1 h2

end Verif.Html
