import Verif.Proofs.HtmlType
/-!
# Pages with preformatted text
-/
set_option linter.unusedSimpArgs false
namespace Verif.Html
open Verif.Spec.Html

/-! ## A tag stays a tag -/

theorem snoc_right {a b x : List Char} {c : Char} (e : a ++ b = x ++ [c]) (h : ∀ d, a.getLast? = some d → d ≠ c) :
    ∃ y, b = y ++ [c] ∧ x = a ++ y := by
  have hb : b ≠ [] := by
    intro h0
    subst h0
    rw [List.append_nil] at e
    exact h c (by rw [e]; simp) rfl
  have e1 : b = b.dropLast ++ [c] := by
    have := congrArg List.getLast? e
    rw [List.getLast?_append, List.getLast?_append, List.getLast?_eq_some_getLast hb] at this
    simp only [Option.some_or, List.getLast?_singleton, Option.some.injEq] at this
    rw [← this, List.dropLast_concat_getLast]
  refine ⟨b.dropLast, e1, ?_⟩
  rw [e1, ← List.append_assoc] at e
  exact (List.append_inj_left' e rfl).symm

theorem loose_end {s o : List Char} (h : Loose s o) {x : List Char} (e : s = x ++ ['>']) : ∃ y, o = y ++ ['>'] := by
  induction h generalizing x with
  | nil => simp at e
  | @char s o c h ih =>
    cases x with
    | nil =>
      obtain ⟨rfl, rfl⟩ := List.cons.inj e
      generalize hz : ([] : List Char) = z at h
      cases h with
      | nil => exact ⟨[], rfl⟩
      | char => simp at hz
      | gap h1 _ _ =>
        have := List.append_eq_nil_iff.1 hz.symm
        rw [this.1] at h1; simp at h1
    | cons d x =>
      obtain ⟨y, rfl⟩ := ih (List.cons.inj e).2
      exact ⟨c :: y, rfl⟩
  | @gap w s o h1 h2 _ ih =>
    obtain ⟨y, e1, -⟩ := snoc_right e (by
      intro d hd he
      have := h2 d (List.mem_of_getLast? hd)
      rw [he, ws_gt] at this; exact absurd this (by decide))
    obtain ⟨z, rfl⟩ := ih e1
    exact ⟨' ' :: z, rfl⟩

/-- Starts with `<` and ends with `>`. -/
def Tagged (s : List Char) : Prop := ∃ x, s = '<' :: (x ++ ['>'])

theorem loose_tagged {s o : List Char} (h : Loose s o) (ht : Tagged s) : Tagged o := by
  obtain ⟨x, e⟩ := ht
  cases h with
  | nil => simp at e
  | char c h =>
    obtain ⟨rfl, rfl⟩ := List.cons.inj e
    obtain ⟨y, rfl⟩ := loose_end h rfl
    exact ⟨y, rfl⟩
  | @gap w s o h1 h2 h =>
    exfalso
    cases w with
    | nil => simp at h1
    | cons c w =>
      have := h2 c (by simp)
      rw [(List.cons.inj e).1, ws_lt] at this; exact absurd this (by decide)

theorem spaceLoop_tagged (as bs : List (List Char)) (tag : List Char) (h : Tagged tag) : Tagged (spaceLoop as bs tag) := by
  unfold spaceLoop
  induction replacements as bs generalizing tag with
  | nil => exact h
  | cons x xs ih => exact ih _ (loose_tagged (replaceStr_rel loose_piecewise tag (loose_oneSpace x)) h)

/-- The replacement of `nameLoop`. -/
theorem loose_name {T : Tables} {m y : List Char} (h : lang (extraSpaces2 T) m) (hf : from1 m = some y) :
    Loose m (m.take 1 ++ ' ' :: trimStart y) := by
  obtain ⟨q, a, b, x, -, rfl, ha, hb⟩ := lang_extraSpaces2 h
  have hy : y = a :: b :: x := by
    rw [from1] at hf
    split at hf
    · exact (Option.some.inj hf).symm
    · simp at hf
  subst hy
  obtain ⟨w, h1, h2, h3⟩ := dropWhile_split space (a :: b :: x)
  refine Loose.char q ?_
  show Loose (a :: b :: x) (' ' :: (a :: b :: x).dropWhile space)
  have hlen : 2 ≤ w.length := by
    match w, h1 with
    | [], h1 =>
      have := h3 a (by rw [← (show a :: b :: x = (a :: b :: x).dropWhile space from h1)]; rfl)
      rw [show space a = true from ha] at this; exact absurd this (by decide)
    | [z], h1 =>
      have h4 : b :: x = (a :: b :: x).dropWhile space := (List.cons.inj h1).2
      have := h3 b (by rw [← h4]; rfl)
      rw [show space b = true from hb] at this; exact absurd this (by decide)
    | _ :: _ :: _, _ => simp
  have := Loose.gap hlen h2 (.refl ((a :: b :: x).dropWhile space))
  rwa [← h1] at this

theorem nameLoop_tagged {T : Tables} (ms : List (List Char)) (hms : ∀ m ∈ ms, lang (extraSpaces2 T) m) {s o : List Char}
    (ho : nameLoop ms s = some o) (h : Tagged s) : Tagged o := by
  induction ms generalizing s with
  | nil => rw [nameLoop] at ho; rw [← Option.some.inj ho]; exact h
  | cons m ms ih =>
    rw [nameLoop] at ho
    cases hf : from1 m with
    | none => rw [hf] at ho; simp at ho
    | some y =>
      rw [hf] at ho
      exact ih (fun m hm => hms m (by simp [hm])) ho
        (loose_tagged (replaceStr_rel loose_piecewise s (loose_name (hms m (by simp)) hf)) h)

theorem quotes_end {x : List Char} : ∃ y, replaceAll quotesInTag unquote (x ++ ['>']) = y ++ ['>'] := by
  generalize hs : x ++ ['>'] = s
  induction s using cut_induct solid_quotesInTag generalizing x with
  | nil => simp at hs
  | miss c s he ih =>
    cases x with
    | nil =>
      obtain ⟨rfl, rfl⟩ := List.cons.inj hs
      exact ⟨[], by rw [replaceAll_miss _ he]; rfl⟩
    | cons d x =>
      obtain ⟨rfl, e⟩ := List.cons.inj hs
      obtain ⟨y, h1⟩ := ih (x := x) e
      exact ⟨d :: y, by rw [replaceAll_miss _ he, h1]; rfl⟩
  | hit s k kk he ih =>
    have hk : k ∈ ends quotesInTag s := by rw [he]; simp
    obtain ⟨h1, -⟩ := ends_sound hk
    have h2 := (quotes_caps hk).1
    rw [replaceAll_hit solid_quotesInTag _ he]
    obtain ⟨y, e1, -⟩ := snoc_right (h1.symm.trans hs.symm) (by
      intro d hd
      rw [h2] at hd
      have : k.cap 1 ++ '=' :: '"' :: (k.cap 2 ++ ['"']) = (k.cap 1 ++ '=' :: '"' :: k.cap 2) ++ ['"'] := by simp
      rw [this, List.getLast?_append] at hd
      simp at hd
      rw [← hd]; decide)
    obtain ⟨z, g⟩ := ih e1.symm
    exact ⟨unquote k ++ z, by rw [g]; simp⟩

theorem quotes_tagged {s : List Char} (h : Tagged s) : Tagged (replaceAll quotesInTag unquote s) := by
  obtain ⟨x, rfl⟩ := h
  have : ends quotesInTag ('<' :: (x ++ ['>'])) = [] := by
    refine ends_nil.2 ?_
    intro t u e hl
    have := lang_quotes_head e hl
    exact absurd this (by decide +kernel)
  obtain ⟨y, h⟩ := quotes_end (x := x)
  exact ⟨y, by rw [replaceAll_miss _ this, h]⟩

theorem close_tagged {q : Char} (hq : q ≠ '<') {x : List Char} (hx : '>' ∉ x) :
    ∃ y, replaceAll (spacesBeforeClose q) (fun _ => [q, '>']) ('<' :: (x ++ ['>'])) = '<' :: (y ++ ['>']) ∧ ('>' ∉ y) := by
  rcases replaceAll_close (q := q) (x := '<' :: x) (by simp [hx]) with e | ⟨a, w, h1, h2, h3, e⟩
  · exact ⟨x, e, hx⟩
  · cases a with
    | nil => exact absurd (List.cons.inj h1).1.symm hq
    | cons c a =>
      refine ⟨a ++ [q], ?_, ?_⟩
      · rw [← List.cons_append, e, ← (List.cons.inj h1).1]; simp
      · have : x = a ++ q :: w := (List.cons.inj h1).2
        intro hc
        apply hx
        rw [this]
        rcases List.mem_append.1 hc with hc | hc
        · exact List.mem_append_left _ hc
        · exact List.mem_append_right _ (by rw [List.mem_singleton.1 hc]; simp)

theorem tidyTag_tagged {T : Tables} {x o : List Char} (hx : '>' ∉ x) (ho : tidyTag T ('<' :: (x ++ ['>'])) = some o) : Tagged o := by
  unfold tidyTag at ho
  split at ho
  · rw [← Option.some.inj ho]; exact ⟨x, rfl⟩
  · simp only at ho
    obtain ⟨y, e1, hy⟩ := close_tagged (q := '"') (by decide) hx
    have e1' : replaceAll (spacesBeforeClose '"') (fun _ => "\">".toList) ('<' :: (x ++ ['>'])) = '<' :: (y ++ ['>']) := e1
    rw [e1'] at ho
    obtain ⟨z, e2, hz⟩ := close_tagged (q := '\'') (by decide) hy
    have e2' : replaceAll (spacesBeforeClose '\'') (fun _ => "'>".toList) ('<' :: (y ++ ['>'])) = '<' :: (z ++ ['>']) := e2
    rw [e2'] at ho
    have t3 := spaceLoop_tagged (findIter (betweenWords T) ('<' :: (z ++ ['>']))) (findIter (extraSpaces3 T) ('<' :: (z ++ ['>'])))
      ('<' :: (z ++ ['>'])) ⟨z, rfl⟩
    generalize spaceLoop _ _ _ = tag at *
    cases hn : nameLoop (findIter (extraSpaces2 T) tag) tag with
    | none => rw [hn] at ho; simp at ho
    | some p =>
      rw [hn] at ho
      have t4 := nameLoop_tagged _ (fun m hm => findIter_lang (solid_extraSpaces2 T) hm) hn t3
      have : replaceAll quotesInTag unquote p = o := Option.some.inj ho
      rw [← this]; exact quotes_tagged t4

/-! ## The first character of a tag stays -/

/-- Starts with `<` and `c`. -/
def Capped (c : Char) (s : List Char) : Prop := ∃ x, s = '<' :: c :: x

theorem loose_capped {c : Char} (hc : isWhitespace c = false) {s o : List Char} (h : Loose s o) (ht : Capped c s) : Capped c o := by
  obtain ⟨x, e⟩ := ht
  have no : ∀ {d : Char} {w s x : List Char}, isWhitespace d = false → 2 ≤ w.length → (∀ c ∈ w, isWhitespace c = true) →
      w ++ s = d :: x → False := by
    intro d w s x hd h1 h2 e
    cases w with
    | nil => simp at h1
    | cons y w =>
      have := h2 y (by simp)
      rw [(List.cons.inj e).1, hd] at this; exact absurd this (by decide)
  cases h with
  | nil => simp at e
  | char d h =>
    obtain ⟨rfl, rfl⟩ := List.cons.inj e
    generalize he : c :: x = y at h
    cases h with
    | nil => simp at he
    | char d h =>
      obtain ⟨rfl, rfl⟩ := List.cons.inj he
      exact ⟨_, rfl⟩
    | gap h1 h2 _ => exact (no hc h1 h2 he.symm).elim
  | gap h1 h2 _ => exact (no ws_lt h1 h2 e).elim

theorem spaceLoop_capped {c : Char} (hc : isWhitespace c = false) (as bs : List (List Char)) (tag : List Char) (h : Capped c tag) :
    Capped c (spaceLoop as bs tag) := by
  unfold spaceLoop
  induction replacements as bs generalizing tag with
  | nil => exact h
  | cons x xs ih => exact ih _ (loose_capped hc (replaceStr_rel loose_piecewise tag (loose_oneSpace x)) h)

theorem nameLoop_capped {T : Tables} {c : Char} (hc : isWhitespace c = false) (ms : List (List Char))
    (hms : ∀ m ∈ ms, lang (extraSpaces2 T) m) {s o : List Char} (ho : nameLoop ms s = some o) (h : Capped c s) : Capped c o := by
  induction ms generalizing s with
  | nil => rw [nameLoop] at ho; rw [← Option.some.inj ho]; exact h
  | cons m ms ih =>
    rw [nameLoop] at ho
    cases hf : from1 m with
    | none => rw [hf] at ho; simp at ho
    | some y =>
      rw [hf] at ho
      exact ih (fun m hm => hms m (by simp [hm])) ho
        (loose_capped hc (replaceStr_rel loose_piecewise s (loose_name (hms m (by simp)) hf)) h)

theorem quotes_capped {c : Char} {s : List Char} (h : Capped c s) : Capped c (replaceAll quotesInTag unquote s) := by
  obtain ⟨x, rfl⟩ := h
  have : ends quotesInTag ('<' :: (c :: x)) = [] := by
    refine ends_nil.2 ?_
    intro t u e hl
    have := lang_quotes_head e hl
    exact absurd this (by decide +kernel)
  rw [replaceAll_miss _ this]
  cases he : ends quotesInTag (c :: x) with
  | nil => exact ⟨_, by rw [replaceAll_miss _ he]⟩
  | cons k kk =>
    have hk : k ∈ ends quotesInTag (c :: x) := by rw [he]; simp
    obtain ⟨h1, -⟩ := ends_sound hk
    obtain ⟨h2, h3, -⟩ := quotes_caps hk
    rw [replaceAll_hit solid_quotesInTag _ he, unquote]
    rw [h2] at h1
    cases hcap : k.cap 1 with
    | nil => exact absurd hcap h3
    | cons d w =>
      rw [hcap] at h1
      have : d = c := (List.cons.inj h1).1.symm
      subst this
      split
      · exact ⟨_, rfl⟩
      · exact ⟨_, rfl⟩

theorem close_capped {q c : Char} (hq : q ≠ '<') (hc : c ≠ q) (hg : c ≠ '>') {x : List Char} (hx : '>' ∉ x) :
    ∃ y, replaceAll (spacesBeforeClose q) (fun _ => [q, '>']) ('<' :: (c :: x ++ ['>'])) = '<' :: (c :: y ++ ['>']) ∧ ('>' ∉ y) := by
  rcases replaceAll_close (q := q) (x := '<' :: c :: x) (by simp [hx, Ne.symm hg]) with e | ⟨a, w, h1, h2, h3, e⟩
  · exact ⟨x, e, hx⟩
  · match a, h1, e with
    | [], h1, _ => exact absurd (List.cons.inj h1).1.symm hq
    | [_], h1, _ => exact absurd (List.cons.inj (List.cons.inj h1).2).1 hc
    | b :: d :: a, h1, e =>
      have k1 : '<' = b := (List.cons.inj h1).1
      have k2 : c = d := (List.cons.inj (List.cons.inj h1).2).1
      have h1 : x = a ++ q :: w := (List.cons.inj (List.cons.inj h1).2).2
      rw [← k1, ← k2] at e
      refine ⟨a ++ [q], ?_, ?_⟩
      · have e0 : '<' :: (c :: x ++ ['>']) = '<' :: c :: x ++ ['>'] := rfl
        rw [e0, e]; simp
      · intro hm
        apply hx
        rw [h1]
        rcases List.mem_append.1 hm with hm | hm
        · exact List.mem_append_left _ hm
        · exact List.mem_append_right _ (by rw [List.mem_singleton.1 hm]; simp)

theorem tidyTag_capped {T : Tables} {c : Char} (hc : isWhitespace c = false) (h1 : c ≠ '"') (h2 : c ≠ '\'') {x o : List Char}
    (hx : '>' ∉ c :: x) (ho : tidyTag T ('<' :: (c :: x ++ ['>'])) = some o) : Capped c o := by
  simp only [List.mem_cons, not_or] at hx
  unfold tidyTag at ho
  split at ho
  · rw [← Option.some.inj ho]; exact ⟨_, rfl⟩
  · simp only at ho
    obtain ⟨y, e1, hy⟩ := close_capped (q := '"') (by decide) h1 (Ne.symm hx.1) hx.2
    have e1' : replaceAll (spacesBeforeClose '"') (fun _ => "\">".toList) ('<' :: (c :: x ++ ['>'])) = '<' :: (c :: y ++ ['>']) := e1
    rw [e1'] at ho
    obtain ⟨z, e2, hz⟩ := close_capped (q := '\'') (by decide) h2 (Ne.symm hx.1) hy
    have e2' : replaceAll (spacesBeforeClose '\'') (fun _ => "'>".toList) ('<' :: (c :: y ++ ['>'])) = '<' :: (c :: z ++ ['>']) := e2
    rw [e2'] at ho
    have t3 := spaceLoop_capped hc (findIter (betweenWords T) ('<' :: (c :: z ++ ['>'])))
      (findIter (extraSpaces3 T) ('<' :: (c :: z ++ ['>']))) ('<' :: (c :: z ++ ['>'])) ⟨_, rfl⟩
    generalize spaceLoop _ _ _ = tag at *
    cases hn : nameLoop (findIter (extraSpaces2 T) tag) tag with
    | none => rw [hn] at ho; simp at ho
    | some p =>
      rw [hn] at ho
      have t4 := nameLoop_capped hc _ (fun m hm => findIter_lang (solid_extraSpaces2 T) hm) hn t3
      have : replaceAll quotesInTag unquote p = o := Option.some.inj ho
      rw [← this]; exact quotes_capped t4

/-- Nothing but white space is added: no `<` or `>` inside. -/
theorem shrinks_inner {x y : List Char} (h : Shrinks ('<' :: (x ++ ['>'])) ('<' :: (y ++ ['>']))) (h1 : '<' ∉ x) (h2 : '>' ∉ x) :
    '<' ∉ y ∧ '>' ∉ y := by
  have hs := h.ink
  have c1 := hs.count_le '<'
  have c2 := hs.count_le '>'
  have key : ∀ (c : Char) (s : List Char), isWhitespace c = false → (ink s).count c = s.count c := by
    intro c s hc
    rw [ink, List.count_filter]; simp [hc]
  rw [key _ _ ws_lt, key _ _ ws_lt] at c1
  rw [key _ _ ws_gt, key _ _ ws_gt] at c2
  have e1 : ('<' :: (x ++ ['>'])).count '<' = 1 + x.count '<' := by simp [List.count_cons, List.count_append]; omega
  have e2 : ('<' :: (y ++ ['>'])).count '<' = 1 + y.count '<' := by simp [List.count_cons, List.count_append]; omega
  have e3 : ('<' :: (x ++ ['>'])).count '>' = x.count '>' + 1 := by simp [List.count_cons, List.count_append]
  have e4 : ('<' :: (y ++ ['>'])).count '>' = y.count '>' + 1 := by simp [List.count_cons, List.count_append]
  rw [e1, e2, List.count_eq_zero.2 h1] at c1
  rw [e3, e4, List.count_eq_zero.2 h2] at c2
  exact ⟨List.count_eq_zero.1 (by omega), List.count_eq_zero.1 (by omega)⟩

/-! ## One tag, in the pass -/

/-- What the pass makes of one tag. -/
def tagOut (T : Tables) (t : List Char) : Option (List Char) :=
  replaceAllM (anyTag T) (fun x => tidyTag T x.text) ('<' :: (t ++ ['>']))

theorem tagOut_cases {T : Tables} (hT : T.Ok) {t : List Char} (h1 : '<' ∉ t) (h2 : '>' ∉ t) :
    tagOut T t = tidyTag T ('<' :: (t ++ ['>'])) ∨ tagOut T t = some ('<' :: (t ++ ['>'])) := by
  rcases (anyTag_taglike hT).tag t h2 with hh | hh
  · left
    obtain ⟨b, bb, f1, f2, f3⟩ := hh []
    rw [tagOut, replaceAllM_hit (solid_anyTag T) _ f1, f2, f3, replaceAllM_nil]
    cases tidyTag T ('<' :: (t ++ ['>'])) <;> simp
  · right
    have n : Tagless (t ++ ['>']) := .of (by simp [h1])
    rw [tagOut, replaceAllM_miss _ (hh [])]
    have := replaceAllM_text (anyTag_taglike hT) (fun x => tidyTag T x.text) n []
    rw [List.append_nil] at this
    rw [this, replaceAllM_nil]; simp

/-- Only start tags are changed. -/
theorem tagOut_notStart {T : Tables} (hT : T.Ok) {t : List Char} (h1 : '<' ∉ t) (h : NotStart t) :
    tagOut T t = some ('<' :: (t ++ ['>'])) := by
  have n : Tagless (t ++ ['>']) := .of (by simp [h1])
  have hm : ends (anyTag T) ('<' :: (t ++ ['>'])) = [] := by
    obtain ⟨c, u, rfl, hc⟩ := h
    have hw : ¬ T.word c = true := by
      rcases hc with rfl | rfl | rfl <;> rw [hT.word_ascii _ (by decide)] <;> decide
    rw [List.cons_append, anyTag, ends_c_eq, ends_ch_seq, if_neg hw]; rfl
  rw [tagOut, replaceAllM_miss _ hm]
  have := replaceAllM_text (anyTag_taglike hT) (fun x => tidyTag T x.text) n []
  rw [List.append_nil] at this
  rw [this, replaceAllM_nil]
  simp

theorem condTag_notStart {T : Tables} (hT : T.Ok) {t : List Char} (h1 : '<' ∉ t) (h2 : '>' ∉ t) (h : NotStart t) :
    condTag T t = '<' :: (t ++ ['>']) := by
  rcases condTag_cases hT h1 h2 with h' | ⟨⟨v, hs⟩, -⟩
  · exact h'
  · obtain ⟨c, u, rfl, hc⟩ := h
    exfalso
    have e1 : "style".toList = 's' :: "tyle".toList := by decide +kernel
    have e2 : "script".toList = 's' :: "cript".toList := by decide +kernel
    rw [e1, e2] at hs
    have : c = 's' := by
      rcases hs with hs | hs
      · exact (List.cons.inj hs).1
      · exact (List.cons.inj hs).1
    subst this
    revert hc; decide

theorem tagOut_shape {T : Tables} (hT : T.Ok) {t : List Char} (h1 : '<' ∉ t) (h2 : '>' ∉ t) :
    ∃ y, tagOut T t = some ('<' :: (y ++ ['>'])) ∧ '<' ∉ y ∧ '>' ∉ y ∧ (Sharp t → Sharp y) := by
  cases t with
  | nil =>
    refine ⟨[], ?_, by simp, by simp, id⟩
    have hm : ends (anyTag T) ('<' :: ([] ++ ['>'])) = [] := by
      rw [List.nil_append, anyTag, ends_c_eq, ends_ch_seq, gt_word hT]; rfl
    have hm2 : ends (anyTag T) ['>'] = [] := (anyTag_taglike hT).head _ _ (by decide)
    rw [tagOut, replaceAllM_miss _ hm, List.nil_append, replaceAllM_miss _ hm2, replaceAllM_nil]; rfl
  | cons c t =>
    rcases tagOut_cases hT h1 h2 with h | h
    · obtain ⟨o, g1, g2⟩ := tidyTag_some T ('<' :: (c :: t ++ ['>']))
      obtain ⟨y, rfl⟩ := tidyTag_tagged h2 g1
      obtain ⟨h3, h4⟩ := shrinks_inner g2 h1 h2
      refine ⟨y, by rw [h, g1], h3, h4, ?_⟩
      intro hs
      have hc := hs c t rfl
      have hw : isWhitespace c = false := by
        rw [dull, Bool.or_eq_false_iff] at hc; exact hc.1
      obtain ⟨z, e⟩ := tidyTag_capped hw (by rintro rfl; revert hc; decide +kernel) (by rintro rfl; revert hc; decide +kernel) h2 g1
      intro d u e2
      have e := (List.cons.inj e).2
      rw [e2] at e
      rw [(List.cons.inj e).1]; exact hc
    · exact ⟨c :: t, h, h1, h2, id⟩

theorem tagOut_read {T : Tables} (hT : T.Ok) {t y : List Char} (h1 : '<' ∉ t) (h2 : '>' ∉ t)
    (ht : Tame Reader.init ('<' :: (t ++ ['>']))) (h : tagOut T t = some ('<' :: (y ++ ['>']))) :
    readTag ('<' :: (y ++ ['>'])) = readTag ('<' :: (t ++ ['>'])) := by
  rcases tagOut_cases hT h1 h2 with h' | h'
  · rw [h] at h'
    exact tidyTag_tame (T := T) (x := '<' :: t) (by simp [h2]) ht h'.symm
  · rw [h] at h'
    rw [Option.some.inj h']

theorem unquote_page {T : Tables} (hT : T.Ok) {P : List Seg} (hP : ∀ x ∈ P, Seg.Plain x) :
    ∃ Q, replaceAllM (anyTag T) (fun x => tidyTag T x.text) (render P) = some (render Q) ∧ (∀ x ∈ Q, Seg.Plain x) ∧
      Mapped (fun t t' => tagOut T t = some ('<' :: (t' ++ ['>']))) P Q := by
  induction P with
  | nil => exact ⟨[], rfl, by simp, .nil⟩
  | cons x P ih =>
    obtain ⟨Q, h1, h2, h3⟩ := ih (fun x hx => hP x (by simp [hx]))
    have hx := hP x (by simp)
    rw [render_cons]
    cases x with
    | text t =>
      refine ⟨.text t :: Q, ?_, ?_, .text h3⟩
      · show replaceAllM _ _ (t ++ render P) = _
        rw [replaceAllM_text (anyTag_taglike hT) _ hx, h1]; rfl
      · intro y hy
        rcases List.mem_cons.1 hy with rfl | hy
        · exact hx
        · exact h2 y hy
    | tag t =>
      obtain ⟨y, g1, g2⟩ := tagOut_shape hT hx.1 hx.2.1
      refine ⟨.tag y :: Q, ?_, ?_, .tag g1 h3⟩
      · have e0 : Seg.show (.tag t) ++ render P = '<' :: (t ++ '>' :: render P) := by simp [Seg.show]
        rw [e0, replaceAllM_tag (anyTag_taglike hT) (tidyTag T) hx.1 hx.2.1, h1]
        rw [show replaceAllM (anyTag T) (fun x => tidyTag T x.text) ('<' :: (t ++ ['>'])) = _ from g1]
        simp [render_cons, Seg.show]
      · intro z hz
        rcases List.mem_cons.1 hz with rfl | hz
        · exact ⟨g2.1, g2.2.1, g2.2.2 hx.2.2⟩
        · exact h2 z hz
    | comment b => exact absurd hx id

/-! ## White space at the ends -/

theorem trim_pad {a o b : List Char} (ha : ∀ c ∈ a, space c = true) (hb : ∀ c ∈ b, space c = true) : trim (a ++ o ++ b) = trim o := by
  obtain ⟨x, y, h1, h2, h3, h4, h5⟩ := trim_spec o
  refine trim_unique (a := a ++ x) (b := y ++ b) ?_ ?_ ?_ h4 h5
  · conv => lhs; rw [h1]
    simp
  · intro c hc
    rcases List.mem_append.1 hc with hc | hc
    · exact ha c hc
    · exact h2 c hc
  · intro c hc
    rcases List.mem_append.1 hc with hc | hc
    · exact h3 c hc
    · exact hb c hc

theorem anyTag_head {T : Tables} (hT : T.Ok) {s : List Char} {h : Hit} {hh : List Hit} (he : ends (anyTag T) s = h :: hh) :
    ∃ t rest, s = '<' :: (t ++ '>' :: rest) ∧ '>' ∉ t ∧ h.text = '<' :: (t ++ ['>']) ∧ h.rest = rest := by
  obtain ⟨h1, h2⟩ := ends_sound (h := h) (by rw [he]; simp)
  obtain ⟨u, v, e, g1, g2⟩ := h2
  rw [lang_c.1 g1] at e
  obtain ⟨a, b, rfl, -, g3⟩ := g2
  obtain ⟨c, rfl, -⟩ := lang_upToGt (show lang upToGt b from g3)
  rw [e] at h1
  have e1 : s = '<' :: ((a ++ c) ++ '>' :: h.rest) := by rw [h1]; simp
  -- cut at the first '>'
  have : ∃ t r, (a ++ c) ++ '>' :: h.rest = t ++ '>' :: r ∧ '>' ∉ t := by
    generalize a ++ c = z
    induction z with
    | nil => exact ⟨[], _, rfl, by simp⟩
    | cons d z ih =>
      by_cases hd : d = '>'
      · subst hd; exact ⟨[], _, rfl, by simp⟩
      · obtain ⟨t, r, g1, g2⟩ := ih
        exact ⟨d :: t, r, by rw [List.cons_append, g1]; rfl, by simp [g2, Ne.symm hd]⟩
  obtain ⟨t, r, e2, ht⟩ := this
  rw [e2] at e1
  subst e1
  rcases (anyTag_taglike hT).tag t ht with k | k
  · obtain ⟨b, bb, f1, f2, f3⟩ := k r
    rw [he] at f1
    have := (List.cons.inj f1).1
    subst this
    exact ⟨t, r, rfl, ht, f2, f3⟩
  · rw [k r] at he; simp at he

theorem replaceAllM_right {T : Tables} (hT : T.Ok) (F : List Char → Option (List Char)) {b : List Char}
    (hb : ∀ c ∈ b, isWhitespace c = true) (s : List Char) :
    replaceAllM (anyTag T) (fun x => F x.text) (s ++ b) = (replaceAllM (anyTag T) (fun x => F x.text) s).map (· ++ b) := by
  have blt : '<' ∉ b := by intro hc; have := hb _ hc; rw [ws_lt] at this; exact absurd this (by decide)
  have bgt : '>' ∉ b := by intro hc; have := hb _ hc; rw [ws_gt] at this; exact absurd this (by decide)
  induction s using cut_induct (solid_anyTag T) with
  | nil =>
    have := replaceAllM_text (anyTag_taglike hT) (fun x => F x.text) (.of blt) []
    rw [List.append_nil, replaceAllM_nil] at this
    rw [List.nil_append, this, replaceAllM_nil]; simp
  | miss c s he ih =>
    have he2 : ends (anyTag T) (c :: (s ++ b)) = [] := by
      cases hx : ends (anyTag T) (c :: (s ++ b)) with
      | nil => rfl
      | cons h hh =>
        exfalso
        obtain ⟨t, rest, e, ht, -, -⟩ := anyTag_head hT hx
        have hsp : ∃ r', c :: s = '<' :: (t ++ '>' :: r') := by
          have key : ∀ (s t : List Char), s ++ b = t ++ '>' :: rest → '>' ∉ t → ∃ r', s = t ++ '>' :: r' := by
            intro s
            induction s with
            | nil =>
              intro t e _
              rw [List.nil_append] at e
              exact absurd (by rw [e]; simp) bgt
            | cons d s ihs =>
              intro t e ht
              cases t with
              | nil => exact ⟨s, by rw [(List.cons.inj e).1]; rfl⟩
              | cons z t =>
                simp only [List.mem_cons, not_or] at ht
                obtain ⟨r', h⟩ := ihs t (List.cons.inj e).2 ht.2
                exact ⟨r', by rw [(List.cons.inj e).1, h]; rfl⟩
          obtain ⟨r', h⟩ := key s t (List.cons.inj e).2 ht
          exact ⟨r', by rw [(List.cons.inj e).1, h]⟩
        obtain ⟨r', e'⟩ := hsp
        rw [e'] at he
        rw [e] at hx
        rcases (anyTag_taglike hT).tag t ht with k | k
        · obtain ⟨_, _, f1, -⟩ := k r'; rw [he] at f1; simp at f1
        · rw [k rest] at hx; simp at hx
    rw [List.cons_append, replaceAllM_miss _ he2, replaceAllM_miss _ he, ih]
    cases replaceAllM (anyTag T) (fun x => F x.text) s <;> rfl
  | hit s h hh he ih =>
    obtain ⟨t, rest, rfl, ht, h1, h2⟩ := anyTag_head hT he
    rw [h2] at ih
    rcases (anyTag_taglike hT).tag t ht with k | k
    · obtain ⟨x, xx, f1, f2, f3⟩ := k (rest ++ b)
      have e : '<' :: (t ++ '>' :: rest) ++ b = '<' :: (t ++ '>' :: (rest ++ b)) := by simp
      rw [e, replaceAllM_hit (solid_anyTag T) _ f1, replaceAllM_hit (solid_anyTag T) _ he, f2, f3, h1, h2, ih]
      cases F ('<' :: (t ++ ['>'])) with
      | none => rfl
      | some y => cases replaceAllM (anyTag T) (fun x => F x.text) rest <;> simp
    · rw [k rest] at he; simp at he

/-- Trimming before the pass makes no difference. -/
theorem unquote_trim {T : Tables} (hT : T.Ok) (s : List Char) : unquoteAttributes T (trim s) = unquoteAttributes T s := by
  obtain ⟨a, b, h1, h2, h3, -⟩ := trim_spec s
  have alt : '<' ∉ a := by
    intro hc; have := h2 _ hc; rw [show space '<' = false from ws_lt] at this; exact absurd this (by decide)
  rw [unquoteAttributes, unquoteAttributes]
  conv => rhs; rw [h1]
  rw [replaceAllM_right hT (tidyTag T) h3, replaceAllM_text (anyTag_taglike hT) _ (.of alt)]
  cases replaceAllM (anyTag T) (fun h => tidyTag T h.text) (trim s) with
  | none => rfl
  | some x =>
    show some (trim x) = some (trim (a ++ x ++ b))
    rw [trim_pad h2 h3]

/-! ## The whole page -/

theorem pre_mentions {t : List Char} (h : Pre t) {P : List Seg} (hm : Seg.tag t ∈ P) :
    Mentions "<pre".toList (render P) ∨ Mentions "<textarea".toList (render P) := by
  obtain ⟨n, m, u, hn, rfl, hl⟩ := h
  have : ∃ a b, render P = a ++ ('<' :: m) ++ b := by
    induction P with
    | nil => simp at hm
    | cons x P ih =>
      rw [render_cons]
      rcases List.mem_cons.1 hm with rfl | hm
      · exact ⟨[], u ++ ['>'] ++ render P, by simp [Seg.show]⟩
      · obtain ⟨a, b, h⟩ := ih hm
        exact ⟨x.show ++ a, b, by rw [h]; simp⟩
  obtain ⟨a, b, e⟩ := this
  have e1 : "<pre".toList = '<' :: "pre".toList := by decide +kernel
  have e2 : "<textarea".toList = '<' :: "textarea".toList := by decide +kernel
  have e3 : Char.toLower '<' = '<' := by decide +kernel
  rcases hn with rfl | rfl
  · exact .inl ⟨a, '<' :: m, b, e, by rw [e1, List.map_cons, e3, hl]⟩
  · exact .inr ⟨a, '<' :: m, b, e, by rw [e2, List.map_cons, e3, hl]⟩

/-- A listed tag begins with none of these. -/
theorem listed_head {t : List Char} (h : Listed ('<' :: t)) : ∃ c u, t = c :: u ∧ (c = '/' ∨ c = 'b' ∨ c = 'h' ∨ (c = 't' ∧ ∃ v, u = 'b' :: v)) := by
  obtain ⟨s, hs, e⟩ := h
  have key : ∀ s ∈ listed, ∃ c u, s.toList = '<' :: c :: u ∧ (c = '/' ∨ c = 'b' ∨ c = 'h' ∨ (c = 't' ∧ u.head? = some 'b')) := by
    intro s hs
    have h2 : ∀ s ∈ listed, (match s.toList with
      | a :: c :: u => a == '<' && (c == '/' || c == 'b' || c == 'h' || (c == 't' && u.head? == some 'b'))
      | _ => false) = true := by decide +kernel
    have h3 := h2 s hs
    generalize s.toList = l at h3
    match l, h3 with
    | a :: c :: u, h3 =>
      simp only [Bool.and_eq_true, Bool.or_eq_true, beq_iff_eq] at h3
      refine ⟨c, u, by rw [h3.1], ?_⟩
      rcases h3.2 with ((h | h) | h) | h
      · exact .inl h
      · exact .inr (.inl h)
      · exact .inr (.inr (.inl h))
      · exact .inr (.inr (.inr h))
  obtain ⟨c, u, e1, h1⟩ := key s hs
  rw [e1] at e
  refine ⟨c, u, (List.cons.inj e).2, ?_⟩
  rcases h1 with h | h | h | ⟨h, h'⟩
  · exact .inl h
  · exact .inr (.inl h)
  · exact .inr (.inr (.inl h))
  · refine .inr (.inr (.inr ⟨h, ?_⟩))
    cases u with
    | nil => simp at h'
    | cons d u => exact ⟨u, by simp at h'; rw [h']⟩

theorem pre_not_listed {t : List Char} (h : Pre t) : ¬ Listed ('<' :: t ++ ['>']) := by
  intro hl
  obtain ⟨n, m, u, hn, rfl, hm⟩ := h
  obtain ⟨c, v, e, hc⟩ := listed_head hl
  have e1 : "pre".toList = ['p', 'r', 'e'] := by decide +kernel
  have e2 : "textarea".toList = 't' :: 'e' :: "xtarea".toList := by decide +kernel
  have l1 : Char.toLower '/' = '/' := by decide +kernel
  have l2 : Char.toLower 'b' = 'b' := by decide +kernel
  have l3 : Char.toLower 'h' = 'h' := by decide +kernel
  have l4 : Char.toLower 't' = 't' := by decide +kernel
  match m, hm with
  | [], hm => rcases hn with rfl | rfl <;> simp at hm
  | [x], hm => rcases hn with rfl | rfl <;> simp at hm
  | x :: y :: m, hm =>
    obtain ⟨rfl, e'⟩ := List.cons.inj e
    rcases hn with rfl | rfl
    · rw [e1] at hm
      have hx : x.toLower = 'p' := (List.cons.inj hm).1
      rcases hc with rfl | rfl | rfl | ⟨rfl, -⟩
      · rw [l1] at hx; exact absurd hx (by decide)
      · rw [l2] at hx; exact absurd hx (by decide)
      · rw [l3] at hx; exact absurd hx (by decide)
      · rw [l4] at hx; exact absurd hx (by decide)
    · rw [e2] at hm
      have hx : x.toLower = 't' := (List.cons.inj hm).1
      rcases hc with rfl | rfl | rfl | ⟨rfl, w, rfl⟩
      · rw [l1] at hx; exact absurd hx (by decide)
      · rw [l2] at hx; exact absurd hx (by decide)
      · rw [l3] at hx; exact absurd hx (by decide)
      · have hy : y.toLower = 'e' := (List.cons.inj (List.cons.inj hm).2).1
        have : y = 'b' := (List.cons.inj e').1
        rw [this, l2] at hy; exact absurd hy (by decide)

theorem s_not_listed {z : List Char} : ¬ Listed ('<' :: 's' :: z) := by
  intro h
  obtain ⟨c, u, e, hc⟩ := listed_head h
  have := (List.cons.inj e).1
  subst this
  rcases hc with h | h | h | ⟨h, -⟩ <;> exact absurd h (by decide)

theorem s_not_pre {z : List Char} : ¬ Pre ('s' :: z) := by
  rintro ⟨n, m, u, hn, e, hm⟩
  have l : Char.toLower 's' = 's' := by decide +kernel
  cases m with
  | nil => rcases hn with rfl | rfl <;> simp at hm
  | cons x m =>
    have hx : x = 's' := (List.cons.inj e).1.symm
    subst hx
    rw [List.map_cons, l] at hm
    rcases hn with rfl | rfl
    · exact absurd (List.cons.inj (hm.trans (by decide +kernel : "pre".toList = 'p' :: "re".toList))).1 (by decide)
    · exact absurd (List.cons.inj (hm.trans (by decide +kernel : "textarea".toList = 't' :: "extarea".toList))).1 (by decide)

/-- What a page that is not only trimmed or only squeezed goes through, put together. -/
theorem rewritten_of {R1 R2 : List Char → List Char → Prop} {P P2 P3 P4 : List Seg}
    (h2 : Mapped (fun t t' => R1 t t' ∧ (t' = t ∨ ∃ z z', t = 's' :: z ∧ t' = 's' :: z')) (P.map decomment) P2)
    (h3 : Dropped P2 P3) (h4 : Mapped R2 P3 P4) : Rewritten (fun t t' => ∃ t1, R1 t t1 ∧ R2 t1 t') P P4 := by
  induction P generalizing P2 P3 P4 with
  | nil => cases h2; cases h3; cases h4; exact .nil
  | cons x P ih =>
    rw [List.map_cons] at h2
    cases x with
    | text t =>
      cases h2 with
      | text h2 => cases h3 with
        | text h3 => cases h4 with
          | text h4 => exact .text (ih h2 h3 h4)
    | comment b =>
      cases h2 with
      | text h2 => cases h3 with
        | text h3 => cases h4 with
          | text h4 => exact .comment (ih h2 h3 h4)
    | tag t =>
      cases h2 with
      | tag hr h2 =>
        rename_i t1 P2
        have hiff : Listed ('<' :: t1 ++ ['>']) ↔ Listed ('<' :: t ++ ['>']) := by
          rcases hr.2 with rfl | ⟨z, z', rfl, rfl⟩
          · exact Iff.rfl
          · exact ⟨fun h => absurd h s_not_listed, fun h => absurd h s_not_listed⟩
        cases h3 with
        | drop hl h3 => exact .drop (hiff.1 hl) (ih h2 h3 h4)
        | tag hl h3 => cases h4 with
          | tag hr2 h4 => exact .tag (fun h => hl (hiff.2 h)) ⟨t1, hr.1, hr2⟩ (ih h2 h3 h4)

theorem pre_kept {R1 : List Char → List Char → Prop} {P P2 P3 : List Seg}
    (h2 : Mapped (fun t t' => R1 t t' ∧ (t' = t ∨ ∃ z z', t = 's' :: z ∧ t' = 's' :: z')) P P2)
    (h3 : Dropped P2 P3) {t : List Char} (ht : Pre t) (hm : Seg.tag t ∈ P) : Seg.tag t ∈ P3 := by
  induction P generalizing P2 P3 with
  | nil => simp at hm
  | cons x P ih =>
    cases h2 with
    | text h2 => cases h3 with
      | text h3 =>
        rcases List.mem_cons.1 hm with h | h
        · simp at h
        · exact List.mem_cons_of_mem _ (ih h2 h3 h)
    | tag hr h2 =>
      rename_i t0 t1 P2
      rcases List.mem_cons.1 hm with h | h
      · obtain rfl : t = t0 := by injection h
        have e : t1 = t := by
          rcases hr.2 with h | ⟨z, z', rfl, -⟩
          · exact h
          · exact absurd ht s_not_pre
        subst e
        cases h3 with
        | drop hl _ => exact absurd hl (pre_not_listed ht)
        | tag _ h3 => exact List.mem_cons_self ..
      · cases h3 with
        | drop hl h3 => exact ih h2 h3 h
        | tag _ h3 => exact List.mem_cons_of_mem _ (ih h2 h3 h)

theorem plain_of_page {P : List Seg} (hP : Page P) : ∀ x ∈ P.map decomment, Seg.Plain x := by
  induction hP with
  | nil => intro x hx; cases hx
  | @seg y P hy _ _ ih =>
    intro x hx
    rcases List.mem_cons.1 hx with rfl | hx
    · cases y with
      | text t => exact hy
      | tag t => exact ⟨hy.1, hy.2.1, hy.2.2.1⟩
      | comment b => exact .of (by simp : '<' ∉ [' '])
    · exact ih x hx
  | @block C P hC _ ih =>
    intro x hx
    rw [List.map_append] at hx
    rcases List.mem_append.1 hx with hx | hx
    · obtain ⟨y, hy, rfl⟩ := List.mem_map.1 hx
      have := hC.1 y hy
      cases y with
      | text t => exact this
      | tag t => exact this
      | comment b => exact absurd this id
    · exact ih x hx

/-- A page with preformatted text. -/
theorem minify_pre {T : Tables} (hT : T.Ok) {P : List Seg} (hP : Page P)
    {p : List Char} (hp : Pre p) (hm : Seg.tag p ∈ P) :
    ∃ Q, minify T (render P) = some (trim (render Q)) ∧ (∀ x ∈ Q, Seg.Plain x) ∧
      Rewritten (fun t t' => ∃ t1, condTag T t = '<' :: (t1 ++ ['>']) ∧ tagOut T t1 = some ('<' :: (t' ++ ['>']))) P Q := by
  obtain ⟨P2, e2, q2, m2⟩ := condense_page hT (plain_of_page hP)
  obtain ⟨P3, e3, q3, m3⟩ := clean_page q2
  obtain ⟨P4, e4, q4, m4⟩ := unquote_page hT q3
  have hm1 : Seg.tag p ∈ P.map decomment := List.mem_map.2 ⟨_, hm, rfl⟩
  have hm3 := pre_kept m2 m3 hp hm1
  refine ⟨P4, ?_, q4, rewritten_of m2 m3 m4⟩
  rw [minify, removeComments_page hP, e2, e3, (condenseWhitespace_spec hT _).1 (pre_mentions hp hm3), unquote_trim hT,
    unquoteAttributes, e4]
  show some (trim (trim _)) = _
  rw [trim_trim]

/-! ## As a browser reads it -/

theorem tag_kept {T : Tables} (hT : T.Ok) {t t1 t' : List Char} (h1 : '<' ∉ t) (h2 : '>' ∉ t) (hk : Kept t)
    (hc : condTag T t = '<' :: (t1 ++ ['>'])) (ho : tagOut T t1 = some ('<' :: (t' ++ ['>']))) : ReadsAs t t' := by
  have hk1 : Tame Reader.init ('<' :: (t ++ ['>'])) := hk.1
  obtain ⟨y, g1, g2, -⟩ := condTag_shape hT h1 h2
  rw [hc] at g1
  have hy : t1 = y := List.append_inj_left' (List.cons.inj g1).2 rfl
  subst hy
  have n1 : '<' ∉ t1 := fun h => h1 (g2.subset h)
  have n2 : '>' ∉ t1 := fun h => h2 (g2.subset h)
  rcases condTag_cases hT h1 h2 with h | ⟨hs, h⟩
  · rw [hc] at h
    have : t1 = t := List.append_inj_left' (List.cons.inj h).2 rfl
    subst this
    have e := tagOut_read hT h1 h2 hk1 ho
    refine ⟨fun _ => e, fun n as b hr => ⟨as, b, ?_, .refl as⟩⟩
    show readTag ('<' :: (t' ++ ['>'])) = _
    rw [e]; exact hr
  · refine ⟨fun hn => absurd hs hn, ?_⟩
    intro n as b hr
    have hsafe : TypeSafe Reader.init ('<' :: (t ++ ['>'])) := hk.2 hs
    obtain ⟨bs, b', k1, k2⟩ := condense_read hT hk1 hsafe hr
    have k3 := (condense_tame hT _ Reader.init Reader.init ⟨rfl, .inl ⟨rfl, .nil⟩⟩ hk1 hsafe).1
    rw [← h, hc] at k1 k3
    have e := tagOut_read hT n1 n2 k3 ho
    refine ⟨bs, b', ?_, k2⟩
    show readTag ('<' :: (t' ++ ['>'])) = _
    rw [e]; exact k1

theorem rewritten_mono {R S : List Char → List Char → Prop} {P Q : List Seg} (h : Rewritten R P Q)
    (hRS : ∀ t t', Seg.tag t ∈ P → R t t' → S t t') : Rewritten S P Q := by
  induction h with
  | nil => exact .nil
  | text _ ih => exact .text (ih fun t t' hm => hRS t t' (List.mem_cons_of_mem _ hm))
  | comment _ ih => exact .comment (ih fun t t' hm => hRS t t' (List.mem_cons_of_mem _ hm))
  | drop hl _ ih => exact .drop hl (ih fun t t' hm => hRS t t' (List.mem_cons_of_mem _ hm))
  | tag hl hr _ ih =>
    exact .tag hl (hRS _ _ (List.mem_cons_self ..) hr) (ih fun t t' hm => hRS t t' (List.mem_cons_of_mem _ hm))

theorem rewritten_shown {R : List Char → List Char → Prop} {P Q : List Seg} (h : Rewritten R P Q) : outside Q = shown P := by
  induction h with
  | nil => rfl
  | text _ ih => simp only [outside, shown, List.flatMap_cons] at ih ⊢; rw [ih]
  | comment _ ih => simp only [outside, shown, List.flatMap_cons] at ih ⊢; rw [ih]
  | drop _ _ ih => simp only [outside, shown, List.flatMap_cons] at ih ⊢; rw [ih]; rfl
  | tag _ _ _ ih => simp only [outside, shown, List.flatMap_cons] at ih ⊢; rw [ih]

theorem bare_text {a : List Char} (h : Tagless a) (s : List Char) : bare false (a ++ s) = a ++ bare false s := by
  induction a with
  | nil => rfl
  | cons c a ih =>
    have hn : ¬ (c = '<' ∧ stray (a ++ s) = false) := by
      rintro ⟨rfl, h2⟩
      rw [stray_append h.head] at h2; exact absurd h2 (by decide)
    rw [List.cons_append, bare, if_neg hn, ih h.tail]; rfl

theorem bare_in {a : List Char} (h : '>' ∉ a) (s : List Char) : bare true (a ++ '>' :: s) = bare false s := by
  induction a with
  | nil => rw [List.nil_append, bare, if_pos rfl]
  | cons c a ih =>
    simp only [List.mem_cons, not_or] at h
    rw [List.cons_append, bare, if_neg (Ne.symm h.1), ih h.2]

theorem bare_page {Q : List Seg} (hQ : ∀ x ∈ Q, Seg.Plain x) (b : List Char) (hb : '<' ∉ b) :
    bare false (render Q ++ b) = outside Q ++ b := by
  induction Q with
  | nil =>
    have := bare_text (.of hb) []
    rw [List.append_nil] at this
    show bare false b = b
    rw [this, bare, List.append_nil]
  | cons x Q ih =>
    have ih := ih (fun x hx => hQ x (by simp [hx]))
    have hx := hQ x (by simp)
    rw [render_cons, List.append_assoc]
    cases x with
    | text t =>
      show bare false (t ++ _) = t ++ outside Q ++ b
      rw [bare_text hx, ih, List.append_assoc]
    | tag t =>
      have e : Seg.show (.tag t) ++ (render Q ++ b) = '<' :: (t ++ '>' :: (render Q ++ b)) := by simp [Seg.show]
      rw [e, bare, if_pos ⟨rfl, stray_sharp hx.1 hx.2.2 _⟩, bare_in hx.2.1, ih]; rfl
    | comment c => exact absurd hx id

/-- Something follows every `<`. -/
theorem plain_last {Q : List Seg} (hQ : ∀ x ∈ Q, Seg.Plain x) (a b : List Char) (hb : ∀ c ∈ b, isWhitespace c = true) :
    render Q ≠ a ++ '<' :: b := by
  induction Q generalizing a with
  | nil => intro e; simp [render] at e
  | cons x Q ih =>
    have ih := ih (fun x hx => hQ x (by simp [hx]))
    have hx := hQ x (by simp)
    rw [render_cons]
    have cut : ∀ (t a : List Char), t ++ render Q = a ++ '<' :: b → (∃ u, t = a ++ '<' :: u ∧ b = u ++ render Q) ∨
        ∃ u, render Q = u ++ '<' :: b := by
      intro t
      induction t with
      | nil => intro a e; exact .inr ⟨a, e⟩
      | cons c t iht =>
        intro a e
        cases a with
        | nil =>
          obtain ⟨rfl, e2⟩ := List.cons.inj e
          exact .inl ⟨t, rfl, e2.symm⟩
        | cons d a =>
          rcases iht a (List.cons.inj e).2 with ⟨u, h1, h2⟩ | h
          · exact .inl ⟨u, by rw [(List.cons.inj e).1, h1]; rfl, h2⟩
          · exact .inr h
    intro e
    cases x with
    | text t =>
      rcases cut t a e with ⟨u, h1, h2⟩ | ⟨u, h⟩
      · obtain ⟨-, c, h3, h4⟩ := hx a u h1
        have := hb c (by rw [h2]; simp [h3])
        rw [h4] at this; exact absurd this (by decide)
      · exact ih u h
    | tag t =>
      have e : '<' :: (t ++ ['>']) ++ render Q = a ++ '<' :: b := e
      rcases cut _ a e with ⟨u, h1, h2⟩ | ⟨u, h⟩
      · cases a with
        | nil =>
          have h1 : t ++ ['>'] = u := (List.cons.inj h1).2
          have := hb '>' (by rw [h2, ← h1]; simp)
          rw [ws_gt] at this; exact absurd this (by decide)
        | cons d a =>
          have : '<' ∈ t ++ ['>'] := by rw [(List.cons.inj h1).2]; simp
          rcases List.mem_append.1 this with h | h
          · exact hx.1 h
          · simp at h
      · exact ih u h
    | comment c => exact absurd hx id

/-- White space after a text makes no difference for a `<`, unless it is the last character. -/
theorem stray_right {s b : List Char} (h : ∀ p, '<' :: s ≠ p ++ ['<']) : stray (s ++ b) = stray s := by
  induction s with
  | nil => exact absurd rfl (h [])
  | cons c s ih =>
    rw [List.cons_append, stray, stray]
    by_cases hc : c = '<'
    · rw [if_pos hc, if_pos hc]
      refine ih ?_
      intro p e
      subst hc
      exact h ('<' :: p) (by rw [e]; rfl)
    · rw [if_neg hc, if_neg hc]

/-- Trimming the page trims its text. -/
theorem bare_trim {Q : List Seg} (hQ : ∀ x ∈ Q, Seg.Plain x) : trim (bare false (trim (render Q))) = trim (outside Q) := by
  obtain ⟨a, b, h1, h2, h3, -⟩ := trim_spec (render Q)
  have key : ∀ (s b : List Char), (∀ c ∈ b, space c = true) → (∀ p, s ≠ p ++ ['<']) → ∀ x, ∃ b', (∀ c ∈ b', space c = true) ∧
      bare x (s ++ b) = bare x s ++ b' := by
    intro s b hb hs
    induction s with
    | nil =>
      intro x
      cases x with
      | false =>
        refine ⟨b, hb, ?_⟩
        have alt : '<' ∉ b := by
          intro hc; have := hb _ hc; rw [show space '<' = false from ws_lt] at this; exact absurd this (by decide)
        have := bare_text (.of alt) []
        rw [List.append_nil] at this
        rw [List.nil_append, this]; simp [bare]
      | true =>
        refine ⟨[], by simp, ?_⟩
        rw [List.nil_append, bare]
        have agt : '>' ∉ b := by
          intro hc; have := hb _ hc; rw [show space '>' = false from ws_gt] at this; exact absurd this (by decide)
        clear hb h3 h1
        induction b with
        | nil => rfl
        | cons c b ih =>
          simp only [List.mem_cons, not_or] at agt
          rw [bare, if_neg (Ne.symm agt.1)]; exact ih agt.2
    | cons c s ih =>
      have ih := ih (fun p e => hs (c :: p) (by rw [e]; rfl))
      intro x
      cases x with
      | false =>
        by_cases hc : c = '<' ∧ stray s = false
        · have hc2 : c = '<' ∧ stray (s ++ b) = false := by
            refine ⟨hc.1, ?_⟩
            rw [stray_right (fun p e => hs p (by rw [hc.1]; exact e))]; exact hc.2
          obtain ⟨b', g1, g2⟩ := ih true
          exact ⟨b', g1, by rw [List.cons_append, bare, if_pos hc2, g2, bare, if_pos hc]⟩
        · have hc2 : ¬ (c = '<' ∧ stray (s ++ b) = false) := by
            rintro ⟨k1, k2⟩
            rw [stray_right (fun p e => hs p (by rw [k1]; exact e))] at k2
            exact hc ⟨k1, k2⟩
          obtain ⟨b', g1, g2⟩ := ih false
          exact ⟨b', g1, by rw [List.cons_append, bare, if_neg hc2, g2, bare, if_neg hc]; rfl⟩
      | true =>
        by_cases hc : c = '>'
        · obtain ⟨b', g1, g2⟩ := ih false
          exact ⟨b', g1, by rw [List.cons_append, bare, if_pos hc, g2, bare, if_pos hc]⟩
        · obtain ⟨b', g1, g2⟩ := ih true
          exact ⟨b', g1, by rw [List.cons_append, bare, if_neg hc, g2, bare, if_neg hc]⟩
  have e := bare_page hQ [] (by simp)
  rw [List.append_nil, List.append_nil] at e
  have alt : '<' ∉ a := by
    intro hc; have := h2 _ hc; rw [show space '<' = false from ws_lt] at this; exact absurd this (by decide)
  obtain ⟨b', g1, g2⟩ := key (trim (render Q)) b h3 (by
    intro p hp
    refine plain_last hQ (a ++ p) b h3 ?_
    conv => lhs; rw [h1]
    rw [hp]; simp) false
  rw [← e]
  conv => rhs; rw [h1, List.append_assoc, bare_text (.of alt), g2, ← List.append_assoc, trim_pad h2 g1]

end Verif.Html
