import Verif.Proofs.HtmlExact
/-!
# A whole page with preformatted text
-/
set_option linter.unusedSimpArgs false
namespace Verif.Html
open Verif.Spec.Html

/-- A tag with a line break stays. -/
theorem tagOut_line {T : Tables} (hT : T.Ok) {t : List Char} (h1 : '<' ∉ t) (h2 : '>' ∉ t) (hn : '\n' ∈ t) :
    tagOut T t = some ('<' :: (t ++ ['>'])) := by
  have n : Tagless (t ++ ['>']) := .of (by simp [h1])
  rcases (anyTag_taglike hT).tag t h2 with hh | hh
  · exfalso
    obtain ⟨b, bb, f1, f2, -⟩ := hh []
    have hl := (ends_sound (h := b) (by rw [f1]; simp)).2
    rw [f2] at hl
    obtain ⟨u, v, e, g1, x, y, rfl, ⟨c, rfl, hc⟩, z, w, rfl, hz, hw⟩ := hl
    rw [lang_c.1 g1, lang_c.1 hw] at e
    have e : t ++ ['>'] = (c :: z) ++ ['>'] := by rw [(List.cons.inj e).2]; simp
    have e := List.append_inj_left' e rfl
    rw [e] at hn
    rcases List.mem_cons.1 hn with hn | hn
    · subst hn
      rw [hT.word_ascii _ (by decide)] at hc
      exact absurd hc (by decide)
    · have := hz _ hn
      simp [notNl] at this
  · rw [tagOut, replaceAllM_miss _ (hh [])]
    have := replaceAllM_text (anyTag_taglike hT) (fun x => tidyTag T x.text) n []
    rw [List.append_nil] at this
    rw [this, replaceAllM_nil]
    simp

theorem cond_apart {T : Tables} (hT : T.Ok) {t t1 : List Char} (h1 : '<' ∉ t) (h2 : '>' ∉ t) (ha : Apart t)
    (h : condTag T t = '<' :: (t1 ++ ['>'])) : Apart t1 ∧ '<' ∉ t1 ∧ '>' ∉ t1 := by
  rcases condTag_exact hT h1 h2 with ⟨-, k2⟩ | ⟨-, k2⟩
  · have ap : Apart ('<' :: (t ++ ['>'])) := by
      refine apart_cons (apart_join (b := []) ws_gt ha apart_nil) ?_
      rintro d - ⟨h, -⟩; rw [ws_lt] at h; cases h
    have := apart_untype (T := T) ap
    rw [← k2, h] at this
    refine ⟨apart_infix (a := ['<']) (b := ['>']) (by simpa using this), ?_⟩
    obtain ⟨y, hy, hs, -⟩ := condTag_shape hT h1 h2
    rw [h] at hy
    rw [List.append_inj_left' (List.cons.inj hy).2 rfl]
    exact ⟨fun h => h1 (hs.subset h), fun h => h2 (hs.subset h)⟩
  · rw [h] at k2
    rw [List.append_inj_left' (List.cons.inj k2).2 rfl]
    exact ⟨ha, h1, h2⟩

theorem minify_brushed {T : Tables} (hT : T.Ok) {P : List Seg} (hP : Page P) {p : List Char} (hp : Pre p) (hm : Seg.tag p ∈ P)
    (ha : ∀ t, Seg.tag t ∈ P → Apart t) :
    ∃ Q, minify T (render P) = some (trim (render Q)) ∧ Rewritten (Brushed T.word) P Q := by
  obtain ⟨Q, h1, -, h3⟩ := minify_pre hT hP hp hm
  refine ⟨Q, h1, rewritten_mono h3 ?_⟩
  rintro t t' ht ⟨t1, k1, k2⟩
  have hok := page_tag hP ht
  obtain ⟨a1, x4, x5⟩ := cond_apart hT hok.1 hok.2.1 (ha t ht) k1
  refine ⟨t1, cond_cleaned hT hok.1 hok.2.1 k1, ?_, ?_⟩
  · rintro ⟨h, g1, g2⟩ hn
    rw [tidy_out hT (.refl t1) a1 hn x4 x5 g1 g2] at k2
    rw [List.cons_append, ← Option.some.inj k2]
    exact quotes_unquotes _
  · rintro (hn | hn)
    · rw [tagOut_notStart hT x4 hn] at k2
      exact (List.append_inj_left' (List.cons.inj (Option.some.inj k2)).2 rfl).symm
    · rw [tagOut_line hT x4 x5 hn] at k2
      exact (List.append_inj_left' (List.cons.inj (Option.some.inj k2)).2 rfl).symm

theorem brushed_det {T : Tables} (hT : T.Ok) {t o o' : List Char} (hu : (∃ h, t.head? = some h ∧ T.word h = true) ∨ NotStart t)
    (h : Brushed T.word t o) (h' : Brushed T.word t o') : o = o' := by
  have fin : ∀ t1 : List Char, ((∃ h, t1.head? = some h ∧ T.word h = true) ∨ NotStart t1) →
      ((∃ h, t1.head? = some h ∧ T.word h = true) → '\n' ∉ t1 → Unquotes (snug ('<' :: t1) ++ ['>']) ('<' :: o ++ ['>'])) →
      (NotStart t1 ∨ '\n' ∈ t1 → o = t1) →
      ((∃ h, t1.head? = some h ∧ T.word h = true) → '\n' ∉ t1 → Unquotes (snug ('<' :: t1) ++ ['>']) ('<' :: o' ++ ['>'])) →
      (NotStart t1 ∨ '\n' ∈ t1 → o' = t1) → o = o' := by
    intro t1 hu a1 a2 b1 b2
    by_cases hn : NotStart t1 ∨ '\n' ∈ t1
    · rw [a2 hn, b2 hn]
    · have hs := hu.resolve_right fun h => hn (.inl h)
      have hl : '\n' ∉ t1 := fun h => hn (.inr h)
      exact List.append_inj_left' (List.cons.inj (unquotes_det (a1 hs hl) (b1 hs hl))).2 rfl
  obtain ⟨t1, h1, h2, h3⟩ := h
  obtain ⟨t1', h1', h2', h3'⟩ := h'
  rcases h1 with ⟨k1, k2⟩ | ⟨k1, rfl⟩
  · rcases h1' with ⟨-, k2'⟩ | ⟨k1', -⟩
    · have e : t1 = t1' := List.append_inj_left' (List.cons.inj (untypes_det k2 k2')).2 rfl
      subst e
      refine fin t1 (.inl ⟨'s', style_head k1 k2, by rw [hT.word_ascii _ (by decide)]; decide⟩) h2 h3 h2' h3'
    · exact absurd k1 k1'
  · rcases h1' with ⟨k1', -⟩ | ⟨-, rfl⟩
    · exact absurd k1' k1
    · exact fin _ hu h2 h3 h2' h3'

theorem rewritten_same {R : List Char → List Char → Prop} {P Q Q' : List Seg} (hR : ∀ t y y', Seg.tag t ∈ P → R t y → R t y' → y = y')
    (h : Rewritten R P Q) (h' : Rewritten R P Q') : Q = Q' := by
  induction h generalizing Q' with
  | nil => cases h'; rfl
  | text _ ih => cases h' with
    | text h' => rw [ih (fun t y y' hm => hR t y y' (List.mem_cons_of_mem _ hm)) h']
  | comment _ ih => cases h' with
    | comment h' => rw [ih (fun t y y' hm => hR t y y' (List.mem_cons_of_mem _ hm)) h']
  | drop hl _ ih => cases h' with
    | drop _ h' => exact ih (fun t y y' hm => hR t y y' (List.mem_cons_of_mem _ hm)) h'
    | tag hn _ _ => exact absurd hl hn
  | tag hn e _ ih => cases h' with
    | drop hl _ => exact absurd hl hn
    | tag _ e' h' =>
      rw [ih (fun t y y' hm => hR t y y' (List.mem_cons_of_mem _ hm)) h', hR _ _ _ (List.mem_cons_self ..) e e']

end Verif.Html
