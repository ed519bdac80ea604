import Verif.Proofs.HtmlUntype
/-!
# A page of settled tags, a second time
-/
set_option linter.unusedSimpArgs false
namespace Verif.Html
open Verif.Spec.Html

/-! ## `condense` on one tag -/

/-- What the expression for `style` and `script` tags takes. -/
def Headed (T : Tables) (t : List Char) : Prop :=
  ∃ w c u, (w = "style".toList ∨ w = "script".toList) ∧ t = w ++ c :: u ∧ wordBarSpace T c = true ∧ '\n' ∉ u

theorem condTag_exact {T : Tables} (hT : T.Ok) {t : List Char} (h1 : '<' ∉ t) (h2 : '>' ∉ t) :
    (Headed T t ∧ condTag T t = untype T ('<' :: (t ++ ['>']))) ∨ (¬ Headed T t ∧ condTag T t = '<' :: (t ++ ['>'])) := by
  have head : Headed T t → lang (styleTag T) ('<' :: (t ++ ['>'])) := by
    rintro ⟨w, c, u, hw, rfl, hc, hu⟩
    refine ⟨['<'], _, rfl, lang_c.2 rfl, w, c :: (u ++ ['>']), by simp, ?_, [c], u ++ ['>'], rfl, ⟨c, rfl, hc⟩, u, ['>'], rfl, ?_,
      lang_c.2 rfl⟩
    · rcases hw with rfl | rfl
      · exact .inl ((lang_str (by simp)).2 rfl)
      · exact .inr ((lang_str (by simp)).2 rfl)
    · intro x hx
      simp only [notNl, bne_iff_ne]
      rintro rfl
      exact hu hx
  rw [condTag, condense_eq]
  rcases (styleTag_taglike hT).tag t h2 with hh | hh
  · left
    obtain ⟨b, bb, f1, f2, f3⟩ := hh []
    rw [replaceAll_hit (solid_styleTag T) _ f1, f2, f3, replaceAll_nil, List.append_nil]
    refine ⟨?_, rfl⟩
    have hl := (ends_sound (h := b) (by rw [f1]; simp)).2
    rw [f2] at hl
    obtain ⟨u, v, e, g1, g2⟩ := hl
    rw [lang_c.1 g1] at e
    obtain ⟨a, b, rfl, g3, ⟨x, y, rfl, ⟨c, rfl, hc⟩, g4⟩⟩ := g2
    obtain ⟨z, rfl, hz⟩ := lang_upToGt (show lang upToGt y from g4)
    have e : t ++ ['>'] = (a ++ c :: z) ++ ['>'] := by rw [(List.cons.inj e).2]; simp
    have e := List.append_inj_left' e rfl
    refine ⟨a, c, z, ?_, e, hc, hz⟩
    rcases g3 with g3 | g3
    · exact .inl ((lang_str (by simp)).1 g3)
    · exact .inr ((lang_str (by simp)).1 g3)
  · right
    refine ⟨fun h => ends_nil.1 (hh []) ('<' :: (t ++ ['>'])) [] (by simp) (head h), ?_⟩
    have n : Tagless (t ++ ['>']) := .of (by simp [h1])
    rw [replaceAll_miss _ (hh [])]
    have := replaceAll_text (styleTag_taglike hT) (fun x => replaceAll (typeAttr T) (fun _ => []) x.text) n []
    rw [List.append_nil] at this
    rw [this, replaceAll_nil, List.append_nil]

theorem notype_lt {T : Tables} {s : List Char} : NoType T ('<' :: s) ↔ NoType T s := by
  constructor
  · intro h a c v e
    exact h ('<' :: a) c v (by rw [e]; rfl)
  · intro h a c v e
    cases a with
    | nil => rw [type_chars] at e; exact absurd (List.cons.inj e).1 (by decide)
    | cons d a => exact h a c v (List.cons.inj e).2

/-! ## From the source of a tag to its end -/

/-- The steps that a tag takes after `condense`. -/
structure Steps (t1 t2 z t' : List Char) : Prop where
  soft : Soft t1 t2
  shut : Shut t2 z
  unq : Unq (z ++ ['>']) (t' ++ ['>'])
  gt : '>' ∉ z
  gt' : '>' ∉ t'

theorem shut_prefix {t z : List Char} (h : Shut t z) : ∃ w, t = z ++ w := by
  rcases h with rfl | ⟨q, a, w, -, rfl, -, -, rfl⟩
  · exact ⟨[], by simp⟩
  · exact ⟨w, by simp⟩

theorem steps_prefix {t1 t2 z t' p u : List Char} {c : Char} (h : Steps t1 t2 z t')
    (hp : ∀ c ∈ p, c ≠ 'w' ∧ c ≠ 'h' ∧ c ≠ '>' ∧ isWhitespace c = false) (hc : c ≠ '>') (e : t' = p ++ c :: u) :
    ∃ d u', t1 = p ++ d :: u' ∧ (d = c ∨ c = ' ' ∧ isWhitespace d = true) := by
  have h1 := h.unq
  rw [e, List.append_assoc] at h1
  obtain ⟨u1, e1, h2⟩ := unq_prefix (fun c hc => ⟨(hp c hc).1, (hp c hc).2.1⟩) h1
  obtain ⟨s', rfl, -⟩ := unq_cons h2
  have : ∃ z', z = p ++ c :: z' := by
    obtain ⟨z', g1, -⟩ := prefix_tag (w := p ++ [c]) (t := z) (rest := []) (u := s') (by
      intro hm
      rcases List.mem_append.1 hm with hm | hm
      · exact (hp _ hm).2.2.1 rfl
      · exact hc (List.mem_singleton.1 hm).symm) (by rw [e1]; simp)
    exact ⟨z', by rw [g1]; simp⟩
  obtain ⟨z', rfl⟩ := this
  obtain ⟨w, rfl⟩ := shut_prefix h.shut
  have h3 := h.soft
  rw [List.append_assoc] at h3
  obtain ⟨u', rfl, h4⟩ := soft_prefix h3 fun c hc => (hp c hc).2.2.2
  obtain ⟨d, v, rfl, h5, -⟩ := soft_cons h4
  exact ⟨d, v, rfl, h5⟩

theorem steps_notype {T : Tables} {t1 t2 z t' : List Char} (h : Steps t1 t2 z t') (hn : NoType T t1) : NoType T t' := by
  have h1 := notype_soft hn h.soft
  obtain ⟨w, rfl⟩ := shut_prefix h.shut
  exact notype_prefix (notype_unq (notype_gt (notype_prefix h1)) h.unq)

theorem steps_mem {t1 t2 z t' : List Char} (h : Steps t1 t2 z t') {c : Char} (hc : c ∈ t') : c ∈ t2 := by
  have := unq_mem h.unq (List.mem_append_left ['>'] hc)
  rcases List.mem_append.1 this with hm | hm
  · obtain ⟨w, rfl⟩ := shut_prefix h.shut
    exact List.mem_append_left _ hm
  · rw [List.mem_singleton.1 hm] at hc
    exact absurd hc h.gt'

/-- A tag without attributes has not changed. -/
theorem steps_same {t1 t2 z t' : List Char} (h : Steps t1 t2 z t')
    (ht : ∀ c ∈ t', c ≠ '=' ∧ c ≠ '"' ∧ c ≠ '\'' ∧ isWhitespace c = false) : t1 = t' := by
  have e := unq_same h.unq (by
    intro hc
    rcases List.mem_append.1 hc with hc | hc
    · exact (ht _ hc).1 rfl
    · exact absurd (List.mem_singleton.1 hc) (by decide))
  have e := List.append_inj_left' e rfl
  subst e
  rcases h.shut with rfl | ⟨q, a, w, hq, -, -, -, rfl⟩
  · exact soft_solid h.soft fun c hc => (ht c hc).2.2.2
  · have := ht q (by simp)
    rcases hq with rfl | rfl
    · exact absurd rfl this.2.1
    · exact absurd rfl this.2.2.1

theorem steps_forward {t1 t2 z t' p u : List Char} (h : Steps t1 t2 z t')
    (hp : ∀ c ∈ p, c ≠ 'w' ∧ c ≠ 'h' ∧ c ≠ '>' ∧ c ≠ '"' ∧ c ≠ '\'') (e : t2 = p ++ u) : ∃ u', t' = p ++ u' := by
  have : ∃ z', z = p ++ z' := by
    rcases h.shut with rfl | ⟨q, a, w, hq, e2, -, -, rfl⟩
    · exact ⟨u, e⟩
    · rw [e2] at e
      rcases List.append_eq_append_iff.1 e with ⟨x, g1, g2⟩ | ⟨x, g1, g2⟩
      · cases x with
        | nil => rw [List.append_nil] at g1; exact ⟨[q], by rw [g1]⟩
        | cons y x =>
          have := hp q (by rw [g1, (List.cons.inj g2).1]; simp)
          rcases hq with rfl | rfl
          · exact absurd rfl this.2.2.2.1
          · exact absurd rfl this.2.2.2.2
      · exact ⟨x ++ [q], by rw [g1]; simp⟩
  obtain ⟨z', rfl⟩ := this
  have h1 := h.unq
  rw [List.append_assoc] at h1
  obtain ⟨v, e1, -⟩ := unq_forward (fun c hc => ⟨(hp c hc).1, (hp c hc).2.1⟩) h1
  obtain ⟨v', g, -⟩ := prefix_tag (w := p) (t := t') (rest := []) (u := v) (fun hm => (hp _ hm).2.2.1 rfl) e1
  exact ⟨v', g⟩

theorem Unq.refl (s : List Char) : Unq s s := by
  induction s with
  | nil => exact .nil
  | cons c s ih => exact .char c ih

theorem listed_chars {t : List Char} (h : Listed ('<' :: t ++ ['>'])) :
    ∀ c ∈ t, c ≠ '=' ∧ c ≠ '"' ∧ c ≠ '\'' ∧ isWhitespace c = false := by
  obtain ⟨s, hs, e⟩ := h
  have key : ∀ s ∈ listed, ∀ c ∈ s.toList, c ≠ '=' ∧ c ≠ '"' ∧ c ≠ '\'' ∧ isWhitespace c = false := by decide +kernel
  intro c hc
  refine key s hs c ?_
  rw [← e]; simp [hc]

theorem pre_chars {m n : List Char} (hn : n = "pre".toList ∨ n = "textarea".toList) (hm : m.map Char.toLower = n) :
    ∀ c ∈ m, c ≠ 'w' ∧ c ≠ 'h' ∧ c ≠ '>' ∧ c ≠ '"' ∧ c ≠ '\'' := by
  intro c hc
  have h : c.toLower ∈ n := by rw [← hm]; exact List.mem_map_of_mem hc
  have bad : ∀ d : Char, d.toLower ∉ "pre".toList → d.toLower ∉ "textarea".toList → c ≠ d := by
    rintro d h1 h2 rfl
    rcases hn with rfl | rfl
    · exact h1 h
    · exact h2 h
  exact ⟨bad _ (by decide +kernel) (by decide +kernel), bad _ (by decide +kernel) (by decide +kernel),
    bad _ (by decide +kernel) (by decide +kernel), bad _ (by decide +kernel) (by decide +kernel),
    bad _ (by decide +kernel) (by decide +kernel)⟩

/-- The beginning of a conditional comment stays one. -/
theorem soft_opens {p w v o : List Char} (hp : ∀ c ∈ p, isWhitespace c = false) (hw : ∀ c ∈ w, isWhitespace c = true)
    (h : Soft (p ++ (w ++ '[' :: v)) o) : ∃ w' v', o = p ++ (w' ++ '[' :: v') ∧ ∀ c ∈ w', isWhitespace c = true := by
  have first : ∀ {c : Char} {s o : List Char}, isWhitespace c = false → Soft (c :: s) o → ∃ o', o = c :: o' ∧ Soft s o' := by
    intro c s o hc h
    generalize hs : c :: s = s' at h
    cases h with
    | nil => cases hs
    | char d h => obtain ⟨rfl, rfl⟩ := List.cons.inj hs; exact ⟨_, rfl, h⟩
    | @gap x s1 o1 h1 h2 h3 =>
      cases x with
      | nil => exact absurd rfl h1
      | cons d x =>
        have := h2 d (by simp)
        rw [← (List.cons.inj hs).1, hc] at this
        cases this
  induction p generalizing o with
  | cons c p ih =>
    obtain ⟨o', rfl, h'⟩ := first (hp c (by simp)) h
    obtain ⟨w', v', rfl, h2⟩ := ih (fun c hc => hp c (by simp [hc])) h'
    exact ⟨w', v', rfl, h2⟩
  | nil =>
    rw [List.nil_append] at h
    generalize hs : w ++ '[' :: v = s at h
    induction h generalizing w with
    | nil => simp at hs
    | @char s1 o1 c h ih =>
      cases w with
      | nil =>
        obtain ⟨e1, e2⟩ := List.cons.inj hs
        exact ⟨[], o1, by rw [← e1]; rfl, by simp⟩
      | cons d w =>
        obtain ⟨e1, e2⟩ := List.cons.inj hs
        obtain ⟨w', v', g1, g2⟩ := ih (fun c hc => hw c (by simp [hc])) e2
        rw [List.nil_append] at g1
        refine ⟨c :: w', v', by rw [g1]; rfl, ?_⟩
        intro x hx
        rcases List.mem_cons.1 hx with rfl | hx
        · rw [← e1]; exact hw d (by simp)
        · exact g2 x hx
    | @gap x s1 o1 h1 h2 h3 ih =>
      have : ∃ w2, w = x ++ w2 ∧ s1 = w2 ++ '[' :: v := by
        rcases List.append_eq_append_iff.1 hs with ⟨z, e1, e2⟩ | ⟨z, e1, e2⟩
        · cases z with
          | nil => exact ⟨[], by simpa using e1.symm, by simpa using e2.symm⟩
          | cons d z =>
            have := h2 d (by rw [e1]; simp)
            rw [← (List.cons.inj e2).1] at this
            exact absurd this (by decide +kernel)
        · exact ⟨z, e1, e2⟩
      obtain ⟨w2, rfl, rfl⟩ := this
      obtain ⟨w', v', g1, g2⟩ := ih (fun c hc => hw c (by simp [hc])) rfl
      rw [List.nil_append] at g1
      refine ⟨' ' :: w', v', by rw [g1]; rfl, ?_⟩
      intro x hx
      rcases List.mem_cons.1 hx with rfl | hx
      · decide +kernel
      · exact g2 x hx

/-- What a second run needs to know of a tag. -/
structure Still (T : Tables) (t : List Char) : Prop where
  lt : '<' ∉ t
  gt : '>' ∉ t
  sharp : Sharp t
  dash : Opens t
  cond : condTag T t = '<' :: (t ++ ['>'])
  out : tagOut T t = some ('<' :: (t ++ ['>']))
  kept : ¬ Listed ('<' :: t ++ ['>'])

theorem tag_still {T : Tables} (hT : T.Ok) {t t1 t2 t' : List Char} (k1 : '<' ∉ t) (k2 : '>' ∉ t) (k4 : Sharp t) (k3 : Opens t) (hs : Settled t)
    (hc : condTag T t = '<' :: (t1 ++ ['>'])) (hl : ¬ Listed ('<' :: t1 ++ ['>'])) (hw : Soft t1 t2) (ha : Apart t2)
    (ho : tagOut T t2 = some ('<' :: (t' ++ ['>']))) :
    Still T t' ∧ Apart t' ∧ (∀ c ∈ t', c ∈ t2) ∧ (Pre t2 → Pre t') := by
  obtain ⟨y, g1, g2, g3⟩ := condTag_shape hT k1 k2
  rw [hc] at g1
  have hy : t1 = y := List.append_inj_left' (List.cons.inj g1).2 rfl
  subst hy
  have k5 : Sharp t1 := by
    rcases g3 with rfl | ⟨z, z', -, rfl⟩
    · exact k4
    · intro c u e
      rw [← (List.cons.inj e).1]; decide +kernel
  have k6 : Sharp t2 := soft_sharp hw k5
  have n1 : '<' ∉ t2 := fun h => k1 (g2.subset (soft_mem hw ws_lt h))
  have n2 : '>' ∉ t2 := fun h => k2 (g2.subset (soft_mem hw ws_gt h))
  have cancel : ∀ {a b : List Char}, '<' :: (a ++ ['>']) = '<' :: (b ++ ['>']) → a = b := by
    intro a b e
    exact List.append_inj_left' (List.cons.inj e).2 rfl
  -- what `condense` has done
  have ht : (Headed T t ∧ '<' :: (t1 ++ ['>']) = untype T ('<' :: (t ++ ['>']))) ∨ (¬ Headed T t ∧ t1 = t) := by
    rcases condTag_exact hT k1 k2 with ⟨h, e⟩ | ⟨h, e⟩
    · exact .inl ⟨h, by rw [← hc, e]⟩
    · exact .inr ⟨h, cancel (by rw [← hc, e])⟩
  have styled : ∀ {t : List Char}, Headed T t → Styled t := by
    rintro t ⟨w, c, u, rfl | rfl, rfl, -⟩
    · exact ⟨_, .inl rfl⟩
    · exact ⟨_, .inr rfl⟩
  have absent : (∀ a b, t ≠ a ++ "type=\"".toList ++ b) → NoType T ('<' :: (t ++ ['>'])) := by
    intro h
    refine notype_lt.2 (notype_gt ?_)
    intro a c v e
    exact absurd e (h a _)
  have lt_spaced : ∀ {s : List Char}, TypeSpaced s → TypeSpaced ('<' :: s) := by
    intro s h a v u e
    cases a with
    | nil => rw [type_chars] at e; exact absurd (List.cons.inj e).1 (by decide)
    | cons d a => exact h a v u (List.cons.inj e).2
  have seps : Sep ('<' :: (t1 ++ ['>'])) := by
    have h0 : Sep (t ++ ['>']) := sep_spaced hs.1
    have h0 : Sep ('<' :: (t ++ ['>'])) := by
      intro a m u e hl
      cases a with
      | nil =>
        cases m with
        | nil => exact absurd hl solid_quotesInTag
        | cons d m =>
          have := lang_quotes_head (c := d) (s := m) (u := []) (by simp) hl
          rw [← (List.cons.inj e).1] at this
          exact absurd this (by decide +kernel)
      | cons d a => exact h0 a m u (List.cons.inj e).2 hl
    rcases ht with ⟨hh, e⟩ | ⟨-, rfl⟩
    · rw [e]
      exact sep_untype hT (lt_spaced (hs.2 (styled hh)).1) h0
    · exact h0
  have sep2 : Sep (t2 ++ ['>']) := sep_suffix (a := ['<']) (sep_soft seps (.char '<' (hw.app (.refl _))))
  obtain ⟨f1, f2, f3⟩ := tag_again hT n1 n2 ha sep2 ho
  obtain ⟨y, q1, q2, q3, q4⟩ := tagOut_shape hT n1 n2
  have : y = t' := cancel (Option.some.inj (q1.symm.trans ho))
  subst this
  have hst : ∃ z, Steps t1 t2 z y := by
    rcases f3 with rfl | ⟨z, z1, z2, z3, rfl⟩
    · exact ⟨y, hw, .inl rfl, .refl _, n2, n2⟩
    · refine ⟨z, hw, z1, ?_, z2, q3⟩
      have := unq_quotes z3
      rwa [quotes_split (d := '>') simple_gt (by decide) (by decide) z [], quotes_nil] at this
  obtain ⟨z, hst⟩ := hst
  refine ⟨⟨q2, q3, q4 k6, ?_, ?_, f1, ?_⟩, f2, fun c hc => steps_mem hst hc, ?_⟩
  · intro u e
    have e0 : "!--".toList = ['!', '-'] ++ ['-'] := by decide +kernel
    rw [e0, List.append_assoc] at e
    obtain ⟨d, u', e1, h⟩ := steps_prefix hst (by decide +kernel) (by decide) e
    rcases h with rfl | ⟨h, -⟩
    · rcases ht with ⟨hh, -⟩ | ⟨-, rfl⟩
      · -- a style or script tag begins with 's'
        obtain ⟨w, c, v, hw', rfl, -⟩ := hh
        obtain ⟨x, r1, -, r2⟩ := condTag_shape hT k1 k2
        have : t1 = x := cancel (by rw [← hc, r1])
        subst this
        rcases r2 with rfl | ⟨x, x', r2, r3⟩
        · rcases hw' with rfl | rfl
          · rw [style_word] at e1; exact absurd (List.cons.inj e1).1 (by decide)
          · rw [script_word] at e1; exact absurd (List.cons.inj e1).1 (by decide)
        · rw [r3] at e1; exact absurd (List.cons.inj e1).1 (by decide)
      · obtain ⟨w, v, rfl, hw'⟩ := k3 u' (by rw [e0, e1]; simp)
        rw [e1] at hw
        obtain ⟨w', v', rfl, hw2⟩ := soft_opens (p := ['!', '-', '-']) (by decide +kernel) hw' (by simpa using hw)
        obtain ⟨u'', e3⟩ := steps_forward (p := ['!', '-', '-'] ++ w' ++ ['[']) (u := v') hst (by
          intro c hc
          rcases List.mem_append.1 hc with hc | hc
          · rcases List.mem_append.1 hc with hc | hc
            · exact (show ∀ c ∈ ['!', '-', '-'], c ≠ 'w' ∧ c ≠ 'h' ∧ c ≠ '>' ∧ c ≠ '"' ∧ c ≠ '\'' by decide +kernel) c hc
            · have := hw2 c hc
              refine ⟨?_, ?_, ?_, ?_, ?_⟩ <;> (rintro rfl; revert this; decide +kernel)
          · rw [List.mem_singleton.1 hc]; decide) (by simp)
        refine ⟨w', u'', ?_, hw2⟩
        rw [e3] at e
        simpa using e.symm
    · exact absurd h (by decide)
  · rcases condTag_exact hT q2 q3 with ⟨hh, e⟩ | ⟨-, e⟩
    · rw [e]
      refine notype_same (notype_lt.2 (notype_gt (steps_notype hst ?_)))
      rcases ht with ⟨h, e2⟩ | ⟨h, rfl⟩
      · obtain ⟨s1, s2⟩ := hs.2 (styled h)
        by_cases hn : '\n' ∈ t
        · have := absent (s2 hn)
          rw [notype_same this] at e2
          rw [cancel e2]
          exact notype_prefix (notype_lt.1 this)
        · have := notype_untype (T := T) hT (s := '<' :: (t ++ ['>'])) (by simp [hn]) (lt_spaced s1)
          rw [← e2] at this
          exact notype_prefix (notype_lt.1 this)
      · obtain ⟨w, c, u, hw', e3, hc', hu⟩ := hh
        have hcg : c ≠ '>' := by rintro rfl; rw [gt_wordBarSpace hT] at hc'; cases hc'
        obtain ⟨d, u', e4, hd⟩ := steps_prefix hst (by rcases hw' with rfl | rfl <;> decide +kernel) hcg e3
        have hst : Styled t1 := by
          rcases hw' with rfl | rfl
          · exact ⟨_, .inl e4⟩
          · exact ⟨_, .inr e4⟩
        have hd' : wordBarSpace T d = true := by
          rcases hd with rfl | ⟨-, hd⟩
          · exact hc'
          · exact ws_wordBarSpace hd
        have hn : '\n' ∈ t1 := by
          refine Decidable.byContradiction fun hn => h ⟨w, d, u', hw', e4, hd', fun hm => hn ?_⟩
          rw [e4]; simp [hm]
        exact notype_prefix (notype_lt.1 (absent ((hs.2 hst).2 hn)))
    · exact e
  · intro h
    have := steps_same hst (listed_chars h)
    rw [this] at hl
    exact hl h
  · rintro ⟨n, m, u, hn, e, hm⟩
    obtain ⟨u', e'⟩ := steps_forward hst (pre_chars hn hm) e
    exact ⟨n, m, u', hn, e', hm⟩

/-! ## White space -/

/-- Only a blank between two tags. -/
def Tri (s : List Char) : Prop := ∀ a c b, s = a ++ '>' :: c :: '<' :: b → isWhitespace c = true → c = ' '

theorem tri_infix {a s b : List Char} (h : Tri (a ++ s ++ b)) : Tri s := by
  intro x c y e
  exact h (a ++ x) c (y ++ b) (by rw [e]; simp)

theorem tri_cons {d : Char} {s : List Char} (h : Tri s) (hd : ∀ c b, d = '>' → s = c :: '<' :: b → isWhitespace c = true → c = ' ') :
    Tri (d :: s) := by
  intro a c b e hc
  cases a with
  | nil => obtain ⟨rfl, e'⟩ := List.cons.inj e; exact hd c b rfl e' hc
  | cons x a => exact h a c b (List.cons.inj e).2 hc

theorem tri_skip {a s : List Char} (ha : '>' ∉ a) (h : Tri s) : Tri (a ++ s) := by
  induction a with
  | nil => exact h
  | cons d a ih =>
    refine tri_cons (ih fun hm => ha (by simp [hm])) ?_
    rintro c b rfl; simp at ha

theorem tri_join {a s : List Char} (h1 : Tri (a ++ ['<'])) (h2 : Tri s) : Tri (a ++ '<' :: s) := by
  induction a with
  | nil => exact tri_cons h2 (by rintro c b h; exact absurd h (by decide))
  | cons d a ih =>
    refine tri_cons (ih (tri_infix (a := [d]) (b := []) (by simpa using h1))) ?_
    rintro c b rfl e hc
    match a, e, h1 with
    | [], e, _ => rw [← (List.cons.inj e).1] at hc; rw [ws_lt] at hc; cases hc
    | [x], e, h1 =>
      rw [← (List.cons.inj e).1] at hc ⊢
      exact h1 [] x [] rfl hc
    | x :: y :: a, e, h1 =>
      obtain ⟨rfl, e'⟩ := List.cons.inj e
      exact h1 [] x (a ++ ['<']) (by rw [(List.cons.inj e').1.symm]; rfl) hc

theorem gaps_tri {p : Option Char} {s o : List Char} (h : Gaps squeeze p s o) :
    Tri o ∧ ∀ c b, p = some '>' → o = c :: '<' :: b → isWhitespace c = true → c = ' ' := by
  have sq : ∀ {p : Option Char} {w : List Char} {n : Option Char}, (∀ c ∈ w, isWhitespace c = true) →
      squeeze p w n = [] ∨ ∃ c, squeeze p w n = [c] ∧ isWhitespace c = true := by
    intro p w n hw
    rcases squeeze_cases p w n with e | ⟨c, e, -⟩
    · exact .inl e
    · refine .inr ⟨c, e, ?_⟩
      unfold squeeze at e
      split at e
      · cases e
      · split at e
        · rw [← (List.cons.inj e).1]; exact ws_sp
        · exact hw c (by rw [e]; simp)
  induction h with
  | @last prev w hw =>
    rcases sq (p := prev) (n := none) hw with e | ⟨c, e, -⟩
    · rw [e]
      refine ⟨?_, by intro c b _ h; cases h⟩
      intro a c b h; simp at h
    · rw [e]
      refine ⟨?_, by intro c b _ h; cases h⟩
      intro a c b h
      match a, h with
      | [], h => cases h
      | [_], h => cases h
      | _ :: _ :: _, h => cases h
  | @next prev w s o c hw hc _ ih =>
    have tc : Tri (c :: o) := tri_cons ih.1 fun x b h => ih.2 x b (by rw [h])
    rcases sq (p := prev) (n := some c) hw with e | ⟨x, e, hx⟩
    · rw [e]
      refine ⟨tc, ?_⟩
      intro y b _ h hy
      rw [← (List.cons.inj h).1, hc] at hy; cases hy
    · have e' := e
      rw [e]
      refine ⟨tri_cons tc ?_, ?_⟩
      · rintro y b rfl; rw [ws_gt] at hx; cases hx
      · intro y b hp h _
        obtain ⟨rfl, h'⟩ := List.cons.inj h
        rw [hp, (List.cons.inj h').1] at e'
        unfold squeeze at e'
        split at e'
        · cases e'
        · rw [if_pos (.inl ⟨rfl, rfl⟩)] at e'
          exact (List.cons.inj e').1.symm

theorem gaps_calm {s : List Char} (h1 : Apart s) (h2 : '\r' ∉ s ∧ '\n' ∉ s) (h3 : Tri s) {p : Option Char}
    (h4 : ∀ c b, p = some '>' → s = c :: '<' :: b → isWhitespace c = true → c = ' ') : Gaps squeeze p s s := by
  have one : ∀ {w : List Char}, (∀ c ∈ w, isWhitespace c = true) → Apart w → w = [] ∨ ∃ c, w = [c] := by
    intro w hw ha
    match w, hw, ha with
    | [], _, _ => exact .inl rfl
    | [c], _, _ => exact .inr ⟨c, rfl⟩
    | c :: d :: w, hw, ha => exact absurd ⟨hw c (by simp), hw d (by simp)⟩ (ha [] c d w rfl)
  have : ∀ n, ∀ s : List Char, s.length ≤ n → Apart s → '\r' ∉ s ∧ '\n' ∉ s → Tri s → ∀ p : Option Char,
      (∀ c b, p = some '>' → s = c :: '<' :: b → isWhitespace c = true → c = ' ') → Gaps squeeze p s s := by
    intro n
    induction n with
    | zero =>
      intro s hn _ _ _ p _
      rw [List.eq_nil_of_length_eq_zero (l := s) (by omega)]
      have := Gaps.last (g := squeeze) (prev := p) (w := []) (by simp)
      rwa [show squeeze p [] none = [] from rfl] at this
    | succ n ih =>
      intro s hn h1 h2 h3 p h4
      rcases gap_split s with hw | ⟨w, c, r, rfl, hw, hc⟩
      · have := Gaps.last (g := squeeze) (prev := p) hw
        have e : squeeze p s none = s := by
          rcases one hw h1 with rfl | ⟨c, rfl⟩
          · rfl
          · unfold squeeze
            rw [if_neg (by simp), if_neg]
            rintro (⟨-, h⟩ | h | h | h)
            · cases h
            · simp at h
            · exact h2.1 (by rw [h]; simp)
            · exact h2.2 (by rw [h]; simp)
        rwa [e] at this
      · have aw : Apart w := apart_left h1
        have hr := ih r (by simp only [List.length_append, List.length_cons] at hn; omega) (apart_right (a := w ++ [c]) (by simpa using h1))
          ⟨fun h => h2.1 (by simp [h]), fun h => h2.2 (by simp [h])⟩ (tri_infix (a := w ++ [c]) (b := []) (by simpa using h3)) (some c)
          (by
            intro x b hx e hx'
            exact h3 w x b (by rw [e, Option.some.inj hx]) hx')
        have := Gaps.next (g := squeeze) (prev := p) hw hc hr
        have e : squeeze p w (some c) = w := by
          rcases one hw aw with rfl | ⟨x, rfl⟩
          · rfl
          · unfold squeeze
            rw [if_neg (by simp)]
            split
            · rename_i h
              rcases h with ⟨h, h'⟩ | h | h | h
              · have := h4 x r h (by rw [← Option.some.inj h']; rfl) (hw x (by simp))
                rw [this]
              · simp at h
              · exact absurd (by rw [h]; simp) h2.1
              · exact absurd (by rw [h]; simp) h2.2
            · rfl
        rwa [e] at this
  exact this _ s (Nat.le_refl _) h1 h2 h3 p h4

/-! ## Trimming the pieces -/

theorem spell_cons (a t x : List Char) (l : List (List Char × List Char)) :
    spell (a, (t, x) :: l) = a ++ '<' :: (t ++ '>' :: spell (x, l)) := by simp [spell]

theorem tagless_trim {u a v : List Char} (h : Tagless (u ++ a ++ v)) (hv : ∀ c ∈ v, isWhitespace c = true) : Tagless a := by
  rintro x b rfl
  obtain ⟨h1, c, h2, h3⟩ := h (u ++ x) (b ++ v) (by simp)
  rw [stray_right] at h1
  · refine ⟨h1, c, ?_, h3⟩
    rcases List.mem_append.1 h2 with h2 | h2
    · exact h2
    · rw [hv c h2] at h3; exact absurd h3 (by decide)
  · intro p e
    obtain ⟨-, d, h4, h5⟩ := h (u ++ x ++ p) v (by rw [e]; simp)
    rw [hv d h4] at h5; exact absurd h5 (by decide)

theorem spell_left {w o a : List Char} {l : List (List Char × List Char)} (hw : ∀ c ∈ w, isWhitespace c = true)
    (e : spell (a, l) = w ++ o) : ∃ a', o = spell (a', l) ∧ (Tagless a → Tagless a') := by
  induction w generalizing a with
  | nil => exact ⟨a, e.symm, id⟩
  | cons c w ih =>
    cases a with
    | nil =>
      exfalso
      cases l with
      | nil => simp [spell] at e
      | cons p l =>
        obtain ⟨t, x⟩ := p
        rw [spell_cons] at e
        have := hw c (by simp)
        rw [← (List.cons.inj e).1, ws_lt] at this; cases this
    | cons d a =>
      obtain ⟨a', h1, h2⟩ := ih (fun z hz => hw z (by simp [hz])) (a := a) (by
        have : d :: spell (a, l) = c :: (w ++ o) := by rw [← List.cons_append, ← e]; simp [spell]
        exact (List.cons.inj this).2)
      exact ⟨a', h1, fun h => h2 h.tail⟩

theorem spell_right {w o a : List Char} {l : List (List Char × List Char)} (hw : ∀ c ∈ w, isWhitespace c = true)
    (e : spell (a, l) = o ++ w) : ∃ a' l', o = spell (a', l') ∧ (Tagless a → Tagless a') ∧ l'.map (·.1) = l.map (·.1) ∧
      ∀ p ∈ l', ∃ q ∈ l, Tagless q.2 → Tagless p.2 := by
  induction l generalizing a o with
  | nil =>
    have e : a = o ++ w := by simpa [spell] using e
    exact ⟨o, [], by simp [spell], fun h => tagless_trim (u := []) (by rw [e] at h; exact h) hw, rfl, by simp⟩
  | cons p l ih =>
    obtain ⟨t, x⟩ := p
    rw [spell_cons] at e
    have e1 : (a ++ '<' :: t ++ ['>']) ++ spell (x, l) = o ++ w := by rw [← e]; simp
    have : ∃ y, o = (a ++ '<' :: t ++ ['>']) ++ y ∧ spell (x, l) = y ++ w := by
      rcases List.append_eq_append_iff.1 e1 with ⟨y, g1, g2⟩ | ⟨y, g1, g2⟩
      · exact ⟨y, g1, g2⟩
      · cases hr : y.reverse with
        | nil =>
          have : y = [] := by simpa using hr
          subst this
          exact ⟨[], by rw [List.append_nil] at g1 ⊢; exact g1.symm, by rw [g2]; rfl⟩
        | cons d y' =>
          exfalso
          have ey : y = y'.reverse ++ [d] := by have := congrArg List.reverse hr; simpa using this
          have e2 : (a ++ '<' :: t) ++ ['>'] = (o ++ y'.reverse) ++ [d] := by rw [g1, ey]; simp
          have e3 := (List.cons.inj (List.append_inj_right' e2 rfl)).1
          have := hw d (by rw [g2, ey]; simp)
          rw [← e3, ws_gt] at this; cases this
    obtain ⟨y, rfl, e2⟩ := this
    obtain ⟨x', l', rfl, h1, h2, h3⟩ := ih e2
    refine ⟨a, (t, x') :: l', by rw [spell_cons]; simp, id, by simp [h2], ?_⟩
    intro p hp
    rcases List.mem_cons.1 hp with rfl | hp
    · exact ⟨(t, x), by simp, h1⟩
    · obtain ⟨q, hq, h⟩ := h3 p hp
      exact ⟨q, by simp [hq], h⟩

theorem spell_trim (a : List Char) (l : List (List Char × List Char)) : ∃ a' l', trim (spell (a, l)) = spell (a', l') ∧
    (Tagless a → Tagless a') ∧ l'.map (·.1) = l.map (·.1) ∧ ∀ p ∈ l', ∃ q ∈ l, Tagless q.2 → Tagless p.2 := by
  obtain ⟨u, v, h1, h2, h3, -⟩ := trim_spec (spell (a, l))
  rw [List.append_assoc] at h1
  obtain ⟨a1, e1, g1⟩ := spell_left h2 h1
  obtain ⟨a2, l2, e2, g2, g3, g4⟩ := spell_right h3 e1.symm
  exact ⟨a2, l2, e2, fun h => g2 (g1 h), g3, g4⟩

/-! ## The second run -/

theorem mapped_same {R : List Char → List Char → Prop} {P Q : List Seg} (h : Mapped R P Q)
    (hR : ∀ t t', Seg.tag t ∈ P → R t t' → t' = t) : Q = P := by
  induction h with
  | nil => rfl
  | text _ ih => rw [ih fun t t' hm => hR t t' (by simp [hm])]
  | tag hr _ ih => rw [ih fun t t' hm => hR t t' (by simp [hm]), hR _ _ (by simp) hr]

theorem dropped_same {P Q : List Seg} (h : Dropped P Q) (hR : ∀ t, Seg.tag t ∈ P → ¬ Listed ('<' :: t ++ ['>'])) : Q = P := by
  induction h with
  | nil => rfl
  | text _ ih => rw [ih fun t hm => hR t (by simp [hm])]
  | drop hl _ _ => exact absurd hl (hR _ (by simp))
  | tag _ _ ih => rw [ih fun t hm => hR t (by simp [hm])]

theorem dropped_mem {P Q : List Seg} (h : Dropped P Q) {t : List Char} (hm : Seg.tag t ∈ Q) :
    Seg.tag t ∈ P ∧ ¬ Listed ('<' :: t ++ ['>']) := by
  induction h with
  | nil => cases hm
  | text _ ih =>
    rcases List.mem_cons.1 hm with h | h
    · cases h
    · exact ⟨by simp [(ih h).1], (ih h).2⟩
  | drop _ _ ih => exact ⟨by simp [(ih hm).1], (ih hm).2⟩
  | tag hl _ ih =>
    rcases List.mem_cons.1 hm with h | h
    · cases h; exact ⟨by simp, hl⟩
    · exact ⟨by simp [(ih h).1], (ih h).2⟩

theorem mapped_mem {R : List Char → List Char → Prop} {P Q : List Seg} (h : Mapped R P Q) {t' : List Char} (hm : Seg.tag t' ∈ Q) :
    ∃ t, Seg.tag t ∈ P ∧ R t t' := by
  induction h with
  | nil => cases hm
  | text _ ih =>
    rcases List.mem_cons.1 hm with h | h
    · cases h
    · obtain ⟨t, h1, h2⟩ := ih h; exact ⟨t, by simp [h1], h2⟩
  | tag hr _ ih =>
    rcases List.mem_cons.1 hm with h | h
    · cases h; exact ⟨_, by simp, hr⟩
    · obtain ⟨t, h1, h2⟩ := ih h; exact ⟨t, by simp [h1], h2⟩

theorem mapped_to {R : List Char → List Char → Prop} {P Q : List Seg} (h : Mapped R P Q) {t : List Char} (hm : Seg.tag t ∈ P) :
    ∃ t', Seg.tag t' ∈ Q ∧ R t t' := by
  induction h with
  | nil => cases hm
  | text _ ih =>
    rcases List.mem_cons.1 hm with h | h
    · cases h
    · obtain ⟨t, h1, h2⟩ := ih h; exact ⟨t, by simp [h1], h2⟩
  | tag hr _ ih =>
    rcases List.mem_cons.1 hm with h | h
    · cases h; exact ⟨_, by simp, hr⟩
    · obtain ⟨t, h1, h2⟩ := ih h; exact ⟨t, by simp [h1], h2⟩

theorem pieces_tag {P : List Seg} {t : List Char} (h : Seg.tag t ∈ P) : t ∈ (pieces P).2.map (·.1) := by
  induction P with
  | nil => cases h
  | cons y P ih =>
    rcases List.mem_cons.1 h with rfl | h
    · simp [pieces]
    · have := ih h
      cases y with
      | text s => exact this
      | comment b => exact this
      | tag s => simp only [pieces, List.map_cons, List.mem_cons]; exact .inr this

theorem unpieces_tag {a t : List Char} {l : List (List Char × List Char)} : Seg.tag t ∈ unpieces (a, l) ↔ t ∈ l.map (·.1) := by
  constructor
  · intro h
    have := pieces_tag h
    rwa [pieces_unpieces] at this
  · intro h
    obtain ⟨p, hp, rfl⟩ := List.mem_map.1 h
    refine List.mem_cons_of_mem _ (List.mem_flatMap.2 ⟨p, hp, by simp⟩)

theorem softly_mem {l l' : List (List Char × List Char)} (h : Softly l l') {t : List Char} (hm : t ∈ l'.map (·.1)) :
    ∃ s ∈ l.map (·.1), Soft s t := by
  induction h with
  | nil => cases hm
  | cons h1 _ _ ih =>
    rcases List.mem_cons.1 hm with rfl | hm
    · exact ⟨_, by simp, h1⟩
    · obtain ⟨s, g1, g2⟩ := ih hm
      exact ⟨s, List.mem_cons_of_mem _ g1, g2⟩

theorem Softly.refl (l : List (List Char × List Char)) : Softly l l := by
  induction l with
  | nil => exact .nil
  | cons p l ih => exact .cons (.refl _) (.refl _) ih

theorem fixed_page {T : Tables} (hT : T.Ok) {a : List Char} {l : List (List Char × List Char)} (h1 : Tagless a)
    (h2 : ∀ p ∈ l, Still T p.1 ∧ Tagless p.2) (h3 : condenseWhitespace T (spell (a, l)) = spell (a, l))
    (h4 : trim (spell (a, l)) = spell (a, l)) : minify T (spell (a, l)) = some (spell (a, l)) := by
  have hpl : ∀ x ∈ unpieces (a, l), Seg.Plain x := plain_unpieces h1 fun p hp => ⟨(h2 p hp).1.lt, (h2 p hp).1.gt, (h2 p hp).1.sharp, (h2 p hp).2⟩
  have hst : ∀ t, Seg.tag t ∈ unpieces (a, l) → Still T t := by
    intro t ht
    obtain ⟨p, hp, rfl⟩ := List.mem_map.1 (unpieces_tag.1 ht)
    exact (h2 p hp).1
  have es : spell (a, l) = render (unpieces (a, l)) := by rw [← spell_pieces hpl, pieces_unpieces]
  have cancel : ∀ {a b : List Char}, '<' :: (a ++ ['>']) = '<' :: (b ++ ['>']) → a = b := by
    intro a b e
    exact List.append_inj_left' (List.cons.inj e).2 rfl
  obtain ⟨P2, e2, q2, m2⟩ := condense_page hT hpl
  have s2 : P2 = unpieces (a, l) := mapped_same m2 fun t t' ht hr => cancel (hr.1.symm.trans (hst t ht).cond)
  subst s2
  obtain ⟨P3, e3, q3, m3⟩ := clean_page q2
  have s3 : P3 = unpieces (a, l) := dropped_same m3 fun t ht => (hst t ht).kept
  subst s3
  obtain ⟨Q, e4, q4, m4⟩ := unquote_page hT q3
  have s4 : Q = unpieces (a, l) := mapped_same m4 fun t t' ht hr => cancel (Option.some.inj (hr.symm.trans (hst t ht).out))
  subst s4
  rw [minify, es, removeComments_opens hpl fun t ht => (hst t ht).dash, e2, e3, ← es, h3, unquoteAttributes, es, e4]
  show some (trim (trim _)) = _
  rw [← es, h4, h4]

theorem mentions_pre {P : List Seg} (hP : ∀ x ∈ P, Seg.Plain x)
    (h : Mentions "<pre".toList (render P) ∨ Mentions "<textarea".toList (render P)) : ∃ t, Seg.tag t ∈ P ∧ Pre t := by
  have low : ∀ {c : Char}, c.toLower = '<' → c = '<' := by
    intro c hc
    have h128 := toLower_ascii (c := c) (by rw [hc]; decide)
    have : ∀ n : Fin 128, (Char.ofNat n.1).toLower = '<' → Char.ofNat n.1 = '<' := by decide +kernel
    have h2 := this ⟨c.toNat, h128⟩
    simp only [Char.ofNat_toNat] at h2
    exact h2 hc
  have key : ∀ (n : List Char), '>' ∉ n → (∀ m b, m.map Char.toLower = n → stray (m ++ b) = false) → ∀ (P : List Seg), (∀ x ∈ P, Seg.Plain x) → ∀ a m b, render P = a ++ m ++ b →
      m.map Char.toLower = '<' :: n → ∃ t m' u, Seg.tag t ∈ P ∧ t = m' ++ u ∧ m'.map Char.toLower = n := by
    intro n hn hn2 P
    induction P with
    | nil =>
      intro _ a m b e hm
      have : m = [] := by
        have := congrArg List.length e
        simp only [render, List.flatMap_nil, List.length_nil, List.length_append] at this
        exact List.eq_nil_of_length_eq_zero (by omega)
      subst this; cases hm
    | cons x P ih =>
      intro hP a m b e hm
      cases m with
      | nil => cases hm
      | cons c m =>
        obtain ⟨h1, h2⟩ := List.cons.inj hm
        have hc : c = '<' := low h1
        subst hc
        have h2 : m.map Char.toLower = n := h2
        have ih := ih fun x hx => hP x (by simp [hx])
        have back : ∀ a', render P = a' ++ '<' :: m ++ b → ∃ t m' u, Seg.tag t ∈ x :: P ∧ t = m' ++ u ∧ m'.map Char.toLower = n := by
          intro a' e'
          obtain ⟨t, m', u, g1, g2, g3⟩ := ih a' ('<' :: m) b e' hm
          exact ⟨t, m', u, by simp [g1], g2, g3⟩
        have hx := hP x (by simp)
        have hlt : ∀ (y a' : List Char), Tagless y → y ++ render P = a' ++ '<' :: (m ++ b) →
            ∃ a'', render P = a'' ++ '<' :: m ++ b := by
          intro y a' hy e'
          rcases List.append_eq_append_iff.1 e' with ⟨z, f1, f2⟩ | ⟨z, f1, f2⟩
          · exact ⟨z, by rw [f2]; simp⟩
          · cases z with
            | nil => exact ⟨[], by rw [List.nil_append] at f2; rw [← f2]; simp⟩
            | cons d z =>
              obtain ⟨rfl, f3⟩ := List.cons.inj f2
              have f4 := stray_append (hy _ _ f1).1 (render P)
              rw [show z ++ render P = m ++ b from f3.symm, hn2 m b h2] at f4
              exact absurd f4 (by decide)
        have e : render (x :: P) = a ++ '<' :: (m ++ b) := by rw [e]; simp
        rw [render_cons] at e
        cases x with
        | text t =>
          obtain ⟨a'', h⟩ := hlt t a hx e
          exact back a'' h
        | tag t =>
          cases a with
          | nil =>
            have e' : t ++ '>' :: render P = m ++ b := by
              have : '<' :: (t ++ '>' :: render P) = '<' :: (m ++ b) := by
                rw [List.nil_append] at e; rw [← e]; simp [Seg.show]
              exact (List.cons.inj this).2
            obtain ⟨t', g1, -⟩ := prefix_tag (w := m) (by
              intro hg
              refine hn ?_
              have : Char.toLower '>' ∈ m.map Char.toLower := List.mem_map_of_mem hg
              rw [h2] at this
              exact this) e'
            exact ⟨t, m, t', by simp, g1, h2⟩
          | cons d a =>
            have e' : (t ++ ['>']) ++ render P = a ++ '<' :: (m ++ b) := by
              have : '<' :: ((t ++ ['>']) ++ render P) = d :: (a ++ '<' :: (m ++ b)) := by
                rw [← List.cons_append (a := d), ← e]; simp [Seg.show]
              exact (List.cons.inj this).2
            obtain ⟨a'', h⟩ := hlt (t ++ ['>']) a (.of (by simp [hx.1])) e'
            exact back a'' h
        | comment b => exact absurd hx id
  have e1 : "<pre".toList = '<' :: "pre".toList := by decide +kernel
  have e2 : "<textarea".toList = '<' :: "textarea".toList := by decide +kernel
  rw [e1, e2] at h
  have sharp : ∀ {n : List Char} {d : Char}, (∀ n : Fin 128, (Char.ofNat n.1).toLower = d →
      Char.ofNat n.1 ≠ '<' ∧ dull (Char.ofNat n.1) = false) → d.toNat < 128 → ∀ m b, m.map Char.toLower = d :: n →
      stray (m ++ b) = false := by
    intro n d hd h128 m b hm
    cases m with
    | nil => cases hm
    | cons c m =>
      have hc : c.toLower = d := (List.cons.inj hm).1
      have h2 := hd ⟨c.toNat, toLower_ascii (c := c) (by rw [hc]; exact h128)⟩
      simp only [Char.ofNat_toNat] at h2
      have h2 := h2 hc
      rw [List.cons_append, stray, if_neg h2.1]; exact h2.2
  have e3 : "pre".toList = 'p' :: "re".toList := by decide +kernel
  have e4 : "textarea".toList = 't' :: "extarea".toList := by decide +kernel
  have s1 : ∀ m b, m.map Char.toLower = "pre".toList → stray (m ++ b) = false := by
    rw [e3]; exact sharp (by decide +kernel) (by decide)
  have s2 : ∀ m b, m.map Char.toLower = "textarea".toList → stray (m ++ b) = false := by
    rw [e4]; exact sharp (by decide +kernel) (by decide)
  rcases h with ⟨a, m, b, h1, h2⟩ | ⟨a, m, b, h1, h2⟩
  · obtain ⟨t, m', u, g1, g2, g3⟩ := key _ (by decide +kernel) s1 P hP a m b h1 h2
    exact ⟨t, g1, _, m', u, .inl rfl, g2, g3⟩
  · obtain ⟨t, m', u, g1, g2, g3⟩ := key _ (by decide +kernel) s2 P hP a m b h1 h2
    exact ⟨t, g1, _, m', u, .inr rfl, g2, g3⟩

/-- White space through the last pass. -/
theorem calm_tags {R : List Char → List Char → Prop} {l l' : List (List Char × List Char)} (h : Tagwise R l l')
    (hl : ∀ p ∈ l', '>' ∉ p.1 ∧ Apart p.1) (hR : ∀ t t', t ∈ l.map (·.1) → R t t' → ∀ c ∈ t', c ∈ t) {a : List Char} :
    (Apart (spell (a, l)) → Apart (spell (a, l'))) ∧ (Tri (spell (a, l)) → Tri (spell (a, l'))) ∧
      ∀ c ∈ spell (a, l'), c ∈ spell (a, l) := by
  induction h generalizing a with
  | nil => exact ⟨id, id, fun c h => h⟩
  | @cons t t' x l l' hr _ ih =>
    have h0 := hl _ (List.mem_cons_self ..)
    have ih := fun a => ih (fun p hp => hl p (by simp [hp])) (fun t t' ht => hR t t' (List.mem_cons_of_mem _ ht)) (a := a)
    have e : ∀ (x : List Char) (l : List (List Char × List Char)), spell ('>' :: x, l) = '>' :: spell (x, l) := by simp [spell]
    rw [spell_cons, spell_cons]
    refine ⟨?_, ?_, ?_⟩
    · intro h
      have h1 : Apart (spell (x, l)) := apart_right (a := a ++ '<' :: (t ++ ['>'])) (by simpa using h)
      refine apart_join ws_lt (apart_left h) (apart_join ws_gt h0.2 ((ih x).1 h1))
    · intro h
      have h1 : Tri (spell ('>' :: x, l)) := by
        rw [e]; exact tri_infix (a := a ++ '<' :: t) (b := []) (by simpa using h)
      have h2 := (ih ('>' :: x)).2.1 h1
      rw [e] at h2
      exact tri_join (tri_infix (a := []) (b := t ++ '>' :: spell (x, l)) (by simpa using h)) (tri_skip h0.1 h2)
    · intro c hc
      simp only [List.mem_append, List.mem_cons] at hc ⊢
      rcases hc with hc | hc | hc | hc | hc
      · exact .inl hc
      · exact .inr (.inl hc)
      · exact .inr (.inr (.inl (hR t t' (by simp) hr c hc)))
      · exact .inr (.inr (.inr (.inl hc)))
      · exact .inr (.inr (.inr (.inr ((ih x).2.2 c hc))))

theorem spell_tag {a t : List Char} {l : List (List Char × List Char)} (h : t ∈ l.map (·.1)) : ∃ u v, spell (a, l) = u ++ t ++ v := by
  induction l generalizing a with
  | nil => cases h
  | cons p l ih =>
    obtain ⟨s, x⟩ := p
    rw [spell_cons]
    rcases List.mem_cons.1 h with rfl | h
    · exact ⟨a ++ ['<'], '>' :: spell (x, l), by simp⟩
    · obtain ⟨u, v, e⟩ := ih (a := x) h
      exact ⟨a ++ '<' :: (s ++ '>' :: u), v, by rw [e]; simp⟩

/-- A tag that is done with after one run, whatever its white space. -/
def Fixes (T : Tables) (t : List Char) : Prop :=
  ¬ Styled t ∧ (¬ Listed ('<' :: t ++ ['>']) → ∀ t', tagOut T t = some ('<' :: (t' ++ ['>'])) → Still T t' ∧ (Pre t → Pre t'))

/-- A page of settled tags is the same after a second run. -/
theorem minify_again {T : Tables} (hT : T.Ok) {P : List Seg} (hP : Page P) (hop : ∀ t, Seg.tag t ∈ P → Opens t)
    (hs : (¬ ∃ t, Seg.tag t ∈ P ∧ Pre t) → ∀ t, Seg.tag t ∈ P → Settled t)
    (hpre : (∃ t, Seg.tag t ∈ P ∧ Pre t) → ∀ t, Seg.tag t ∈ P → (Apart t ∧ Settled t) ∨ Fixes T t) {o : List Char}
    (ho : minify T (render P) = some o) : minify T o = some o := by
  obtain ⟨P2, e2, q2, m2⟩ := condense_page hT (plain_of_page hP)
  obtain ⟨P3, e3, q3, m3⟩ := clean_page q2
  have tagP : ∀ t, Seg.tag t ∈ P.map decomment → Seg.tag t ∈ P := by
    intro t ht
    obtain ⟨x, hx, e⟩ := List.mem_map.1 ht
    cases x with
    | text s => cases e
    | tag s => cases e; exact hx
    | comment s => cases e
  have cancel : ∀ {a b : List Char}, '<' :: (a ++ ['>']) = '<' :: (b ++ ['>']) → a = b := by
    intro a b e
    exact List.append_inj_left' (List.cons.inj e).2 rfl
  -- the source of a tag
  have src : ∀ t1, t1 ∈ (pieces P3).2.map (·.1) → ¬ Listed ('<' :: t1 ++ ['>']) ∧ ∃ t, Seg.tag t ∈ P ∧
      condTag T t = '<' :: (t1 ++ ['>']) ∧ (t1 = t ∨ ∃ z z', t = 's' :: z ∧ t1 = 's' :: z') := by
    intro t1 h
    obtain ⟨p, hp, rfl⟩ := List.mem_map.1 h
    obtain ⟨h1, h2⟩ := dropped_mem m3 (pieces_mem (t := p.1) (x := p.2) hp)
    obtain ⟨t, h3, h4, h5⟩ := mapped_mem m2 h1
    exact ⟨h2, t, tagP t h3, h4, h5⟩
  obtain ⟨p1, p2⟩ := plain_pieces q3
  -- white space
  have hw : ∃ a' l', Soft (pieces P3).1 a' ∧ Softly (pieces P3).2 l' ∧
      unquoteAttributes T (condenseWhitespace T (render P3)) = unquoteAttributes T (spell (a', l')) ∧
      (((∃ t ∈ l'.map (·.1), Pre t) ∧ ∀ t ∈ l'.map (·.1), ∀ t', tagOut T t = some ('<' :: (t' ++ ['>'])) →
          Still T t' ∧ (Pre t → Pre t')) ∨
        (¬ ∃ t, Seg.tag t ∈ P ∧ Pre t) ∧ (∀ t ∈ l'.map (·.1), Apart t) ∧ Apart (spell (a', l')) ∧ Tri (spell (a', l')) ∧ '\r' ∉ spell (a', l') ∧ '\n' ∉ spell (a', l')) := by
    by_cases hm : Mentions "<pre".toList (render P3) ∨ Mentions "<textarea".toList (render P3)
    · refine ⟨(pieces P3).1, (pieces P3).2, .refl _, .refl _, ?_, .inl ⟨?_, ?_⟩⟩
      · rw [(condenseWhitespace_spec hT _).1 hm, unquote_trim hT, ← spell_pieces q3]
      · obtain ⟨tp, h1, h2⟩ := mentions_pre q3 hm
        exact ⟨tp, pieces_tag h1, h2⟩
      · intro t1 ht1 t' hout
        obtain ⟨tp, h1, h2⟩ := mentions_pre q3 hm
        obtain ⟨-, t0, g1, -, g3⟩ := src tp (pieces_tag h1)
        have hp0 : Pre t0 := by
          rcases g3 with rfl | ⟨z, z', -, rfl⟩
          · exact h2
          · exact absurd h2 s_not_pre
        have hall := hpre ⟨t0, g1, hp0⟩
        obtain ⟨fl, t, f1, f2, -⟩ := src t1 ht1
        have hok := page_tag hP f1
        rcases (hall t f1).symm with hfx | ⟨hap, hset⟩
        · rcases condTag_cases hT hok.1 hok.2.1 with e | ⟨e, -⟩
          · rw [f2] at e
            have := cancel e
            subst this
            exact hfx.2 fl t' hout
          · exact absurd e hfx.1
        have := tag_still hT hok.1 hok.2.1 hok.2.2 (hop t f1) hset f2 fl (.refl _) (t' := t') ?_ hout
        · exact ⟨this.1, this.2.2.2⟩
        rcases condTag_exact hT hok.1 hok.2.1 with ⟨-, e⟩ | ⟨-, e⟩
        · rw [f2] at e
          have ha : Apart ('<' :: (t ++ ['>'])) := by
            refine apart_cons (apart_join (b := []) ws_gt hap apart_nil) ?_
            rintro d - ⟨h, -⟩; rw [ws_lt] at h; cases h
          have := apart_untype (T := T) ha
          rw [← e] at this
          exact apart_infix (a := ['<']) (b := ['>']) (by simpa using this)
        · rw [f2] at e
          rw [cancel e]; exact hap
    · have hg := (condenseWhitespace_spec hT (render P3)).2 (fun h => hm (.inl h)) (fun h => hm (.inr h))
      have hsf := soft_gaps hg
      rw [← spell_pieces q3] at hsf
      obtain ⟨a', l', e5, s1, s2⟩ := soft_spell (a := (pieces P3).1) (l := (pieces P3).2) hsf
      rw [spell_pieces q3] at e5
      have ha := gaps_apart hg
      have hb := gaps_nobreak hg
      have ht := (gaps_tri hg).1
      rw [e5] at ha hb ht
      refine ⟨a', l', s1, s2, by rw [e5], .inr ⟨?_, ?_, ha, ht, hb.1, hb.2⟩⟩
      · rintro ⟨t, k1, k2⟩
        exact hm (pre_mentions k2 (pre_kept m2 m3 k2 (List.mem_map.2 ⟨_, k1, rfl⟩)))
      intro t ht'
      obtain ⟨u, v, e⟩ := spell_tag (a := a') ht'
      rw [e] at ha
      exact apart_infix ha
  obtain ⟨a', l', s1, s2, ew, hcalm⟩ := hw
  have p3 := plain_unpieces (p := (a', l')) (soft_tagless s1 p1) (softly_plain s2 p2)
  have e6 : spell (a', l') = render (unpieces (a', l')) := by rw [← spell_pieces p3, pieces_unpieces]
  obtain ⟨Q, e4, q4, m4⟩ := unquote_page hT p3
  have eo : o = trim (render Q) := by
    rw [minify, removeComments_page hP, e2, e3, ew, unquoteAttributes, e6, e4] at ho
    have : some (trim (trim (render Q))) = some o := ho
    rw [trim_trim] at this
    exact (Option.some.inj this).symm
  -- every tag is still
  have stillA : (¬ ∃ t, Seg.tag t ∈ P ∧ Pre t) → ∀ t2 t', t2 ∈ l'.map (·.1) → Apart t2 → tagOut T t2 = some ('<' :: (t' ++ ['>'])) →
      Still T t' ∧ Apart t' ∧ (∀ c ∈ t', c ∈ t2) ∧ (Pre t2 → Pre t') := by
    intro hnp t2 t' h2 hA hout
    obtain ⟨t1, h1, hsoft⟩ := softly_mem s2 h2
    obtain ⟨hl, t, ht, hcond, -⟩ := src t1 h1
    exact tag_still hT (page_tag hP ht).1 (page_tag hP ht).2.1 (page_tag hP ht).2.2 (hop t ht) (hs hnp t ht) hcond hl hsoft hA hout
  have still : ∀ t2 t', t2 ∈ l'.map (·.1) → tagOut T t2 = some ('<' :: (t' ++ ['>'])) → Still T t' ∧ (Pre t2 → Pre t') := by
    intro t2 t' h2 hout
    rcases hcalm with h | h
    · exact h.2 t2 h2 t' hout
    · have := stillA h.1 t2 t' h2 (h.2.1 t2 h2) hout
      exact ⟨this.1, this.2.2.2⟩
  obtain ⟨g3, g4⟩ := mapped_pieces m4
  rw [pieces_unpieces] at g3 g4
  obtain ⟨r1, r2⟩ := plain_pieces q4
  have stillQ : ∀ t' ∈ (pieces Q).2.map (·.1), ∃ t2 ∈ l'.map (·.1), tagOut T t2 = some ('<' :: (t' ++ ['>'])) := by
    intro t' ht'
    obtain ⟨p, hp, rfl⟩ := List.mem_map.1 ht'
    obtain ⟨t2, h1, h2⟩ := mapped_mem m4 (pieces_mem (t := p.1) (x := p.2) hp)
    exact ⟨t2, unpieces_tag.1 h1, h2⟩
  obtain ⟨b, k, ek, k1, k2, k3⟩ := spell_trim (pieces Q).1 (pieces Q).2
  have ek' : trim (render Q) = spell (b, k) := by rw [← ek, ← spell_pieces q4]
  rw [eo, ek']
  have htrim : trim (spell (b, k)) = spell (b, k) := by rw [← ek', trim_trim]
  have hstill : ∀ p ∈ k, Still T p.1 := by
    intro p hp
    obtain ⟨t2, h1, h2⟩ := stillQ p.1 (by rw [← k2]; exact List.mem_map_of_mem hp)
    exact (still t2 p.1 h1 h2).1
  have hb : Tagless b := k1 r1
  have hk : ∀ p ∈ k, Tagless p.2 := by
    intro p hp
    obtain ⟨q, hq, h⟩ := k3 p hp
    exact h (r2 q hq).2.2.2
  refine fixed_page hT hb (fun p hp => ⟨hstill p hp, hk p hp⟩) ?_ htrim
  have hpl := plain_unpieces (p := (b, k)) hb fun p hp => ⟨(hstill p hp).lt, (hstill p hp).gt, (hstill p hp).sharp, hk p hp⟩
  have esk : spell (b, k) = render (unpieces (b, k)) := by rw [← spell_pieces hpl, pieces_unpieces]
  by_cases hm : Mentions "<pre".toList (spell (b, k)) ∨ Mentions "<textarea".toList (spell (b, k))
  · rw [(condenseWhitespace_spec hT _).1 hm, htrim]
  · rcases hcalm with ⟨⟨t, h1, h2⟩, -⟩ | ⟨hnp, hA, c1, c2, c3, c4⟩
    · exfalso
      obtain ⟨t', h3, h4⟩ := mapped_to m4 (unpieces_tag.2 h1)
      have hp' := (still t t' h1 h4).2 h2
      have : Seg.tag t' ∈ unpieces (b, k) := unpieces_tag.2 (by rw [k2]; exact pieces_tag h3)
      have := pre_mentions hp' this
      rw [← esk] at this
      exact hm this
    · have hcm := calm_tags g4 (a := a') (by
        intro p hp
        obtain ⟨t2, h1, h2⟩ := stillQ p.1 (List.mem_map_of_mem hp)
        have := stillA hnp t2 p.1 h1 (hA t2 h1) h2
        exact ⟨this.1.gt, this.2.1⟩) (fun t t' ht hr => (stillA hnp t t' ht (hA t ht) hr).2.2.1)
      have es : spell (a', (pieces Q).2) = render Q := by
        have g3 : (pieces Q).1 = a' := g3
        rw [← spell_pieces q4, ← g3]
      rw [es] at hcm
      obtain ⟨u, v, ht, -⟩ := trim_spec (render Q)
      rw [ek'] at ht
      have d1 := hcm.1 c1
      have d2 := hcm.2.1 c2
      have d3 : ∀ c, c ∉ spell (a', l') → c ∉ spell (b, k) := by
        intro c h hm
        exact h (hcm.2.2 c (by rw [ht]; simp [hm]))
      rw [ht] at d1 d2
      have hg := (condenseWhitespace_spec hT (spell (b, k))).2 (fun h => hm (.inl h)) (fun h => hm (.inr h))
      exact gaps_unique hg (gaps_calm (apart_infix d1) ⟨d3 _ c3, d3 _ c4⟩ (tri_infix d2) (by intro c b h; cases h))

end Verif.Html
