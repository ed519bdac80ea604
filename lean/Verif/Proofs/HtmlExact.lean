import Verif.Proofs.HtmlTidy
/-!
# A whole page without preformatted text
-/
set_option linter.unusedSimpArgs false
namespace Verif.Html
open Verif.Spec.Html

theorem gapsTo_none {g : Option Char → List Char → Option Char → List Char} {p : Option Char} {s o : List Char} (h : Gaps g p s o) :
    GapsTo g none p s o := by
  induction h with
  | last hw => exact .last hw
  | next hw hc _ ih => exact .next hw hc ih

theorem gapsTo_soft {n p : Option Char} {s o : List Char} (h : GapsTo squeeze n p s o) : Soft s o := by
  induction h with
  | last hw => exact soft_squeeze hw
  | next hw _ _ ih => exact (soft_squeeze hw).app (.char _ ih)

/-- A solid character after white space. -/
theorem white_split {w s a b : List Char} {c d : Char} (hw : ∀ x ∈ w, isWhitespace x = true)
    (hd : isWhitespace d = false) (e : w ++ c :: s = a ++ d :: b) : (a = w ∧ c = d ∧ s = b) ∨ ∃ a', a = w ++ c :: a' ∧ s = a' ++ d :: b := by
  induction w generalizing a with
  | nil =>
    cases a with
    | nil => obtain ⟨rfl, rfl⟩ := List.cons.inj e; exact .inl ⟨rfl, rfl, rfl⟩
    | cons x a => obtain ⟨rfl, rfl⟩ := List.cons.inj e; exact .inr ⟨a, rfl, rfl⟩
  | cons y w ih =>
    cases a with
    | nil =>
      have := hw y (by simp)
      rw [(List.cons.inj e).1, hd] at this; cases this
    | cons x a =>
      obtain ⟨rfl, e1⟩ := List.cons.inj e
      rcases ih (fun x hx => hw x (by simp [hx])) e1 with ⟨rfl, rfl, rfl⟩ | ⟨a', rfl, rfl⟩
      · exact .inl ⟨rfl, rfl, rfl⟩
      · exact .inr ⟨a', rfl, rfl⟩

theorem gaps_cut {g : Option Char → List Char → Option Char → List Char} {p : Option Char} {s o : List Char} (h : Gaps g p s o)
    {a b : List Char} {d : Char} (hd : isWhitespace d = false) (e : s = a ++ d :: b) :
    ∃ a' b', o = a' ++ d :: b' ∧ GapsTo g (some d) p a a' ∧ Gaps g (some d) b b' := by
  induction h generalizing a with
  | last hw =>
    have := hw d (by rw [e]; simp)
    rw [hd] at this; cases this
  | @next p w s o c hw hc h ih =>
    rcases white_split hw hd e with ⟨rfl, rfl, rfl⟩ | ⟨a', rfl, rfl⟩
    · exact ⟨_, _, rfl, .last hw, h⟩
    · obtain ⟨a1, b1, rfl, h1, h2⟩ := ih rfl
      exact ⟨g p w (some c) ++ c :: a1, b1, by simp, .next hw hc h1, h2⟩

theorem gaps_spell {a : List Char} {l : List (List Char × List Char)} {p : Option Char} {o : List Char} (h : Gaps squeeze p (spell (a, l)) o) :
    ∃ a' l', o = spell (a', l') ∧ GapsTo squeeze (upTo l) p a a' ∧ Squeezed (GapsTo squeeze (some '>') (some '<')) l l' := by
  induction l generalizing a o p with
  | nil =>
    rw [spell] at h
    simp only [List.flatMap_nil, List.append_nil] at h
    exact ⟨o, [], by simp [spell], gapsTo_none h, .nil⟩
  | cons q l ih =>
    obtain ⟨t, x⟩ := q
    have e : spell (a, (t, x) :: l) = a ++ '<' :: (t ++ '>' :: spell (x, l)) := by simp [spell]
    rw [e] at h
    obtain ⟨a', b, rfl, h1, h2⟩ := gaps_cut h ws_lt rfl
    obtain ⟨t', c, rfl, h3, h4⟩ := gaps_cut h2 ws_gt rfl
    obtain ⟨x', l', rfl, h5, h6⟩ := ih h4
    exact ⟨a', (t', x') :: l', by simp [spell], by rw [upTo, if_neg (by simp)]; exact h1, .cons h3 h5 h6⟩

theorem squeezed_soft {l l' : List (List Char × List Char)} (h : Squeezed (GapsTo squeeze (some '>') (some '<')) l l') : Softly l l' := by
  induction h with
  | nil => exact .nil
  | cons h1 h2 _ ih => exact .cons (gapsTo_soft h1) (gapsTo_soft h2) ih

theorem tagwise_upTo {R : List Char → List Char → Prop} {l l' : List (List Char × List Char)} (h : Tagwise R l l') : upTo l = upTo l' := by
  cases h with
  | nil => rfl
  | cons _ _ => simp [upTo]

theorem three_exact {R1 G R2 R : List Char → List Char → Prop} {l1 l2 l3 l4 : List (List Char × List Char)} (h1 : Tagwise R1 l1 l2)
    (h2 : Squeezed G l2 l3) (h3 : Tagwise R2 l3 l4)
    (hR : ∀ t x t1 t2 t', (t, x) ∈ l1 → (∃ y, (t2, y) ∈ l3) → R1 t t1 → G t1 t2 → R2 t2 t' → R t t') :
    Squeezed R l1 l4 := by
  induction h1 generalizing l3 l4 with
  | nil => cases h2; cases h3; exact .nil
  | cons hr hl ih =>
    cases h2 with
    | cons s1 s2 h2 => cases h3 with
      | cons hr2 h3 =>
        exact .cons (hR _ _ _ _ _ (List.mem_cons_self ..) ⟨_, List.mem_cons_self ..⟩ hr s1 hr2) (by rw [tagwise_upTo hl]; exact s2)
          (ih h2 h3 fun t x t1 t2 t' hm ⟨y, hy⟩ => hR t x t1 t2 t' (List.mem_cons_of_mem _ hm) ⟨y, List.mem_cons_of_mem _ hy⟩)

/-- A type is found where there is one, up to the next quote. -/
theorem untype_untypes {T : Tables} (hT : T.Ok) (s : List Char) : Untypes T.word s (untype T s) := by
  have ty : "type=\"".toList = ['t', 'y', 'p', 'e', '=', '"'] := by decide +kernel
  have wst : isWhitespace 't' = false := by decide +kernel
  induction s using cut_induct (solid_typeAttr T) with
  | nil => exact .nil
  | miss d s he ih =>
    rw [untype_miss he]
    refine .skip ?_ ih
    rintro w c v u ⟨h1, h2, -, h4⟩ e
    refine ends_nil.1 he (w ++ ("type=\"".toList ++ c :: (v ++ ['"']))) u (by rw [e]; simp) ?_
    refine ⟨w, _, rfl, h1, lang_lit.2 ⟨c :: (v ++ ['"']), rfl, [c], v ++ ['"'], rfl, ⟨c, rfl, h2⟩, v, ['"'], rfl, ?_, lang_c.2 rfl⟩⟩
    intro x hx
    simp only [notNl, bne_iff_ne]
    rintro rfl
    exact h4 hx
  | hit s h hh he ih =>
    rw [untype_hit he]
    obtain ⟨w, v, e, hw, hv⟩ := typeAttr_hit hT he
    obtain ⟨es, hl⟩ := ends_sound (r := typeAttr T) (h := h) (by rw [he]; simp)
    obtain ⟨w', y, ey, hw', hl⟩ := hl
    obtain ⟨u, rfl, x, z, rfl, ⟨c, rfl, hc⟩, v', q, rfl, hv', hq⟩ := lang_lit.1 hl
    rw [lang_c.1 hq] at ey
    have e2 : w ++ ("type=\"".toList ++ v ++ ['"']) = w' ++ ("type=\"".toList ++ (c :: (v' ++ ['"']))) := by
      refine List.append_inj_left' (t₁ := h.rest) (t₂ := h.rest) ?_ rfl
      rw [← e, es, ey]; simp
    rw [ty] at e2
    obtain ⟨rfl, -, e3⟩ := class_split hw (show ∀ c ∈ w', isWhitespace c = true from hw') wst wst (by simpa using e2)
    simp at e3
    have e4 : v = c :: v' := by
      have : v ++ ['"'] = (c :: v') ++ ['"'] := by simpa using e3
      exact List.append_inj_left' this rfl
    subst e4
    have e5 : s = w ++ ("type=\"".toList ++ c :: (v' ++ '"' :: h.rest)) := by rw [e]; simp
    conv => lhs; rw [e5]
    refine .type ⟨hw, hc, fun h => hv (by simp [h]), ?_⟩ ih
    intro hx
    have := hv' _ hx
    simp [notNl] at this

theorem untypes_det {word : Char → Bool} {s o o' : List Char} (h : Untypes word s o) (h' : Untypes word s o') : o = o' := by
  have ty : "type=\"".toList = ['t', 'y', 'p', 'e', '=', '"'] := by decide +kernel
  have wst : isWhitespace 't' = false := by decide +kernel
  induction h generalizing o' with
  | nil =>
    generalize e : ([] : List Char) = s at h'
    cases h' with
    | nil => rfl
    | skip _ _ => cases e
    | type _ _ => exact absurd e (by simp)
  | @skip c s o hs _ ih =>
    generalize e : c :: s = s' at h'
    cases h' with
    | nil => cases e
    | skip _ h' => obtain ⟨rfl, rfl⟩ := List.cons.inj e; rw [ih h']
    | type hq _ => exact absurd e (hs _ _ _ _ hq)
  | @type w v s o c ht _ ih =>
    generalize e : w ++ ("type=\"".toList ++ c :: (v ++ '"' :: s)) = s' at h'
    cases h' with
    | nil => exact absurd e (by simp)
    | skip hs _ => exact absurd e.symm (hs _ _ _ _ ht)
    | @type w' v' s' _ c' ht' h' =>
      rw [ty] at e
      obtain ⟨rfl, -, e2⟩ := class_split ht.1 ht'.1 wst wst (by simpa using e)
      simp at e2
      obtain ⟨rfl, e3⟩ := e2
      have nq : ∀ {v : List Char}, '"' ∉ v → ∀ c ∈ v, (c != '"') = true := by
        intro v hv c hc
        rw [bne_iff_ne]; rintro rfl; exact hv hc
      obtain ⟨-, -, rfl⟩ := class_split (p := (· != '"')) (nq ht.2.2.1) (nq ht'.2.2.1) (by decide) (by decide) e3
      exact ih h'

theorem cond_cleaned {T : Tables} (hT : T.Ok) {t t1 : List Char} (h1 : '<' ∉ t) (h2 : '>' ∉ t) (h : condTag T t = '<' :: (t1 ++ ['>'])) :
    (StyleTag T.word t ∧ Untypes T.word ('<' :: t ++ ['>']) ('<' :: t1 ++ ['>'])) ∨ (¬ StyleTag T.word t ∧ t1 = t) := by
  rcases condTag_exact hT h1 h2 with ⟨k1, k2⟩ | ⟨k1, k2⟩
  · refine .inl ⟨k1, ?_⟩
    rw [List.cons_append, List.cons_append, ← h, k2]
    exact untype_untypes hT _
  · refine .inr ⟨k1, ?_⟩
    rw [h] at k2
    exact List.append_inj_left' (List.cons.inj k2).2 rfl

/-- A page without preformatted text. -/
theorem minify_exact {T : Tables} (hT : T.Ok) {P : List Seg} (hP : Page P) (hn : ∀ t, Seg.tag t ∈ P → ¬ Pre t) :
    ∃ P' Q, minify T (render P) = some (trim (render Q)) ∧ (∀ x ∈ Q, Seg.Plain x) ∧ Rewritten (· = ·) P P' ∧
      GapsTo squeeze (upTo (pieces P').2) none (pieces P').1 (pieces Q).1 ∧
      Squeezed (Cleaned T.word) (pieces P').2 (pieces Q).2 := by
  obtain ⟨P2, e2, q2, m2⟩ := condense_page hT (plain_of_page hP)
  obtain ⟨P3, e3, q3, m3⟩ := clean_page q2
  have hm : ¬ (Mentions "<pre".toList (render P3) ∨ Mentions "<textarea".toList (render P3)) := by
    intro hm
    obtain ⟨tp, h1, h2⟩ := mentions_pre q3 hm
    obtain ⟨h3, -⟩ := dropped_mem m3 h1
    obtain ⟨t, h4, -, h5⟩ := mapped_mem m2 h3
    obtain ⟨x, hx, e⟩ := List.mem_map.1 h4
    have ht : Seg.tag t ∈ P := by
      cases x with
      | text s => cases e
      | tag s => cases e; exact hx
      | comment s => cases e
    rcases h5 with rfl | ⟨z, z', -, rfl⟩
    · exact hn _ ht h2
    · exact s_not_pre h2
  have hg := (condenseWhitespace_spec hT (render P3)).2 (fun h => hm (.inl h)) (fun h => hm (.inr h))
  generalize ho' : condenseWhitespace T (render P3) = o at hg
  have hap := gaps_apart hg
  obtain ⟨nr, nn⟩ := gaps_nobreak hg
  rw [← spell_pieces q3] at hg
  obtain ⟨a', l', e5, c1, c2⟩ := gaps_spell (a := (pieces P3).1) (l := (pieces P3).2) hg
  have s1 := gapsTo_soft c1
  have s2 := squeezed_soft c2
  obtain ⟨p1, p2⟩ := plain_pieces q3
  have p4 := softly_plain s2 p2
  have p3 := plain_unpieces (p := (a', l')) (soft_tagless s1 p1) p4
  have e6 : o = render (unpieces (a', l')) := by rw [← spell_pieces p3, pieces_unpieces]; exact e5
  obtain ⟨Q, e4, q4, m4⟩ := unquote_page hT p3
  have id3 : Mapped (· = ·) P3 P3 := by
    clear m3 e3 s1 s2 p1 p2 hm ho' hg c1 c2
    induction P3 with
    | nil => exact .nil
    | cons x P3 ih =>
      have ih := ih (fun x hx => q3 x (by simp [hx]))
      cases x with
      | text t => exact .text ih
      | tag t => exact .tag rfl ih
      | comment b => exact absurd (q3 _ (List.mem_cons_self ..)) id
  obtain ⟨P', r1, r2⟩ := rewritten_split (rewritten_of m2 m3 id3)
  refine ⟨P', Q, ?_, q4, r1, ?_⟩
  · rw [minify, removeComments_page hP, e2, e3, ho', unquoteAttributes, e6, e4]
    show some (trim (trim _)) = _
    rw [trim_trim]
  · obtain ⟨g1, g2⟩ := mapped_pieces r2
    obtain ⟨g3, g4⟩ := mapped_pieces m4
    rw [pieces_unpieces] at g3 g4
    refine ⟨by rw [g3, ← g1, tagwise_upTo g2]; exact c1, ?_⟩
    refine three_exact g2 c2 g4 ?_
    rintro t x t1 t2 t' hm ⟨y, hy⟩ ⟨t0, k1, rfl⟩ k2 k3
    have hmem := rewritten_mem r1 (pieces_mem hm)
    have hok := page_tag hP hmem
    obtain ⟨u, v, huv⟩ := spell_infix (a := a') hy
    rw [e5, huv] at hap nr nn
    have := p4 _ hy
    have ks := gapsTo_soft k2
    refine ⟨t0, cond_cleaned hT hok.1 hok.2.1 k1, t2, k2, ?_, ?_⟩
    · rintro ⟨h, f1, f2⟩
      rw [tidy_out hT ks (apart_infix hap) (fun h => nn (by simp [h])) this.1 this.2.1 f1 f2] at k3
      rw [List.cons_append, ← Option.some.inj k3]
      exact quotes_unquotes _
    · intro hns
      rw [notStart_out hT ks this.1 hns] at k3
      exact (List.append_inj_left' (List.cons.inj (Option.some.inj k3)).2 rfl).symm

/-! ## There is one result -/

theorem gapsTo_det {g : Option Char → List Char → Option Char → List Char} {n p : Option Char} {s o o' : List Char}
    (h : GapsTo g n p s o) (h' : GapsTo g n p s o') : o = o' := by
  induction h generalizing o' with
  | @last p w hw =>
    generalize e : w = s at h'
    cases h' with
    | last _ => rfl
    | @next _ w' s o c hw' hc _ =>
      have := hw c (by rw [e]; simp)
      rw [hc] at this; cases this
  | @next p w s o c hw hc h ih =>
    generalize e : w ++ c :: s = s' at h'
    cases h' with
    | last hw' =>
      have := hw' c (by rw [← e]; simp)
      rw [hc] at this; cases this
    | @next _ w' s' o' c' hw' hc' h' =>
      rcases white_split hw hc' e with ⟨rfl, rfl, rfl⟩ | ⟨a', rfl, -⟩
      · rw [ih h']
      · have := hw' c (by simp)
        rw [hc] at this; cases this

theorem tidied_det {word : Char → Bool} {t o o' : List Char} (hu : (∃ h, t.head? = some h ∧ word h = true) ∨ NotStart t)
    (h : Tidied word t o) (h' : Tidied word t o') : o = o' := by
  obtain ⟨t2, h1, h2, h3⟩ := h
  obtain ⟨t2', h1', h2', h3'⟩ := h'
  obtain rfl := gapsTo_det h1 h1'
  rcases hu with hu | hu
  · have := unquotes_det (h2 hu) (h2' hu)
    exact List.append_inj_left' (List.cons.inj this).2 rfl
  · rw [h3 hu, h3' hu]

theorem untypes_first {word : Char → Bool} {d : Char} {s o : List Char} (h : Untypes word (d :: s) o) (hd : isWhitespace d = false)
    (ht : d ≠ 't') : ∃ o', o = d :: o' ∧ Untypes word s o' := by
  have ty : "type=\"".toList = ['t', 'y', 'p', 'e', '=', '"'] := by decide +kernel
  generalize e : d :: s = s' at h
  cases h with
  | nil => cases e
  | skip _ h => obtain ⟨rfl, rfl⟩ := List.cons.inj e; exact ⟨_, rfl, h⟩
  | @type w v s o c hq _ =>
    exfalso
    cases w with
    | nil => rw [ty] at e; exact ht (List.cons.inj e).1
    | cons x w =>
      have := hq.1 x (by simp)
      rw [← (List.cons.inj e).1, hd] at this; cases this

theorem style_head {word : Char → Bool} {t t1 : List Char} (k1 : StyleTag word t)
    (k2 : Untypes word ('<' :: t ++ ['>']) ('<' :: t1 ++ ['>'])) : t1.head? = some 's' := by
  obtain ⟨w, c, u, hw, rfl, -, -⟩ := k1
  have : ∃ r, w ++ c :: u ++ ['>'] = 's' :: r := by
    rcases hw with rfl | rfl
    · exact ⟨_, rfl⟩
    · exact ⟨_, rfl⟩
  obtain ⟨r, hr⟩ := this
  rw [List.cons_append, hr] at k2
  obtain ⟨o1, e1, k3⟩ := untypes_first k2 ws_lt (by decide)
  obtain ⟨o2, e2, -⟩ := untypes_first k3 (by decide +kernel) (by decide)
  rw [e2] at e1
  have e3 := (List.cons.inj e1).2
  cases t1 with
  | nil => exact absurd (List.cons.inj e3).1 (by decide)
  | cons x t1 => rw [(List.cons.inj e3).1]; rfl

theorem cleaned_det {T : Tables} (hT : T.Ok) {t o o' : List Char} (hu : (∃ h, t.head? = some h ∧ T.word h = true) ∨ NotStart t)
    (h : Cleaned T.word t o) (h' : Cleaned T.word t o') : o = o' := by
  obtain ⟨t1, h1, h2⟩ := h
  obtain ⟨t1', h1', h2'⟩ := h'
  rcases h1 with ⟨k1, k2⟩ | ⟨k1, rfl⟩
  · rcases h1' with ⟨-, k2'⟩ | ⟨k1', -⟩
    · have e : t1 = t1' := List.append_inj_left' (List.cons.inj (untypes_det k2 k2')).2 rfl
      subst e
      refine tidied_det (.inl ⟨'s', ?_, by rw [hT.word_ascii _ (by decide)]; decide⟩) h2 h2'
      exact style_head k1 k2
    · exact absurd k1 k1'
  · rcases h1' with ⟨k1', -⟩ | ⟨-, rfl⟩
    · exact absurd k1' k1
    · exact tidied_det hu h2 h2'

theorem squeezed_det {R : List Char → List Char → Prop} {l o o' : List (List Char × List Char)}
    (hR : ∀ t x y y', (t, x) ∈ l → R t y → R t y' → y = y') (h : Squeezed R l o) (h' : Squeezed R l o') : o = o' := by
  induction h generalizing o' with
  | nil => cases h'; rfl
  | cons h1 h2 _ ih =>
    cases h' with
    | cons k1 k2 k3 =>
      rw [hR _ _ _ _ (List.mem_cons_self ..) h1 k1, gapsTo_det h2 k2, ih (fun t x y y' hm => hR t x y y' (List.mem_cons_of_mem _ hm)) k3]

theorem squeezed_mono {R R' : List Char → List Char → Prop} {l l' : List (List Char × List Char)} (h : Squeezed R l l')
    (hR : ∀ t x t', (t, x) ∈ l → R t t' → R' t t') : Squeezed R' l l' := by
  induction h with
  | nil => exact .nil
  | cons h1 h2 _ ih =>
    exact .cons (hR _ _ _ (List.mem_cons_self ..) h1) h2 (ih fun t x t' hm => hR t x t' (List.mem_cons_of_mem _ hm))

theorem rewritten_det {P Q Q' : List Seg} (h : Rewritten (· = ·) P Q) (h' : Rewritten (· = ·) P Q') : Q = Q' := by
  induction h generalizing Q' with
  | nil => cases h'; rfl
  | text _ ih => cases h' with
    | text h' => rw [ih h']
  | comment _ ih => cases h' with
    | comment h' => rw [ih h']
  | drop hl _ ih => cases h' with
    | drop _ h' => exact ih h'
    | tag hn _ _ => exact absurd hl hn
  | tag hn e _ ih => cases h' with
    | drop hl _ => exact absurd hl hn
    | tag _ e' h' => rw [ih h', ← e, ← e']

end Verif.Html
