import Verif.Proofs.HtmlPre
/-!
# Ordinary pages
-/
set_option linter.unusedSimpArgs false
namespace Verif.Html
open Verif.Spec.Html

/-! ## Less white space -/

theorem _root_.Verif.Spec.Html.Soft.refl (s : List Char) : Soft s s := by
  induction s with
  | nil => exact .nil
  | cons c s ih => exact .char c ih

theorem _root_.Verif.Spec.Html.Soft.app {a b c d : List Char} (h : Soft a b) (h' : Soft c d) : Soft (a ++ c) (b ++ d) := by
  induction h with
  | nil => exact h'
  | char c _ ih => exact .char c ih
  | gap h1 h2 _ ih => rw [List.append_assoc]; exact .gap h1 h2 ih

theorem soft_squeeze {p n : Option Char} {w : List Char} (hw : ∀ c ∈ w, isWhitespace c = true) : Soft w (squeeze p w n) := by
  unfold squeeze
  split
  · rename_i h; rw [h]; exact .nil
  · rename_i hne
    split
    · have := Soft.gap hne hw .nil
      rwa [List.append_nil] at this
    · exact .refl w

theorem soft_gaps {p : Option Char} {s o : List Char} (h : Gaps squeeze p s o) : Soft s o := by
  induction h with
  | last hw => exact soft_squeeze hw
  | next hw _ _ ih => exact (soft_squeeze hw).app (.char _ ih)

/-- At a solid character both sides can be cut. -/
theorem soft_cut {s o : List Char} (h : Soft s o) {a b : List Char} {c : Char} (e : s = a ++ c :: b) (hc : isWhitespace c = false) :
    ∃ a' b', o = a' ++ c :: b' ∧ Soft a a' ∧ Soft b b' := by
  induction h generalizing a with
  | nil => simp at e
  | @char s o d h ih =>
    cases a with
    | nil =>
      obtain ⟨rfl, rfl⟩ := List.cons.inj e
      exact ⟨[], o, rfl, .nil, h⟩
    | cons x a =>
      obtain ⟨rfl, e'⟩ := List.cons.inj e
      obtain ⟨a', b', h1, h2, h3⟩ := ih e'
      exact ⟨d :: a', b', by rw [h1]; rfl, .char d h2, h3⟩
  | @gap w s o h1 h2 h ih =>
    -- the cut is behind the gap
    have key : ∀ (w a : List Char), (∀ c ∈ w, isWhitespace c = true) → w ++ s = a ++ c :: b → ∃ a1, a = w ++ a1 ∧ s = a1 ++ c :: b := by
      intro w
      induction w with
      | nil => intro a _ e; exact ⟨a, rfl, e⟩
      | cons x w ihw =>
        intro a hw e
        cases a with
        | nil =>
          have := hw x (by simp)
          rw [(List.cons.inj e).1, hc] at this; exact absurd this (by decide)
        | cons y a =>
          obtain ⟨rfl, e'⟩ := List.cons.inj e
          obtain ⟨a1, g1, g2⟩ := ihw a (fun z hz => hw z (by simp [hz])) e'
          exact ⟨a1, by rw [g1]; rfl, g2⟩
    obtain ⟨a1, rfl, e1⟩ := key w a h2 e
    obtain ⟨a', b', g1, g2, g3⟩ := ih e1
    exact ⟨' ' :: a', b', by rw [g1]; rfl, .gap h1 h2 g2, g3⟩

theorem soft_mem {s o : List Char} (h : Soft s o) {c : Char} (hc : isWhitespace c = false) (hm : c ∈ o) : c ∈ s := by
  induction h with
  | nil => exact hm
  | char d _ ih =>
    rcases List.mem_cons.1 hm with rfl | hm
    · exact List.mem_cons_self ..
    · exact List.mem_cons_of_mem _ (ih hm)
  | gap _ _ _ ih =>
    rcases List.mem_cons.1 hm with rfl | hm
    · rw [ws_sp] at hc; exact absurd hc (by decide)
    · exact List.mem_append_right _ (ih hm)

theorem collapse_ws {w : List Char} (hw : ∀ c ∈ w, isWhitespace c = true) (s : List Char) : collapse true (w ++ s) = collapse true s := by
  induction w with
  | nil => rfl
  | cons c w ih =>
    rw [List.cons_append, collapse, if_pos (hw c (by simp)), if_pos rfl]
    exact ih fun z hz => hw z (by simp [hz])

theorem soft_collapse {s o : List Char} (h : Soft s o) (p : Bool) : collapse p o = collapse p s := by
  induction h generalizing p with
  | nil => rfl
  | char c _ ih =>
    simp only [collapse, ih]
  | @gap w s o h1 h2 _ ih =>
    cases w with
    | nil => exact absurd rfl h1
    | cons c w =>
      have hw := collapse_ws (w := w) (fun z hz => h2 z (by simp [hz])) s
      rw [List.cons_append, collapse, collapse, if_pos ws_sp, if_pos (h2 c (by simp)), hw, ih]

/-! ## Tags -/

theorem soft_head {s o : List Char} (h : Soft s o) :
    s.head? = o.head? ∨ ∃ c, s.head? = some c ∧ isWhitespace c = true ∧ o.head? = some ' ' := by
  cases h with
  | nil => exact .inl rfl
  | char c _ => exact .inl rfl
  | @gap w s o h1 h2 _ =>
    cases w with
    | nil => exact absurd rfl h1
    | cons c w => exact .inr ⟨c, rfl, h2 c (by simp), rfl⟩

/-- A tame tag stays tame and reads the same. -/
theorem soft_tame {s o : List Char} (h : Soft s o) {r : Reader} (ht : Tame r s) (hg : Tight r s) : Tame r o ∧ r.run o = r.run s := by
  induction h generalizing r with
  | nil => exact ⟨trivial, rfl⟩
  | @char s o c h ih =>
    obtain ⟨h1, h2⟩ := ih ht.2 hg.2
    refine ⟨⟨?_, h1⟩, by rw [run_cons, run_cons, h2]⟩
    have hd := soft_head h
    refine ⟨?_, ?_⟩
    · intro hc
      rcases ht.1.1 hc with h3 | ⟨n, v, h3, d, h4, h5⟩
      · exact .inl h3
      · refine .inr ⟨n, v, h3, ?_⟩
        rcases hd with hd | ⟨x, -, -, hd⟩
        · exact ⟨d, by rw [← hd]; exact h4, h5⟩
        · exact ⟨' ', hd, .inl blank_sp⟩
    · intro hc
      have h3 := ht.1.2 hc
      split
      · rename_i hq
        rw [if_pos hq] at h3
        intro d hd'
        rcases hd with hd | ⟨x, hx, hw, -⟩
        · exact h3 d (by rw [hd]; exact hd')
        · rw [h3 x hx] at hw; exact absurd hw (by decide)
      · rename_i hq
        rw [if_neg hq] at h3
        exact h3
  | @gap w s o h1 h2 h ih =>
    cases hq : r.st.quoted with
    | true =>
      -- the gap is one blank already
      match w, h1, h2, ht, hg with
      | [x], _, h2, ht, hg =>
        have hx : x = ' ' := hg.1 (h2 x (by simp)) hq
        subst hx
        obtain ⟨h3, h4⟩ := ih ht.2 hg.2
        refine ⟨⟨⟨by intro e; exact absurd e (by decide), ?_⟩, h3⟩, ?_⟩
        · intro _
          rw [if_pos hq]
          have h5 := ht.1.2 ws_sp
          rw [if_pos hq] at h5
          intro d hd'
          rcases soft_head h with hd | ⟨y, hy, hw, -⟩
          · exact h5 d (hd.trans hd')
          · rw [h5 y hy] at hw; exact absurd hw (by decide)
        · rw [run_cons, h4]; rfl
      | x :: y :: w, _, h2, ht, hg =>
        exfalso
        have := ht.1.2 (h2 x (by simp))
        rw [if_pos hq] at this
        have := this y rfl
        rw [h2 y (by simp)] at this; exact absurd this (by decide)
    | false =>
      have hb : ∀ (w : List Char) (r : Reader), r.st.quoted = false → (∀ c ∈ w, isWhitespace c = true) → Tame r (w ++ s) →
          ∀ c ∈ w, blank c = true := by
        intro w
        induction w with
        | nil => intro r _ _ _ c hc; simp at hc
        | cons x w ihw =>
          intro r hq hw ht c hc
          have hx := ht.1.2 (hw x (by simp))
          rw [if_neg (by rw [hq]; decide)] at hx
          rcases List.mem_cons.1 hc with rfl | hc
          · exact hx
          · exact ihw (r.step x) (step_blank r hq hx blank_sp).2.2 (fun z hz => hw z (by simp [hz])) ht.2 c hc
      have hb := hb w r hq h2 ht
      have hr := run_blanks r hq hb h1
      have ht2 := tame_append ht
      have hg2 : Tight (r.run w) s := by
        clear hr hb h1 h2 ht ht2 hq
        induction w generalizing r with
        | nil => exact hg
        | cons c w ihw => exact ihw hg.2
      rw [hr] at ht2 hg2
      obtain ⟨h3, h4⟩ := ih ht2 hg2
      refine ⟨⟨⟨by intro e; exact absurd e (by decide), ?_⟩, h3⟩, ?_⟩
      · intro _
        rw [if_neg (by rw [hq]; decide)]; exact blank_sp
      · rw [run_cons, run_append, hr, h4]

/-- A tag through all the passes. -/
theorem tag_soft {T : Tables} (hT : T.Ok) {t t1 t2 t' : List Char} (h1 : '<' ∉ t) (h2 : '>' ∉ t) (hk : Kept t)
    (hg : Tight Reader.init ('<' :: t ++ ['>']))
    (hc : condTag T t = '<' :: (t1 ++ ['>'])) (hs : Soft t1 t2) (ho : tagOut T t2 = some ('<' :: (t' ++ ['>']))) : ReadsAs t t' := by
  have hk1 : Tame Reader.init ('<' :: (t ++ ['>'])) := hk.1
  have hg1 : Tight Reader.init ('<' :: (t ++ ['>'])) := hg
  obtain ⟨y, g1, g2, -⟩ := condTag_shape hT h1 h2
  rw [hc] at g1
  have hy : t1 = y := List.append_inj_left' (List.cons.inj g1).2 rfl
  subst hy
  have n1 : '<' ∉ t2 := fun h => h1 (g2.subset (soft_mem hs ws_lt h))
  have n2 : '>' ∉ t2 := fun h => h2 (g2.subset (soft_mem hs ws_gt h))
  have hs' : Soft ('<' :: (t1 ++ ['>'])) ('<' :: (t2 ++ ['>'])) := .char '<' (hs.app (.refl _))
  have read : Tame Reader.init ('<' :: (t1 ++ ['>'])) → Tight Reader.init ('<' :: (t1 ++ ['>'])) →
      readTag ('<' :: (t' ++ ['>'])) = readTag ('<' :: (t1 ++ ['>'])) := by
    intro a b
    obtain ⟨x, y⟩ := soft_tame hs' a b
    rw [tagOut_read hT n1 n2 x ho, readTag, readTag, y]
  rcases condTag_cases hT h1 h2 with h | ⟨hs, h⟩
  · rw [hc] at h
    have : t1 = t := List.append_inj_left' (List.cons.inj h).2 rfl
    subst this
    have e := read hk1 hg1
    refine ⟨fun _ => e, fun n as b hr => ⟨as, b, ?_, .refl as⟩⟩
    show readTag ('<' :: (t' ++ ['>'])) = _
    rw [e]; exact hr
  · refine ⟨fun hn => absurd hs hn, ?_⟩
    intro n as b hr
    have hsafe : TypeSafe Reader.init ('<' :: (t ++ ['>'])) := hk.2 hs
    obtain ⟨bs, b', k1, k2⟩ := condense_read hT hk1 hsafe hr
    obtain ⟨k3, -, -, k4, -⟩ := condense_tame hT _ Reader.init Reader.init ⟨rfl, .inl ⟨rfl, .nil⟩⟩ hk1 hsafe
    have k4 := k4 hg1
    rw [← h, hc] at k1 k3 k4
    refine ⟨bs, b', ?_, k2⟩
    show readTag ('<' :: (t' ++ ['>'])) = _
    rw [read k3 k4]; exact k1

/-! ## Pages -/

/-- The text of the pieces. -/
def spell (p : List Char × List (List Char × List Char)) : List Char :=
  p.1 ++ p.2.flatMap fun x => '<' :: (x.1 ++ '>' :: x.2)

theorem spell_pieces {P : List Seg} (hP : ∀ x ∈ P, Seg.Plain x) : spell (pieces P) = render P := by
  induction P with
  | nil => rfl
  | cons x P ih =>
    have ih := ih (fun x hx => hP x (by simp [hx]))
    rw [render_cons, ← ih]
    cases x with
    | text t => simp [pieces, spell, Seg.show]
    | tag t => simp [pieces, spell, Seg.show]
    | comment b => exact absurd (hP _ (List.mem_cons_self ..)) id

def unpieces (p : List Char × List (List Char × List Char)) : List Seg :=
  .text p.1 :: p.2.flatMap fun x => [.tag x.1, .text x.2]

theorem pieces_unpieces (p : List Char × List (List Char × List Char)) : pieces (unpieces p) = p := by
  obtain ⟨a, l⟩ := p
  have key : ∀ l : List (List Char × List Char), pieces (l.flatMap fun x => [.tag x.1, .text x.2]) = ([], l) := by
    intro l
    induction l with
    | nil => rfl
    | cons x l ih => simp [pieces, ih]
  simp [unpieces, pieces, key]

inductive Softly : List (List Char × List Char) → List (List Char × List Char) → Prop
  | nil : Softly [] []
  | cons {t t' x x' : List Char} {l l' : List (List Char × List Char)} : Soft t t' → Soft x x' → Softly l l' →
      Softly ((t, x) :: l) ((t', x') :: l')

theorem soft_spell {a : List Char} {l : List (List Char × List Char)} {o : List Char} (h : Soft (spell (a, l)) o) :
    ∃ a' l', o = spell (a', l') ∧ Soft a a' ∧ Softly l l' := by
  induction l generalizing a o with
  | nil =>
    rw [spell] at h
    simp only [List.flatMap_nil, List.append_nil] at h
    exact ⟨o, [], by simp [spell], h, .nil⟩
  | cons p l ih =>
    obtain ⟨t, x⟩ := p
    have e : spell (a, (t, x) :: l) = a ++ '<' :: (t ++ '>' :: spell (x, l)) := by simp [spell]
    rw [e] at h
    obtain ⟨a', b, rfl, h1, h2⟩ := soft_cut h rfl ws_lt
    obtain ⟨t', c, rfl, h3, h4⟩ := soft_cut h2 rfl ws_gt
    obtain ⟨x', l', rfl, h5, h6⟩ := ih h4
    exact ⟨a', (t', x') :: l', by simp [spell], h1, .cons h3 h5 h6⟩

/-- The listed tags and comments first, then the tags. -/
theorem rewritten_split {R : List Char → List Char → Prop} {P Q : List Seg} (h : Rewritten R P Q) :
    ∃ P', Rewritten (· = ·) P P' ∧ Mapped R P' Q := by
  induction h with
  | nil => exact ⟨[], .nil, .nil⟩
  | text _ ih => obtain ⟨P', h1, h2⟩ := ih; exact ⟨_, .text h1, .text h2⟩
  | comment _ ih => obtain ⟨P', h1, h2⟩ := ih; exact ⟨_, .comment h1, .text h2⟩
  | drop hl _ ih => obtain ⟨P', h1, h2⟩ := ih; exact ⟨_, .drop hl h1, h2⟩
  | tag hl hr _ ih => obtain ⟨P', h1, h2⟩ := ih; exact ⟨_, .tag hl rfl h1, .tag hr h2⟩

theorem rewritten_mem {P P' : List Seg} (h : Rewritten (· = ·) P P') {t : List Char} (hm : Seg.tag t ∈ P') : Seg.tag t ∈ P := by
  induction h with
  | nil => exact hm
  | text _ ih =>
    rcases List.mem_cons.1 hm with h | h
    · cases h
    · exact List.mem_cons_of_mem _ (ih h)
  | comment _ ih =>
    rcases List.mem_cons.1 hm with h | h
    · cases h
    · exact List.mem_cons_of_mem _ (ih h)
  | drop _ _ ih => exact List.mem_cons_of_mem _ (ih hm)
  | tag _ he _ ih =>
    rcases List.mem_cons.1 hm with h | h
    · rw [h, he]; exact List.mem_cons_self ..
    · exact List.mem_cons_of_mem _ (ih h)

inductive Tagwise (R : List Char → List Char → Prop) : List (List Char × List Char) → List (List Char × List Char) → Prop
  | nil : Tagwise R [] []
  | cons {t t' x : List Char} {l l' : List (List Char × List Char)} : R t t' → Tagwise R l l' → Tagwise R ((t, x) :: l) ((t', x) :: l')

theorem mapped_pieces {R : List Char → List Char → Prop} {P Q : List Seg} (h : Mapped R P Q) :
    (pieces Q).1 = (pieces P).1 ∧ Tagwise R (pieces P).2 (pieces Q).2 := by
  induction h with
  | nil => exact ⟨rfl, .nil⟩
  | text _ ih => exact ⟨by simp only [pieces, ih.1], ih.2⟩
  | tag hr _ ih =>
    refine ⟨rfl, ?_⟩
    simp only [pieces]
    rw [ih.1]; exact .cons hr ih.2

theorem three_steps {R1 R2 R : List Char → List Char → Prop} {l1 l2 l3 l4 : List (List Char × List Char)} (h1 : Tagwise R1 l1 l2)
    (h2 : Softly l2 l3) (h3 : Tagwise R2 l3 l4) (hR : ∀ t x t1 t2 t', (t, x) ∈ l1 → R1 t t1 → Soft t1 t2 → R2 t2 t' → R t t') :
    Pairs R l1 l4 := by
  induction h1 generalizing l3 l4 with
  | nil => cases h2; cases h3; exact .nil
  | cons hr _ ih =>
    cases h2 with
    | cons s1 s2 h2 => cases h3 with
      | cons hr2 h3 =>
        exact .cons (hR _ _ _ _ _ (List.mem_cons_self ..) hr s1 hr2) s2
          (ih h2 h3 fun t x t1 t2 t' hm => hR t x t1 t2 t' (List.mem_cons_of_mem _ hm))

theorem pieces_mem {P : List Seg} {t x : List Char} (h : (t, x) ∈ (pieces P).2) : Seg.tag t ∈ P := by
  induction P with
  | nil => simp [pieces] at h
  | cons y P ih =>
    cases y with
    | text s => exact List.mem_cons_of_mem _ (ih h)
    | comment b => exact List.mem_cons_of_mem _ (ih h)
    | tag s =>
      rcases List.mem_cons.1 h with h | h
      · rw [(Prod.mk.inj h).1]; exact List.mem_cons_self ..
      · exact List.mem_cons_of_mem _ (ih h)

theorem soft_stray {s o : List Char} (h : Soft s o) (hs : stray s = true) : stray o = true := by
  induction h with
  | nil => exact hs
  | char c _ ih =>
    rw [stray] at hs ⊢
    split at hs
    · rename_i hc
      rw [if_pos hc]; exact ih hs
    · rename_i hc
      rw [if_neg hc]; exact hs
  | gap _ _ _ _ =>
    show dull ' ' = true
    decide +kernel

theorem soft_keeps {s o : List Char} (h : Soft s o) {c : Char} (hc : isWhitespace c = false) (hm : c ∈ s) : c ∈ o := by
  induction h with
  | nil => exact hm
  | char d _ ih =>
    rcases List.mem_cons.1 hm with rfl | hm
    · exact List.mem_cons_self ..
    · exact List.mem_cons_of_mem _ (ih hm)
  | gap _ hw _ ih =>
    rcases List.mem_append.1 hm with hm | hm
    · rw [hw c hm] at hc; exact absurd hc (by decide)
    · exact List.mem_cons_of_mem _ (ih hm)

theorem soft_tagless {s o : List Char} (h : Soft s o) (hs : Tagless s) : Tagless o := by
  induction h with
  | nil => exact hs
  | char c h ih =>
    intro a b e
    cases a with
    | nil =>
      obtain ⟨rfl, rfl⟩ := List.cons.inj e
      obtain ⟨h1, d, h2, h3⟩ := hs [] _ rfl
      exact ⟨soft_stray h h1, d, soft_keeps h h3 h2, h3⟩
    | cons d a => exact ih hs.tail a b (List.cons.inj e).2
  | gap _ _ _ ih =>
    intro a b e
    cases a with
    | nil => exact absurd (List.cons.inj e).1 (by decide)
    | cons d a => exact ih hs.suffix a b (List.cons.inj e).2

theorem soft_sharp {s o : List Char} (h : Soft s o) (hs : Sharp s) : Sharp o := by
  cases h with
  | nil => exact hs
  | char c h =>
    intro d u e
    rw [← (List.cons.inj e).1]; exact hs _ _ rfl
  | @gap w s o h1 h2 h =>
    cases w with
    | nil => exact absurd rfl h1
    | cons c w =>
      have h3 := hs c _ rfl
      rw [dull, h2 c (by simp)] at h3
      exact absurd h3 (by simp)

theorem softly_plain {l l' : List (List Char × List Char)} (h : Softly l l')
    (hl : ∀ p ∈ l, '<' ∉ p.1 ∧ '>' ∉ p.1 ∧ Sharp p.1 ∧ Tagless p.2) : ∀ p ∈ l', '<' ∉ p.1 ∧ '>' ∉ p.1 ∧ Sharp p.1 ∧ Tagless p.2 := by
  induction h with
  | nil => simp
  | cons h1 h2 _ ih =>
    intro p hp
    rcases List.mem_cons.1 hp with rfl | hp
    · have := hl _ (List.mem_cons_self ..)
      exact ⟨fun h => this.1 (soft_mem h1 ws_lt h), fun h => this.2.1 (soft_mem h1 ws_gt h), soft_sharp h1 this.2.2.1,
        soft_tagless h2 this.2.2.2⟩
    · exact ih (fun p hp => hl p (List.mem_cons_of_mem _ hp)) p hp

theorem plain_pieces {P : List Seg} (hP : ∀ x ∈ P, Seg.Plain x) :
    Tagless (pieces P).1 ∧ ∀ p ∈ (pieces P).2, '<' ∉ p.1 ∧ '>' ∉ p.1 ∧ Sharp p.1 ∧ Tagless p.2 := by
  induction P with
  | nil => exact ⟨.of (by simp [pieces]), by simp [pieces]⟩
  | cons x P ih =>
    obtain ⟨h1, h2⟩ := ih (fun x hx => hP x (by simp [hx]))
    have hx := hP x (by simp)
    cases x with
    | text t => exact ⟨Tagless.append hx h1, h2⟩
    | tag t =>
      refine ⟨.of (by simp [pieces]), ?_⟩
      intro p hp
      rcases List.mem_cons.1 hp with rfl | hp
      · exact ⟨hx.1, hx.2.1, hx.2.2, h1⟩
      · exact h2 p hp
    | comment b => exact absurd hx id

theorem plain_unpieces {p : List Char × List (List Char × List Char)} (h1 : Tagless p.1)
    (h2 : ∀ x ∈ p.2, '<' ∉ x.1 ∧ '>' ∉ x.1 ∧ Sharp x.1 ∧ Tagless x.2) : ∀ x ∈ unpieces p, Seg.Plain x := by
  intro x hx
  rcases List.mem_cons.1 hx with rfl | hx
  · exact h1
  · obtain ⟨y, hy, hx⟩ := List.mem_flatMap.1 hx
    have := h2 y hy
    simp only [List.mem_cons, List.not_mem_nil, or_false] at hx
    rcases hx with rfl | rfl
    · exact ⟨this.1, this.2.1, this.2.2.1⟩
    · exact this.2.2.2

/-- Any page. -/
theorem minify_page {T : Tables} (hT : T.Ok) {P : List Seg} (hP : Page P) :
    ∃ P' Q, minify T (render P) = some (trim (render Q)) ∧ (∀ x ∈ Q, Seg.Plain x) ∧ Rewritten (· = ·) P P' ∧
      Alike (fun t t' => (Kept t → Tight Reader.init ('<' :: t ++ ['>']) → ReadsAs t t') ∧
        (NotStart t → Soft t t')) P' Q := by
  obtain ⟨P2, e2, q2, m2⟩ := condense_page hT (plain_of_page hP)
  obtain ⟨P3, e3, q3, m3⟩ := clean_page q2
  -- white space
  have hw : ∃ o, Soft (render P3) o ∧ unquoteAttributes T (condenseWhitespace T (render P3)) = unquoteAttributes T o := by
    by_cases hm : Mentions "<pre".toList (render P3) ∨ Mentions "<textarea".toList (render P3)
    · exact ⟨render P3, .refl _, by rw [(condenseWhitespace_spec hT _).1 hm, unquote_trim hT]⟩
    · exact ⟨_, soft_gaps ((condenseWhitespace_spec hT _).2 (fun h => hm (.inl h)) (fun h => hm (.inr h))), rfl⟩
  obtain ⟨o, ho, eo⟩ := hw
  rw [← spell_pieces q3] at ho
  obtain ⟨a', l', e5, s1, s2⟩ := soft_spell (a := (pieces P3).1) (l := (pieces P3).2) ho
  obtain ⟨p1, p2⟩ := plain_pieces q3
  have p3 := plain_unpieces (p := (a', l')) (soft_tagless s1 p1) (softly_plain s2 p2)
  have e6 : o = render (unpieces (a', l')) := by rw [← spell_pieces p3, pieces_unpieces]; exact e5
  obtain ⟨Q, e4, q4, m4⟩ := unquote_page hT p3
  have id3 : Mapped (· = ·) P3 P3 := by
    clear m3 e3 ho s1 s2 p1 p2 eo
    induction P3 with
    | nil => exact .nil
    | cons x P3 ih =>
      have ih := ih (fun x hx => q3 x (by simp [hx]))
      cases x with
      | text t => exact .text ih
      | tag t => exact .tag rfl ih
      | comment b => exact absurd (q3 _ (List.mem_cons_self ..)) id
  obtain ⟨P', r1, r2⟩ := rewritten_split (rewritten_of m2 m3 id3)
  refine ⟨P', Q, ?_, q4, r1, ?_⟩
  · rw [minify, removeComments_page hP, e2, e3, eo, unquoteAttributes, e6, e4]
    show some (trim (trim _)) = _
    rw [trim_trim]
  · obtain ⟨g1, g2⟩ := mapped_pieces r2
    obtain ⟨g3, g4⟩ := mapped_pieces m4
    rw [pieces_unpieces] at g3 g4
    refine ⟨by rw [g3, ← g1]; exact s1, ?_⟩
    refine three_steps g2 s2 g4 ?_
    rintro t x t1 t2 t' hm ⟨t0, k1, rfl⟩ k2 k3
    have hmem := rewritten_mem r1 (pieces_mem hm)
    have hok := page_tag hP hmem
    refine ⟨fun a b => tag_soft hT hok.1 hok.2.1 a b k1 k2 k3, fun hn => ?_⟩
    rw [condTag_notStart hT hok.1 hok.2.1 hn] at k1
    have e1 : t = t0 := List.append_inj_left' (List.cons.inj k1).2 rfl
    subst e1
    have n2 : NotStart t2 := by
      obtain ⟨c, u, rfl, hc⟩ := hn
      generalize hs : c :: u = s at k2
      cases k2 with
      | nil => cases hs
      | char d h => obtain ⟨rfl, rfl⟩ := List.cons.inj hs; exact ⟨_, _, rfl, hc⟩
      | @gap x s1 o1 h1 h2 h3 =>
        cases x with
        | nil => exact absurd rfl h1
        | cons d x =>
          have := h2 d (by simp)
          rw [← (List.cons.inj hs).1] at this
          exfalso
          rcases hc with rfl | rfl | rfl <;> revert this <;> decide +kernel
    rw [tagOut_notStart hT (fun h => hok.1 (soft_mem k2 ws_lt h)) n2] at k3
    have e2 : t2 = t' := List.append_inj_left' (List.cons.inj (Option.some.inj k3)).2 rfl
    rw [← e2]
    exact k2

end Verif.Html
