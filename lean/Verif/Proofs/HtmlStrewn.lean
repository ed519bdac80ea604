import Verif.Proofs.HtmlAgainPre
import Verif.Proofs.HtmlAgain
/-!
# Tags of words on pages without preformatted text
-/
set_option linter.unusedSimpArgs false
namespace Verif.Html
open Verif.Spec.Html

theorem soft_void {s o : List Char} (h : Soft s o) : s = [] ↔ o = [] := by
  cases h with
  | nil => simp
  | char c _ => simp
  | gap h _ _ => simp [h]

/-- Characters that are no white space stay. -/
theorem soft_hard {x s o : List Char} (hx : ∀ c ∈ x, isWhitespace c = false) (h : Soft (x ++ s) o) :
    ∃ o', o = x ++ o' ∧ Soft s o' := by
  induction x generalizing o with
  | nil => exact ⟨o, rfl, h⟩
  | cons c x ih =>
    have hc := hx c (by simp)
    obtain ⟨a, b, rfl, h1, h2⟩ := soft_cut (a := []) h rfl hc
    obtain rfl := (soft_void h1).1 rfl
    obtain ⟨o', rfl, h3⟩ := ih (fun d hd => hx d (by simp [hd])) h2
    exact ⟨o', rfl, h3⟩

theorem soft_white {g r : List Char} (h : Soft g r) (hg : ∀ c ∈ g, isWhitespace c = true) : ∀ c ∈ r, isWhitespace c = true := by
  have blank : isWhitespace ' ' = true := by decide +kernel
  induction h with
  | nil => simp
  | char c _ ih =>
    intro d hd
    rcases List.mem_cons.1 hd with rfl | hd
    · exact hg _ (by simp)
    · exact ih (fun x hx => hg x (by simp [hx])) d hd
  | gap _ _ _ ih =>
    intro d hd
    rcases List.mem_cons.1 hd with rfl | hd
    · exact blank
    · exact ih (fun x hx => hg x (by simp [hx])) d hd

/-- White space that is wide becomes one blank. -/
theorem soft_wide {g s o : List Char} {d : Char} (hg : Wide g) (hd : isWhitespace d = false) (h : Soft (g ++ d :: s) o)
    (ha : Apart o) (h1 : '\r' ∉ o) (h2 : '\n' ∉ o) : ∃ o', o = ' ' :: o' ∧ Soft (d :: s) o' := by
  obtain ⟨r, b, rfl, k1, k2⟩ := soft_cut h rfl hd
  have hr := soft_white k1 hg.1
  have hb : Soft (d :: s) (d :: b) := .char d k2
  have hne : r ≠ [] := by
    intro hr
    have := hg.2
    rw [(soft_void k1).2 hr] at this
    simp at this
  obtain ⟨x, r, rfl⟩ := List.exists_cons_of_ne_nil hne
  cases r with
  | cons y r => exact absurd ⟨hr x (by simp), hr y (by simp)⟩ (ha [] x y (r ++ d :: b) (by simp))
  | nil =>
    refine ⟨d :: b, ?_, hb⟩
    have : x = ' ' := by
      cases k1 with
      | char c k =>
        cases k with
        | nil =>
          rcases hg.2 with e | e | e | e
          · simpa using e
          · simp at e; subst e; simp at h2
          · simp at e; subst e; simp at h1
          · simp at e
      | gap _ _ _ => rfl
    rw [this]; rfl

theorem soft_strewn {word : Char → Bool} {e : List Char} {l : List (List Char × Chunk)} {o : List Char} (c : Char) (h : Soft (strewn e l) o)
    (ha : Apart o) (h1 : '\r' ∉ o) (h2 : '\n' ∉ o) (hl : ∀ p ∈ l, Wide p.1 ∧ p.2.Fair word) (he : e = [] ∨ Wide e) :
    o = spread asIs c (if e = [] then none else some 0) (oneEach l) := by
  induction l generalizing c o with
  | nil =>
    rcases he with rfl | he
    · obtain ⟨o', rfl, h3⟩ := soft_hard (x := ['>']) (s := []) (by intro c hc; simp at hc; subst hc; exact ws_gt) (by simpa [strewn] using h)
      rw [(soft_void h3).1 rfl]
      rfl
    · have hne : e ≠ [] := by rintro rfl; have := he.2; simp at this
      obtain ⟨o', rfl, h3⟩ := soft_wide he ws_gt h ha h1 h2
      obtain ⟨o', rfl, h4⟩ := soft_hard (x := ['>']) (s := []) (by intro c hc; simp at hc; subst hc; exact ws_gt) h3
      rw [if_neg hne, (soft_void h4).1 rfl]
      rfl
  | cons p l ih =>
    obtain ⟨g, w⟩ := p
    have hp := hl _ (List.mem_cons_self ..)
    have hw : ∀ c ∈ w.text, isWhitespace c = false := fun c hc => (hp.2.1 c hc).1
    have e1 : strewn e ((g, w) :: l) = g ++ w.first :: (w.mid ++ w.last :: strewn e l) := by simp [strewn, Chunk.text]
    rw [e1] at h
    obtain ⟨o', rfl, h3⟩ := soft_wide hp.1 (hw _ (by simp [Chunk.text])) h ha h1 h2
    have e2 : w.first :: (w.mid ++ w.last :: strewn e l) = w.text ++ strewn e l := by simp [Chunk.text]
    rw [e2] at h3
    obtain ⟨o', rfl, h4⟩ := soft_hard hw h3
    have := ih w.last h4 (apart_right (a := ' ' :: w.text) ha) (fun h => h1 (by simp [h])) (fun h => h2 (by simp [h]))
      (fun p hp => hl p (List.mem_cons_of_mem _ hp))
    rw [this]
    simp [oneEach, spread, asIs, blanks, Chunk.text]

theorem settled_oneEach {word : Char → Bool} (c : Char) (l : List (List Char × Chunk)) : settled word c (oneEach l) = oneEach l := by
  induction l generalizing c with
  | nil => rfl
  | cons p l ih =>
    show settled word c ({ p.2 with extra := 0 } :: oneEach l) = _
    rw [settled, ih]
    simp [oneEach]

theorem lastOf_oneEach (c : Char) (l : List (List Char × Chunk)) : lastOf c (oneEach l) = lastOf c (l.map (·.2)) := by
  induction l generalizing c with
  | nil => rfl
  | cons p l ih => exact ih p.2.last

/-- What the last passes make of such a tag. -/
theorem strewn_out {T : Tables} (hT : T.Ok) {t t2 m : List Char} {c : Char} {e : List Char} {l : List (List Char × Chunk)}
    (hs : StrewnOf T.word t m c e l) (h : Soft t t2) (ha : Apart t2) (h1 : '\r' ∉ t2) (h2 : '\n' ∉ t2) (x4 : '<' ∉ t2) (x5 : '>' ∉ t2) :
    tagOut T t2 = some ('<' :: (m ++ c :: written (oneEach l))) := by
  obtain ⟨w1, w2, w3, w4, w5, w6⟩ := hs
  have solid : ∀ d, dense d = true → isWhitespace d = false := by
    intro d hd; rw [dense] at hd
    cases hh : isWhitespace d with
    | false => rfl
    | true => rw [hh] at hd; simp at hd
  have k : Soft (t ++ ['>']) (t2 ++ ['>']) := h.app (.refl _)
  rw [w1] at k
  obtain ⟨o, k1, k2⟩ := soft_hard (x := m ++ [c]) (s := strewn e l) (o := t2 ++ ['>'])
    (by
      intro d hd
      rcases List.mem_append.1 hd with hd | hd
      · exact solid d (w2 d hd)
      · simp at hd; subst hd; exact solid _ w3) (by simpa using k)
  have ap : Apart (t2 ++ ['>']) := apart_join (b := []) ws_gt ha apart_nil
  have n1 : '\r' ∉ t2 ++ ['>'] := by simp [h1]
  have n2 : '\n' ∉ t2 ++ ['>'] := by simp [h2]
  rw [k1] at ap n1 n2
  have ho := soft_strewn (word := T.word) c k2 (apart_right ap) (fun h => n1 (by simp [h])) (fun h => n2 (by simp [h])) w4
    (w6.imp id (·.1))
  have hattr : AttrsOf T.word t2 m c (if e = [] then none else some 0) (oneEach l) := by
    refine ⟨by rw [k1, ho]; simp, w2, w3, ?_, w5, ?_⟩
    · intro w hw
      obtain ⟨p, hp, rfl⟩ := List.mem_map.1 hw
      exact (w4 p hp).2
    · rw [lastOf_oneEach]
      rcases w6 with rfl | ⟨-, h⟩
      · exact .inl rfl
      · exact .inr h
  rw [attrs_out hT x4 x5 hattr, settled_oneEach]

theorem three_steps_mem {R1 R2 R : List Char → List Char → Prop} {l1 l2 l3 l4 : List (List Char × List Char)} (h1 : Tagwise R1 l1 l2)
    (h2 : Softly l2 l3) (h3 : Tagwise R2 l3 l4)
    (hR : ∀ t x t1 t2 t', (t, x) ∈ l1 → (∃ y, (t2, y) ∈ l3) → R1 t t1 → Soft t1 t2 → R2 t2 t' → R t t') :
    Pairs R l1 l4 := by
  induction h1 generalizing l3 l4 with
  | nil => cases h2; cases h3; exact .nil
  | cons hr _ ih =>
    cases h2 with
    | cons s1 s2 h2 => cases h3 with
      | cons hr2 h3 =>
        exact .cons (hR _ _ _ _ _ (List.mem_cons_self ..) ⟨_, List.mem_cons_self ..⟩ hr s1 hr2) s2
          (ih h2 h3 fun t x t1 t2 t' hm ⟨y, hy⟩ => hR t x t1 t2 t' (List.mem_cons_of_mem _ hm) ⟨y, List.mem_cons_of_mem _ hy⟩)

theorem spell_infix {a : List Char} {l : List (List Char × List Char)} {t x : List Char} (h : (t, x) ∈ l) :
    ∃ u v, spell (a, l) = u ++ t ++ v := by
  obtain ⟨l1, l2, rfl⟩ := List.append_of_mem h
  exact ⟨_, _, by
    show a ++ _ = (a ++ (l1.flatMap fun x => '<' :: (x.1 ++ '>' :: x.2)) ++ ['<']) ++ t ++
      ('>' :: x ++ l2.flatMap fun x => '<' :: (x.1 ++ '>' :: x.2))
    simp⟩

theorem pairs_mono {R R' : List Char → List Char → Prop} {l l' : List (List Char × List Char)} (h : Pairs R l l')
    (hR : ∀ t t', R t t' → R' t t') : Pairs R' l l' := by
  induction h with
  | nil => exact .nil
  | cons h1 h2 _ ih => exact .cons (hR _ _ h1) h2 ih

/-- A page without preformatted text: its tags before the last pass. -/
theorem minify_apart {T : Tables} (hT : T.Ok) {P : List Seg} (hP : Page P) (hn : ∀ t, Seg.tag t ∈ P → ¬ Pre t) :
    ∃ P' Q, minify T (render P) = some (trim (render Q)) ∧ (∀ x ∈ Q, Seg.Plain x) ∧ Rewritten (· = ·) P P' ∧
      Alike (fun t t' => ¬ Styled t → ∃ t2, Soft t t2 ∧ Apart t2 ∧ '\r' ∉ t2 ∧ '\n' ∉ t2 ∧ '<' ∉ t2 ∧ '>' ∉ t2 ∧
        tagOut T t2 = some ('<' :: (t' ++ ['>']))) P' Q := by
  obtain ⟨P2, e2, q2, m2⟩ := condense_page hT (plain_of_page hP)
  obtain ⟨P3, e3, q3, m3⟩ := clean_page q2
  have hm : ¬ (Mentions "<pre".toList (render P3) ∨ Mentions "<textarea".toList (render P3)) := by
    intro hm
    obtain ⟨tp, h1, h2⟩ := mentions_pre q3 hm
    obtain ⟨h3, -⟩ := dropped_mem m3 h1
    obtain ⟨t, h4, -, h5⟩ := mapped_mem m2 h3
    obtain ⟨x, hx, e⟩ := List.mem_map.1 h4
    have ht : Seg.tag t ∈ P := by
      cases x with
      | text s => cases e
      | tag s => cases e; exact hx
      | comment s => cases e
    rcases h5 with rfl | ⟨z, z', -, rfl⟩
    · exact hn _ ht h2
    · exact s_not_pre h2
  have hg := (condenseWhitespace_spec hT (render P3)).2 (fun h => hm (.inl h)) (fun h => hm (.inr h))
  generalize ho' : condenseWhitespace T (render P3) = o at hg
  have ho := soft_gaps hg
  have hap := gaps_apart hg
  obtain ⟨nr, nn⟩ := gaps_nobreak hg
  rw [← spell_pieces q3] at ho
  obtain ⟨a', l', e5, s1, s2⟩ := soft_spell (a := (pieces P3).1) (l := (pieces P3).2) ho
  obtain ⟨p1, p2⟩ := plain_pieces q3
  have p4 := softly_plain s2 p2
  have p3 := plain_unpieces (p := (a', l')) (soft_tagless s1 p1) p4
  have e6 : o = render (unpieces (a', l')) := by rw [← spell_pieces p3, pieces_unpieces]; exact e5
  obtain ⟨Q, e4, q4, m4⟩ := unquote_page hT p3
  have id3 : Mapped (· = ·) P3 P3 := by
    clear m3 e3 ho s1 s2 p1 p2 hm ho' hg
    induction P3 with
    | nil => exact .nil
    | cons x P3 ih =>
      have ih := ih (fun x hx => q3 x (by simp [hx]))
      cases x with
      | text t => exact .text ih
      | tag t => exact .tag rfl ih
      | comment b => exact absurd (q3 _ (List.mem_cons_self ..)) id
  obtain ⟨P', r1, r2⟩ := rewritten_split (rewritten_of m2 m3 id3)
  refine ⟨P', Q, ?_, q4, r1, ?_⟩
  · rw [minify, removeComments_page hP, e2, e3, ho', unquoteAttributes, e6, e4]
    show some (trim (trim _)) = _
    rw [trim_trim]
  · obtain ⟨g1, g2⟩ := mapped_pieces r2
    obtain ⟨g3, g4⟩ := mapped_pieces m4
    rw [pieces_unpieces] at g3 g4
    refine ⟨by rw [g3, ← g1]; exact s1, ?_⟩
    refine three_steps_mem g2 s2 g4 ?_
    rintro t x t1 t2 t' hm ⟨y, hy⟩ ⟨t0, k1, rfl⟩ k2 k3 hst
    have hmem := rewritten_mem r1 (pieces_mem hm)
    have hok := page_tag hP hmem
    have e1 : t = t0 := by
      rcases condTag_cases hT hok.1 hok.2.1 with k | ⟨k, -⟩
      · rw [k] at k1
        exact List.append_inj_left' (List.cons.inj k1).2 rfl
      · exact absurd k hst
    subst e1
    obtain ⟨u, v, huv⟩ := spell_infix (a := a') hy
    rw [e5, huv] at hap nr nn
    have := p4 _ hy
    exact ⟨t2, k2, apart_infix hap, fun h => nr (by simp [h]), fun h => nn (by simp [h]), this.1, this.2.1, k3⟩

theorem minify_strewn {T : Tables} (hT : T.Ok) {P : List Seg} (hP : Page P) (hn : ∀ t, Seg.tag t ∈ P → ¬ Pre t) :
    ∃ P' Q, minify T (render P) = some (trim (render Q)) ∧ (∀ x ∈ Q, Seg.Plain x) ∧ Rewritten (· = ·) P P' ∧
      Alike (fun t t' => ¬ Styled t → ∀ m c e l, StrewnOf T.word t m c e l → t' ++ ['>'] = m ++ c :: written (oneEach l)) P' Q := by
  obtain ⟨P', Q, h1, h2, h3, h4, h5⟩ := minify_apart hT hP hn
  refine ⟨P', Q, h1, h2, h3, h4, pairs_mono h5 ?_⟩
  intro t t' hr hst m c e l hsw
  obtain ⟨t2, k1, k2, k3, k4, k5, k6, k7⟩ := hr hst
  rw [strewn_out hT hsw k1 k2 k3 k4 k5 k6] at k7
  exact (List.cons.inj (Option.some.inj k7)).2.symm

end Verif.Html
