import Verif.Proofs.HtmlAgainIff
/-!
# Two runs over a page with preformatted text
-/
set_option linter.unusedSimpArgs false
namespace Verif.Html
open Verif.Spec.Html

/-- A run over a page of quiet tags. -/
theorem quiet_run {T : Tables} (hT : T.Ok) {Q : List Seg} (hQ : ∀ x ∈ Q, Seg.Plain x) (hq : ∀ t, Seg.tag t ∈ Q → Quiet T t)
    {p : List Char} (hp : Pre p) (hm : Seg.tag p ∈ Q) :
    ∃ X Y, trim (render Q) = render X ∧ minify T (trim (render Q)) = some (trim (render Y)) ∧ (∀ x ∈ Y, Seg.Plain x) ∧
      Mapped (fun t t' => tagOut T t = some ('<' :: (t' ++ ['>']))) X Y ∧ ∀ t, Seg.tag t ∈ X ↔ Seg.tag t ∈ Q := by
  obtain ⟨b, k, ek, k1, k2, k3⟩ := spell_trim (pieces Q).1 (pieces Q).2
  have ek' : trim (render Q) = spell (b, k) := by rw [← ek, ← spell_pieces hQ]
  obtain ⟨r1, r2⟩ := plain_pieces hQ
  have tags : ∀ t, Seg.tag t ∈ unpieces (b, k) ↔ Seg.tag t ∈ Q := by
    intro t
    rw [unpieces_tag, k2]
    refine ⟨fun h => ?_, pieces_tag⟩
    obtain ⟨q, hq, rfl⟩ := List.mem_map.1 h
    exact pieces_mem (t := q.1) (x := q.2) hq
  have hpl := plain_unpieces (p := (b, k)) (k1 r1) fun p hp => by
    have hm : p.1 ∈ (pieces Q).2.map (·.1) := by rw [← k2]; exact List.mem_map_of_mem hp
    obtain ⟨q, hq, e⟩ := List.mem_map.1 hm
    obtain ⟨q', hq', h'⟩ := k3 p hp
    have := r2 q hq
    rw [e] at this
    exact ⟨this.1, this.2.1, this.2.2.1, h' (r2 q' hq').2.2.2⟩
  have esk : spell (b, k) = render (unpieces (b, k)) := by rw [← spell_pieces hpl, pieces_unpieces]
  generalize unpieces (b, k) = X at tags hpl esk
  obtain ⟨X2, e2, -, m2⟩ := condense_page hT hpl
  have : X2 = X := mapped_same m2 fun t t' ht h => by
    have := (hq t ((tags t).1 ht)).cond
    rw [h.1] at this
    exact List.append_inj_left' (List.cons.inj this).2 rfl
  subst this
  obtain ⟨X3, e3, -, m3⟩ := clean_page hpl
  have : X3 = X2 := dropped_same m3 fun t ht => (hq t ((tags t).1 ht)).kept
  subst this
  obtain ⟨Y, e4, q4, m4⟩ := unquote_page hT hpl
  refine ⟨X3, Y, by rw [ek', esk], ?_, q4, m4, tags⟩
  rw [ek', esk, minify, removeComments_opens hpl (fun t ht => (hq t ((tags t).1 ht)).dash), e2, e3,
    (condenseWhitespace_spec hT _).1 (pre_mentions hp ((tags p).2 hm)), unquote_trim hT, unquoteAttributes, e4]
  show some (trim (trim _)) = _
  rw [trim_trim]

theorem still_run {T : Tables} (hT : T.Ok) {Q : List Seg} (hQ : ∀ x ∈ Q, Seg.Plain x) (hq : ∀ t, Seg.tag t ∈ Q → Still T t)
    {p : List Char} (hp : Pre p) (hm : Seg.tag p ∈ Q) : minify T (trim (render Q)) = some (trim (render Q)) := by
  obtain ⟨X, Y, e1, e2, -, m, ht⟩ := quiet_run hT hQ (fun t ht => ⟨(hq t ht).lt, (hq t ht).gt, (hq t ht).sharp, (hq t ht).dash,
    (hq t ht).cond, (hq t ht).kept⟩) hp hm
  have : Y = X := mapped_same m fun t t' h k => by
    have k : tagOut T t = some ('<' :: (t' ++ ['>'])) := k
    rw [(hq t ((ht t).1 h)).out] at k
    exact (List.append_inj_left' (List.cons.inj (Option.some.inj k)).2 rfl).symm
  rw [e2, this, ← e1, trim_trim]

theorem steady_plain {word : Char → Bool} {l : List Chunk} (h : ∀ w ∈ l, unquoted w.text = w.text) : Steady word none l := by
  induction l with
  | nil => exact trivial
  | cons w l ih =>
    have hs : ¬ w.sized = true := by
      intro hs
      have hw := h w (by simp)
      rw [unquoted, ← Chunk.sized, if_pos hs, List.filter_eq_self] at hw
      have hq : '"' ∈ w.text := by
        rw [Chunk.sized, Bool.or_eq_true] at hs
        rcases hs with h | h
        · obtain ⟨b, h⟩ := isPrefix_iff.1 h
          rw [h]; exact List.mem_append.2 (.inl (by decide +kernel))
        · obtain ⟨b, h⟩ := isPrefix_iff.1 h
          rw [h]; exact List.mem_append.2 (.inl (by decide +kernel))
      exact absurd (hw _ hq) (by decide)
    refine ⟨by simp, ?_⟩
    rw [if_neg hs]
    exact ih fun v hv => h v (by simp [hv])

theorem rewritten_from {R : List Char → List Char → Prop} {P Q : List Seg} (h : Rewritten R P Q) {t' : List Char}
    (hm : Seg.tag t' ∈ Q) : ∃ t, Seg.tag t ∈ P ∧ ¬ Listed ('<' :: t ++ ['>']) ∧ R t t' := by
  induction h with
  | nil => cases hm
  | text _ ih => obtain ⟨t, h1, h2⟩ := ih (by simpa using hm); exact ⟨t, by simp [h1], h2⟩
  | comment _ ih => obtain ⟨t, h1, h2⟩ := ih (by simpa using hm); exact ⟨t, by simp [h1], h2⟩
  | drop _ _ ih => obtain ⟨t, h1, h2⟩ := ih hm; exact ⟨t, by simp [h1], h2⟩
  | tag hl hr _ ih =>
    rcases List.mem_cons.1 hm with hm | hm
    · cases hm; exact ⟨_, by simp, hl, hr⟩
    · obtain ⟨t, h1, h2⟩ := ih hm; exact ⟨t, by simp [h1], h2⟩

/-- After two runs over a page of settled tags and tags of words there is nothing left to do. -/
theorem minify_twice {T : Tables} (hT : T.Ok) {P : List Seg} {p : List Char} (hP : Page P) (hp : Pre p) (hm : Seg.tag p ∈ P)
    (hop : ∀ t, Seg.tag t ∈ P → Opens t)
    (ha : ∀ t, Seg.tag t ∈ P → (Apart t ∧ Settled t) ∨ (¬ Styled t ∧ ∃ m c e l, AttrsOf T.word t m c e l)) {o o2 : List Char}
    (ho : minify T (render P) = some o) (ho2 : minify T o = some o2) : minify T o2 = some o2 := by
  obtain ⟨Q, h1, hQ, h3⟩ := minify_pre hT hP hp hm
  have : o = trim (render Q) := Option.some.inj (ho.symm.trans h1)
  subst this
  have cancel : ∀ {a b : List Char}, '<' :: (a ++ ['>']) = '<' :: (b ++ ['>']) → a = b := by
    intro a b e
    exact List.append_inj_left' (List.cons.inj e).2 rfl
  -- a tag after the first and the second run
  have key : ∀ t t', Seg.tag t ∈ P → ¬ Listed ('<' :: t ++ ['>']) →
      (∃ t1, condTag T t = '<' :: (t1 ++ ['>']) ∧ tagOut T t1 = some ('<' :: (t' ++ ['>']))) →
      Quiet T t' ∧ (Pre t → Pre t') ∧ ∀ t'', tagOut T t' = some ('<' :: (t'' ++ ['>'])) → Still T t'' ∧ (Pre t' → Pre t'') := by
    rintro t t' ht hd ⟨t1, k1, k2⟩
    obtain ⟨p1, p2, p3⟩ := page_tag hP ht
    have kl : ¬ Listed ('<' :: t1 ++ ['>']) := by
      obtain ⟨y, g1, -, g2⟩ := condTag_shape hT p1 p2
      have : t1 = y := cancel (by rw [← k1, g1])
      subst this
      rcases g2 with rfl | ⟨z, z', -, rfl⟩
      · exact hd
      · exact s_not_listed
    rcases ha t ht with ⟨hap, hset⟩ | ⟨hst, m, c, e, l, hl⟩
    · have hap1 : Apart t1 := by
        rcases condTag_exact hT p1 p2 with ⟨-, e⟩ | ⟨-, e⟩
        · rw [k1] at e
          have ha : Apart ('<' :: (t ++ ['>'])) := by
            refine apart_cons (apart_join (b := []) ws_gt hap apart_nil) ?_
            rintro d - ⟨h, -⟩; rw [ws_lt] at h; cases h
          have := apart_untype (T := T) ha
          rw [← e] at this
          exact apart_infix (a := ['<']) (b := ['>']) (by simpa using this)
        · rw [k1] at e
          rw [cancel e]; exact hap
      obtain ⟨hs, -, -, hpre⟩ := tag_still hT p1 p2 p3 (hop t ht) hset k1 kl (.refl _) hap1 k2
      refine ⟨⟨hs.lt, hs.gt, hs.sharp, hs.dash, hs.cond, hs.kept⟩, fun h => hpre ?_, fun t'' h => ?_⟩
      · rcases condTag_cases hT p1 p2 with e | ⟨⟨u, e⟩, -⟩
        · rw [k1] at e; rw [cancel e]; exact h
        · exfalso
          rcases e with rfl | rfl
          · exact s_not_pre h
          · exact s_not_pre h
      · rw [hs.out] at h
        have := cancel (Option.some.inj h)
        subst this
        exact ⟨hs, id⟩
    · have e1 : t = t1 := by
        rcases condTag_cases hT p1 p2 with k | ⟨k, -⟩
        · rw [k] at k1; exact cancel k1
        · exact absurd k hst
      subst e1
      obtain ⟨q, hst', hpre, ha'⟩ := attrs_quiet hT p1 p2 p3 hst hl kl k2
      obtain ⟨fair, -⟩ := written_bare hT (c := c) hl.2.2.2.1
      exact ⟨q, hpre, fun t'' h => (attrs_fixes hT q.lt q.gt q.sharp hst' ha' (steady_plain fun w hw => (fair w hw).2)).2 q.kept t'' h⟩
  have from' : ∀ t', Seg.tag t' ∈ Q → Quiet T t' ∧
      ∀ t'', tagOut T t' = some ('<' :: (t'' ++ ['>'])) → Still T t'' ∧ (Pre t' → Pre t'') := by
    intro t' ht'
    obtain ⟨t, k1, k2, k3⟩ := rewritten_from h3 ht'
    have := key t t' k1 k2 k3
    exact ⟨this.1, this.2.2⟩
  obtain ⟨p', m1, m2⟩ := rewritten_to h3 hm (pre_not_listed hp)
  have hp' := (key p p' hm (pre_not_listed hp) m2).2.1 hp
  obtain ⟨X, Y, e1, e2, hY, m, tags⟩ := quiet_run hT hQ (fun t ht => (from' t ht).1) hp' m1
  have : o2 = trim (render Y) := Option.some.inj (ho2.symm.trans e2)
  subst this
  obtain ⟨p'', n1, n2⟩ := mapped_to m ((tags p').2 m1)
  refine still_run hT hY (fun t ht => ?_) (((from' p' m1).2 p'' n2).2 hp') n1
  obtain ⟨t', k1, k2⟩ := mapped_mem m ht
  exact ((from' t' ((tags t').1 k1)).2 t k2).1

end Verif.Html
