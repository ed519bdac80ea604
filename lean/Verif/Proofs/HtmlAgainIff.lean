import Verif.Proofs.HtmlAgainPre
import Verif.Proofs.HtmlMinimal
/-!
# Tags that a second run would change
-/
set_option linter.unusedSimpArgs false
namespace Verif.Html
open Verif.Spec.Html

theorem mapped_strict {R : List Char → List Char → Prop} (hR : ∀ t t', R t t' → Strict ('<' :: (t ++ ['>'])) ('<' :: (t' ++ ['>'])))
    {X Y : List Seg} (h : Mapped R X Y) :
    bytes (render Y) ≤ bytes (render X) ∧ (bytes (render X) ≤ bytes (render Y) → ∀ t, Seg.tag t ∈ X → R t t) := by
  induction h with
  | nil => exact ⟨Nat.le_refl _, by simp⟩
  | text _ ih =>
    rw [render_cons, render_cons, bytes_append, bytes_append]
    refine ⟨by omega, fun h t ht => ih.2 (by omega) t ?_⟩
    simpa using ht
  | @tag t t' X Y hr _ ih =>
    rw [render_cons, render_cons, bytes_append, bytes_append]
    have hs := hR t t' hr
    have e : ∀ t, (Seg.tag t).show = '<' :: (t ++ ['>']) := fun _ => rfl
    rw [e, e]
    have hl := hs.le
    refine ⟨by omega, fun h s hm => ?_⟩
    rcases List.mem_cons.1 hm with hm | hm
    · have := hs.eq (by omega)
      have : t' = t := List.append_inj_left' (List.cons.inj this).2 rfl
      cases hm
      rw [this] at hr; exact hr
    · exact ih.2 (by omega) s hm

theorem rewritten_to {R : List Char → List Char → Prop} {P Q : List Seg} (h : Rewritten R P Q) {t : List Char} (hm : Seg.tag t ∈ P)
    (hl : ¬ Listed ('<' :: t ++ ['>'])) : ∃ t', Seg.tag t' ∈ Q ∧ R t t' := by
  induction h with
  | nil => cases hm
  | text _ ih => obtain ⟨t', h1, h2⟩ := ih (by simpa using hm); exact ⟨t', by simp [h1], h2⟩
  | comment _ ih => obtain ⟨t', h1, h2⟩ := ih (by simpa using hm); exact ⟨t', by simp [h1], h2⟩
  | drop hd _ ih =>
    rcases List.mem_cons.1 hm with hm | hm
    · cases hm; exact absurd hd hl
    · exact ih hm
  | tag _ hr _ ih =>
    rcases List.mem_cons.1 hm with hm | hm
    · cases hm; exact ⟨_, by simp, hr⟩
    · obtain ⟨t', h1, h2⟩ := ih hm; exact ⟨t', by simp [h1], h2⟩

theorem tagOut_strict {T : Tables} {t y : List Char} (h : tagOut T t = some y) : Strict ('<' :: (t ++ ['>'])) y := by
  have : tagOut T t = some (allTidied T ('<' :: (t ++ ['>']))) := by
    rw [tagOut, show (fun h : Hit => tidyTag T h.text) = fun h => some (tidied T h.text) from funext fun h => tidied_eq T h.text,
      replaceAllM_some (solid_anyTag T)]
    rfl
  rw [h] at this
  rw [Option.some.inj this]
  exact strict_allTidied T _

/-- If a second run changes nothing, then none of the tags. -/
theorem again_tags {T : Tables} (hT : T.Ok) {Q : List Seg} (hQ : ∀ x ∈ Q, Seg.Plain x) (h : minify T (trim (render Q)) = some (trim (render Q)))
    {t : List Char} (ht : Seg.tag t ∈ Q) : tagOut T t = some ('<' :: (t ++ ['>'])) := by
  obtain ⟨b, k, ek, k1, k2, k3⟩ := spell_trim (pieces Q).1 (pieces Q).2
  have ek' : trim (render Q) = spell (b, k) := by rw [← ek, ← spell_pieces hQ]
  obtain ⟨r1, r2⟩ := plain_pieces hQ
  have hpl := plain_unpieces (p := (b, k)) (k1 r1) fun p hp => by
    have hm : p.1 ∈ (pieces Q).2.map (·.1) := by rw [← k2]; exact List.mem_map_of_mem hp
    obtain ⟨q, hq, e⟩ := List.mem_map.1 hm
    obtain ⟨q', hq', h'⟩ := k3 p hp
    have := r2 q hq
    rw [e] at this
    exact ⟨this.1, this.2.1, this.2.2.1, h' (r2 q' hq').2.2.2⟩
  have esk : spell (b, k) = render (unpieces (b, k)) := by rw [← spell_pieces hpl, pieces_unpieces]
  have h5 := ((minify_fixed T _).1 h).2.2.2.2.1
  rw [ek', esk] at h5
  obtain ⟨Y, e1, -, m1⟩ := unquote_page hT hpl
  have e2 : allTidied T (render (unpieces (b, k))) = render Y := by
    rw [show (fun h : Hit => tidyTag T h.text) = fun h => some (tidied T h.text) from funext fun h => tidied_eq T h.text,
      replaceAllM_some (solid_anyTag T)] at e1
    exact Option.some.inj e1
  rw [h5] at e2
  refine (mapped_strict (fun t t' h => tagOut_strict h) m1).2 (by rw [e2]; exact Nat.le_refl _) t ?_
  rw [unpieces_tag, k2]
  exact pieces_tag ht

theorem settled_inj {word word' : Char → Bool} {L : List Chunk} (hL : ∀ w ∈ L, w.Fair word') {c c' : Char}
    (e : spread asIs c' none (settled word c L) = spread asIs c' none L) : settled word c L = L := by
  induction L generalizing c c' with
  | nil => rfl
  | cons w L ih =>
    rw [settled] at e ⊢
    generalize (if (word c && word w.first) || ((c == '"' || c == '\'') && w.attr word) then 0 else w.extra) = x at e ⊢
    have e : blanks x ++ w.first :: (w.mid ++ w.last :: spread asIs w.last none (settled word w.last L)) =
      blanks w.extra ++ w.first :: (w.mid ++ w.last :: spread asIs w.last none L) := e
    have hb : ∀ n, ∀ d ∈ blanks n, (d == ' ') = true := fun n d hd => by rw [(List.mem_replicate.1 hd).2]; rfl
    have hf : (w.first == ' ') = false := by
      have := ((hL w (by simp)).1 w.first (by simp [Chunk.text])).1
      rw [beq_eq_false_iff_ne]; rintro h
      rw [h] at this; exact absurd this (by decide +kernel)
    obtain ⟨h1, -, h2⟩ := class_split (p := (· == ' ')) (hb _) (hb _) hf hf e
    have h3 : x = w.extra := by
      have := congrArg List.length h1
      simpa [blanks] using this
    rw [h3, ih (fun v hv => hL v (by simp [hv])) (List.cons.inj (List.append_cancel_left h2)).2]

theorem bare_settled {T : Tables} (hT : T.Ok) {l : List Chunk} (hf : ∀ w ∈ l, w.Fair T.word) {c c' : Char} {p : Option Char}
    (h : p = none ∨ (p = some c' ∧ c = '"'))
    (e : settled T.word c' ((settled T.word c l).map Chunk.bare) = (settled T.word c l).map Chunk.bare) : Steady T.word p l := by
  induction l generalizing c c' p with
  | nil => exact trivial
  | cons w l ih =>
    have hw := hf w (by simp)
    rw [settled, List.map_cons, settled] at e
    generalize hx : (if (T.word c && T.word w.first) || ((c == '"' || c == '\'') && w.attr T.word) then 0 else w.extra) = x at e
    have e1 : ({ w with extra := x } : Chunk).bare = { w.bare with extra := x } := by
      by_cases hs : w.sized = true
      · rw [Chunk.bare, if_pos (show ({ w with extra := x } : Chunk).sized = true from hs), Chunk.bare, if_pos hs]
      · rw [Chunk.bare, if_neg (show ¬ ({ w with extra := x } : Chunk).sized = true from hs), Chunk.bare, if_neg hs]
    have e2 : w.bare.first = w.first := by rw [Chunk.bare]; split <;> rfl
    rw [e1] at e
    obtain ⟨k1, k2⟩ := List.cons.inj e
    refine ⟨?_, ih (fun v hv => hf v (by simp [hv])) ?_ k2⟩
    · rintro d rfl h1 h2
      rcases h with h | ⟨h, rfl⟩
      · cases h
      · cases h
        have k1 : (if (T.word c' && T.word w.bare.first) || ((c' == '"' || c' == '\'') && w.bare.attr T.word) then 0 else x) = x :=
          congrArg Chunk.extra k1
        rw [e2, if_pos (by simp [h1, h2])] at k1
        rw [← k1] at hx
        have hq : T.word '"' = false := by rw [hT.word_ascii _ (by decide)]; decide
        split at hx
        · next hc =>
          right
          simpa [hq] using hc
        · exact .inl hx
    · by_cases hs : w.sized = true
      · rw [if_pos hs]
        obtain ⟨k, v, z, -, -, e, -⟩ := bare_shape hw hs
        exact .inr ⟨rfl, e⟩
      · rw [if_neg hs]; exact .inl rfl

/-- If a tag of words comes out of a second run as it went in, its words are steady. -/
theorem attrs_steady {T : Tables} (hT : T.Ok) {t t' m : List Char} {c : Char} {e : Option Nat} {l : List Chunk} (h1 : '<' ∉ t)
    (h2 : '>' ∉ t) (ha : AttrsOf T.word t m c e l) (ho : tagOut T t = some ('<' :: (t' ++ ['>'])))
    (ho' : tagOut T t' = some ('<' :: (t' ++ ['>']))) : Steady T.word none l := by
  have o1 := attrs_out hT h1 h2 ha
  rw [ho, Option.some.injEq, List.cons.injEq] at o1
  obtain ⟨w1, w2, w3, w4, w5, w7⟩ := ha
  obtain ⟨f1, f2⟩ := written_bare hT (c := c) w4
  obtain ⟨y, g1, g2, g3, -⟩ := tagOut_shape hT h1 h2
  have : t' = y := List.append_inj_left' (List.cons.inj (Option.some.inj (ho ▸ g1))).2 rfl
  subst this
  have eq : t' ++ ['>'] = m ++ c :: spread asIs c none ((settled T.word c l).map Chunk.bare) := by rw [o1.2, f2]
  have o2 := attrs_out hT g2 g3 (e := none) ⟨eq, w2, w3, fun w hw => (f1 w hw).1, w5, .inl rfl⟩
  rw [ho', Option.some.injEq, List.cons.injEq, eq] at o2
  have o3 := (List.cons.inj (List.append_cancel_left o2.2)).2
  refine bare_settled hT w4 (c' := c) (.inl rfl) (settled_inj (c' := c) (fun w hw => (f1 w hw).1) ?_)
  rw [o3, written_plain]
  intro w hw
  obtain ⟨v, hv, e⟩ := settled_text hw
  rw [e]; exact (f1 v hv).2

end Verif.Html
