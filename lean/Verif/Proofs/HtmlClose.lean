import Verif.Proofs.HtmlNames
import Verif.Proofs.HtmlJoined
/-!
# Blanks between a quote and the end of a tag
-/
set_option linter.unusedSimpArgs false
namespace Verif.Html
open Verif.Spec.Html

/-- Only the texts after the first two passes matter. -/
theorem tidy_shut {T : Tables} {s s' : List Char} (h1 : ¬ (startsWith "<!".toList s || contains "</".toList s) = true)
    (h2 : ¬ (startsWith "<!".toList s' || contains "</".toList s') = true) (e : shut '\'' (shut '"' s) = shut '\'' (shut '"' s')) :
    tidyTag T s = tidyTag T s' := by
  have e : replaceAll (spacesBeforeClose '\'') (fun _ => "'>".toList) (replaceAll (spacesBeforeClose '"') (fun _ => "\">".toList) s) =
    replaceAll (spacesBeforeClose '\'') (fun _ => "'>".toList) (replaceAll (spacesBeforeClose '"') (fun _ => "\">".toList) s') := e
  rw [tidyTag, if_neg h1, tidyTag, if_neg h2]
  simp only
  rw [e]

theorem start_tag {T : Tables} (hT : T.Ok) {h : Char} {r : List Char} (hw : T.word h = true) (hr : '<' ∉ h :: r) :
    ¬ (startsWith "<!".toList ('<' :: h :: r) || contains "</".toList ('<' :: h :: r)) = true := by
  have hne : ∀ d, d.toNat < 128 → (d.isAlphanum || d == '_') = false → h ≠ d := by
    rintro d h1 h2 rfl
    rw [hT.word_ascii _ h1, h2] at hw; cases hw
  rw [Bool.or_eq_true]
  rintro (k | k)
  · obtain ⟨u, k⟩ := startsWith_iff.1 k
    exact hne '!' (by decide) (by decide) (List.cons.inj (List.cons.inj k).2).1
  · obtain ⟨a, b, k⟩ := contains_iff.1 k
    cases a with
    | nil => exact hne '/' (by decide) (by decide) (List.cons.inj (List.cons.inj k).2).1
    | cons d a => exact hr (by rw [(List.cons.inj k).2]; simp)

theorem mem_fair {word : Char → Bool} {e : Option Nat} {l : List Chunk} {c d : Char} (hl : ∀ w ∈ l, w.Fair word)
    (h : d ∈ spread asIs c e l) : d = ' ' ∨ d = '>' ∨ ∃ w ∈ l, d ∈ w.text := by
  induction l generalizing c with
  | nil =>
    cases e with
    | none =>
      have h : d ∈ ['>'] := h
      exact .inr (.inl (List.mem_singleton.1 h))
    | some n =>
      have h : d ∈ blanks n ++ ['>'] := h
      rcases List.mem_append.1 h with h | h
      · exact .inl (List.mem_replicate.1 h).2
      · exact .inr (.inl (List.mem_singleton.1 h))
  | cons w l ih =>
    have h : d ∈ blanks w.extra ++ w.first :: (w.mid ++ w.last :: spread asIs w.last e l) := h
    have e : blanks w.extra ++ w.first :: (w.mid ++ w.last :: spread asIs w.last e l) =
      blanks w.extra ++ w.text ++ spread asIs w.last e l := by simp [Chunk.text]
    rw [e, List.mem_append, List.mem_append] at h
    rcases h with (h | h) | h
    · exact .inl (List.mem_replicate.1 h).2
    · exact .inr (.inr ⟨w, by simp, h⟩)
    · rcases ih (fun v hv => hl v (by simp [hv])) h with h | h | ⟨v, hv, h⟩
      · exact .inl h
      · exact .inr (.inl h)
      · exact .inr (.inr ⟨v, by simp [hv], h⟩)

theorem tidy_quoted_close {T : Tables} (hT : T.Ok) {e : Option Nat} {l : List Chunk} {m : List Char} {c h : Char}
    (hm : ∀ d ∈ m, dense d = true) (hc : dense c = true) (hl : ∀ w ∈ l, w.Fair T.word) (hh : (m ++ [c]).head? = some h)
    (hw : T.word h = true) (he : e = none ∨ lastOf c l = '"' ∨ lastOf c l = '\'') :
    tidyTag T ('<' :: (m ++ c :: spread asIs c e l)) = some ('<' :: (m ++ c :: written (settled T.word c l))) := by
  cases e with
  | none => exact tidy_quoted hT hm hc hl hh hw
  | some n =>
    have he : lastOf c l = '"' ∨ lastOf c l = '\'' := by
      rcases he with he | he
      · cases he
      · exact he
    rw [← tidy_quoted hT hm hc hl hh hw]
    have head : ∀ z, ∃ r, m ++ c :: z = h :: r := by
      intro z
      cases m with
      | nil => simp at hh; subst hh; exact ⟨_, rfl⟩
      | cons d m => simp at hh; subst hh; exact ⟨_, rfl⟩
    have lt : ∀ e, '<' ∉ m ++ c :: spread asIs c e l := by
      intro e hx
      rw [List.mem_append, List.mem_cons] at hx
      rcases hx with hx | hx | hx
      · exact absurd (hm _ hx) (by decide)
      · rw [← hx] at hc; exact absurd hc (by decide)
      · rcases mem_fair hl hx with hx | hx | ⟨w, hw', hx⟩
        · exact absurd hx (by decide)
        · exact absurd hx (by decide)
        · exact ((hl w hw').1 _ hx).2.1 rfl
    have cond : ∀ e, ¬ (startsWith "<!".toList ('<' :: (m ++ c :: spread asIs c e l)) ||
        contains "</".toList ('<' :: (m ++ c :: spread asIs c e l))) = true := by
      intro e
      obtain ⟨r, hr⟩ := head (spread asIs c e l)
      have := lt e
      rw [hr] at this ⊢
      exact start_tag hT hw this
    refine tidy_shut (cond _) (cond _) ?_
    have e1 : '<' :: (m ++ c :: spread asIs c (some n) l) = ('<' :: m ++ front asIs c l) ++ lastOf c l :: blanks n ++ ['>'] := by
      have := spread_front asIs c (some n) l []
      rw [List.append_nil] at this
      rw [this, show spread asIs (lastOf c l) (some n) [] = blanks n ++ ['>'] from rfl]; simp
    have e2 : '<' :: (m ++ c :: spread asIs c none l) = ('<' :: m ++ front asIs c l) ++ [lastOf c l] ++ ['>'] := by
      have := spread_front asIs c none l []
      rw [List.append_nil] at this
      rw [this, show spread asIs (lastOf c l) none [] = ['>'] from rfl]; simp
    have gt : ∀ d, dense d = true → d ≠ '>' := by
      rintro d hd rfl; revert hd; decide
    obtain ⟨y, z, h1, h2, h3⟩ := spread_end (c := c) (l := l) ⟨dense_solid hc, gt c hc⟩ fun w hw => Fair.inside (hl w hw)
    have hX : '>' ∉ ('<' :: m ++ front asIs c l) ++ [lastOf c l] := by
      have : ('<' :: m ++ front asIs c l) ++ [lastOf c l] = '<' :: m ++ (y ++ [z]) := by
        have := e2
        rw [h1] at this
        refine List.append_inj_left' (t₁ := ['>']) (t₂ := ['>']) ?_ rfl
        rw [← this]; simp
      rw [this]
      intro hx
      rcases List.mem_append.1 hx with hx | hx
      · rcases List.mem_cons.1 hx with hx | hx
        · exact absurd hx (by decide)
        · exact gt _ (hm _ hx) rfl
      · exact h3 hx
    have hXf : '>' ∉ '<' :: m ++ front asIs c l := fun hx => hX (List.mem_append.2 (.inl hx))
    have hb : ∀ d ∈ blanks n, isWhitespace d = true := blanks_ws
    rw [e1, e2]
    rcases he with he | he
    · rw [he] at hX ⊢
      rw [shut_open (by decide +kernel) (by decide) hXf (by simp [blanks]) hb, shut_closed (q := '"') hX (not_open (by decide +kernel))]
    · rw [he] at hX ⊢
      have hB : '>' ∉ ('<' :: m ++ front asIs c l) ++ '\'' :: blanks n := by
        intro hx
        rcases List.mem_append.1 hx with hx | hx
        · exact hXf hx
        · rcases List.mem_cons.1 hx with hx | hx
          · exact absurd hx (by decide)
          · exact absurd (List.mem_replicate.1 hx).2 (by decide)
      rw [shut_closed hB, shut_closed hX (not_open (by decide +kernel)),
        shut_open (by decide +kernel) (by decide) hXf (by simp [blanks]) hb, shut_closed hX (not_open (by decide +kernel))]
      rintro ⟨a, w, eq, w1, w2⟩
      -- the last character that is not white space is `'`
      have key : ∀ (r : Char) (a b w v : List Char), isWhitespace r = false → (∀ x ∈ v, isWhitespace x = true) →
          (∀ x ∈ w, isWhitespace x = true) → isWhitespace '"' = false → b ++ r :: v = a ++ '"' :: w → r = '"' := by
        intro r a b w v hr hv hw hq eq
        have := congrArg List.reverse eq
        simp only [List.reverse_append, List.reverse_cons, List.append_assoc, List.singleton_append] at this
        exact (class_split (p := isWhitespace) (fun x hx => hv x (List.mem_reverse.1 hx)) (fun x hx => hw x (List.mem_reverse.1 hx))
          hr hq this).2.1
      exact absurd (key _ _ _ _ _ (by decide +kernel) hb w2 (by decide +kernel) eq) (by decide)

end Verif.Html
