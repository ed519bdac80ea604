import Verif.Proofs.HtmlRe
import Verif.Spec.Html
/-!
# The tag pass of the HTML minifier
-/
set_option linter.unusedSimpArgs false
namespace Verif.Html
open Verif.Spec.Html

/-- A tag: no angle brackets but at its ends. -/
def TagShape (t : List Char) : Prop := ∃ v, t = '<' :: (v ++ ['>']) ∧ '<' ∉ v ∧ '>' ∉ v ∧ Sharp v

theorem dull_gt : dull '>' = false := by decide +kernel

theorem stray_sharp {v : List Char} (h1 : '<' ∉ v) (h2 : Sharp v) (s : List Char) : stray (v ++ '>' :: s) = false := by
  cases v with
  | nil => exact dull_gt
  | cons c v =>
    simp only [List.mem_cons, not_or] at h1
    rw [List.cons_append, stray, if_neg (Ne.symm h1.1)]
    exact h2 c v rfl

theorem mem_uselessTags (t : List Char) : t ∈ uselessTags ↔ Listed t := by
  have h1 : ∀ t ∈ uselessTags, t ∈ listed.map String.toList := by decide +kernel
  have h2 : ∀ t ∈ listed.map String.toList, t ∈ uselessTags := by decide +kernel
  constructor
  · intro h
    obtain ⟨s, hs, rfl⟩ := List.mem_map.1 (h1 t h)
    exact ⟨s, hs, rfl⟩
  · rintro ⟨s, hs, rfl⟩
    exact h2 _ (List.mem_map.2 ⟨s, hs, rfl⟩)

private def shapeB (t : List Char) : Bool :=
  match t with
  | [] => false
  | c :: u => c == '<' && (u == u.dropLast ++ ['>']) && !u.dropLast.contains '<' && !u.dropLast.contains '>' &&
    (match u.dropLast with | [] => true | c :: _ => !dull c)

theorem useless_shape {t : List Char} (h : t ∈ uselessTags) : TagShape t := by
  have h1 : ∀ t ∈ uselessTags, shapeB t = true := by decide +kernel
  have h2 := h1 t h
  cases t with
  | nil => exact absurd h2 (by decide)
  | cons c u =>
    simp only [shapeB, Bool.and_eq_true, beq_iff_eq, Bool.not_eq_true', List.contains_eq_mem, decide_eq_false_iff_not] at h2
    obtain ⟨⟨⟨⟨rfl, h3⟩, h4⟩, h5⟩, h6⟩ := h2
    refine ⟨u.dropLast, by rw [← h3], h4, h5, ?_⟩
    intro d w e
    rw [e] at h6
    simpa using h6

theorem TagShape.ne {t : List Char} (h : TagShape t) : t ≠ [] := by
  obtain ⟨v, rfl, -⟩ := h; simp

/-! ## Only listed tags go -/

theorem Removal.trans {a b c : List Char} (h : Removal a b) (h' : Removal b c) : Removal a c := by
  induction h with
  | refl => exact h'
  | step ht _ ih => exact .step ht (ih h')

theorem Removal.right {a b : List Char} (c : List Char) (h : Removal a b) : Removal (a ++ c) (b ++ c) := by
  induction h with
  | refl => exact .refl
  | @step x t y o ht _ ih =>
    rw [List.append_assoc]
    refine .step ht ?_
    rw [← List.append_assoc]; exact ih

theorem Removal.left {a b : List Char} (c : List Char) (h : Removal a b) : Removal (c ++ a) (c ++ b) := by
  induction h with
  | refl => exact .refl
  | @step x t y o ht _ ih =>
    have : c ++ (x ++ t ++ y) = (c ++ x) ++ t ++ y := by simp
    rw [this]
    refine .step ht ?_
    rw [List.append_assoc]; exact ih

theorem removal_piecewise : Piecewise Removal :=
  ⟨.refl, fun _ => .refl, fun _ _ _ _ h h' => Removal.trans (Removal.right _ h) (Removal.left _ h')⟩

theorem fold_removal (ts : List (List Char)) (hts : ∀ t ∈ ts, Listed t) (s : List Char) :
    Removal s (ts.foldl (fun res t => replaceStr t [] res) s) := by
  induction ts generalizing s with
  | nil => exact .refl
  | cons t ts ih =>
    rw [List.foldl_cons]
    refine Removal.trans ?_ (ih (fun x hx => hts x (by simp [hx])) _)
    refine replaceStr_rel removal_piecewise s ?_
    have := Removal.step (a := []) (b := []) (o := []) (hts t (by simp)) .refl
    simpa using this

theorem clean_removal (s : List Char) : Removal s (cleanUnneededTags s) :=
  fold_removal _ (fun t ht => (mem_uselessTags t).1 ht) s

theorem replaceStr_absent {pat to s : List Char} (h : ∀ a b, s ≠ a ++ pat ++ b) (hp : pat ≠ []) : replaceStr pat to s = s := by
  refine replaceAll_none (solid_str _) ?_
  intro a t b e hl
  rw [lang_str hp] at hl
  subst hl
  exact h a b e

theorem clean_absent {s : List Char} (h : ∀ a t b, Listed t → s ≠ a ++ t ++ b) : cleanUnneededTags s = s := by
  have : ∀ ts : List (List Char), (∀ t ∈ ts, t ∈ uselessTags) → ts.foldl (fun res t => replaceStr t [] res) s = s := by
    intro ts hts
    induction ts with
    | nil => rfl
    | cons t ts ih =>
      have ht := hts t (by simp)
      rw [List.foldl_cons, replaceStr_absent (fun a b => h a t b ((mem_uselessTags t).1 ht)) (useless_shape ht).ne]
      exact ih fun x hx => hts x (by simp [hx])
  exact this _ fun _ h => h

/-! ## Flat texts -/

theorem Flat.suffix {a s : List Char} (h : Flat (a ++ s)) : Flat s := by
  intro x u b e
  exact h (a ++ x) u b (by rw [e]; simp)

/-- Before the first `>` there is no `<`. -/
def Inner (s : List Char) : Prop := ∀ v b, s = v ++ '<' :: b → stray b = false → '>' ∈ v

theorem Flat.inner {s : List Char} (h : Flat ('<' :: s)) (hs : stray s = false) : Inner s := by
  intro v b e hb
  exact h [] v b (by rw [e]; rfl) (by rw [← e]; exact hs) hb

/-- What begins like a tag after the tags are cut out did so before. -/
theorem without_stray {gone : List Char → Prop} (hg : ∀ t, gone t → TagShape t) {s o x : List Char}
    (h : Without gone s (x ++ '>' :: o)) (h1 : '<' ∉ x) (h2 : Sharp x) : stray s = false := by
  generalize he : x ++ '>' :: o = y at h
  cases h with
  | nil => simp at he
  | char _ _ =>
    cases x with
    | nil =>
      rw [← (List.cons.inj he).1]; exact dull_gt
    | cons c x =>
      simp only [List.mem_cons, not_or] at h1
      rw [← (List.cons.inj he).1, stray, if_neg (Ne.symm h1.1)]
      exact h2 c x rfl
  | tag ht _ =>
    obtain ⟨v, rfl, g1, -, g3⟩ := hg _ ht
    rw [List.cons_append, List.append_assoc, stray, if_pos rfl]
    exact stray_sharp g1 g3 _

theorem without_copy {gone : List Char → Prop} (hg : ∀ t, gone t → TagShape t) {x u o : List Char} (h : Without gone (x ++ u) o)
    (hx : '<' ∉ x) : ∃ o', o = x ++ o' ∧ Without gone u o' := by
  induction x generalizing o with
  | nil => exact ⟨o, rfl, h⟩
  | cons c x ih =>
    simp only [List.mem_cons, not_or] at hx
    generalize he : c :: x ++ u = y at h
    cases h with
    | nil => simp at he
    | char _ h2 =>
      obtain ⟨rfl, rfl⟩ := List.cons.inj he
      obtain ⟨o', rfl, h3⟩ := ih h2 hx.2
      exact ⟨o', rfl, h3⟩
    | tag ht _ =>
      obtain ⟨v, rfl, -⟩ := hg _ ht
      exact absurd (List.cons.inj he).1.symm hx.1

theorem without_back {gone : List Char → Prop} (hg : ∀ t, gone t → TagShape t) {x s o : List Char}
    (h : Without gone s (x ++ '>' :: o)) (hs : Inner s) (hx : '>' ∉ x) :
    ∃ s', s = x ++ '>' :: s' ∧ Without gone s' o := by
  induction x generalizing s with
  | nil =>
    generalize he : [] ++ '>' :: o = y at h
    cases h with
    | nil => simp at he
    | char _ h2 =>
      obtain ⟨rfl, rfl⟩ := List.cons.inj he
      exact ⟨_, rfl, h2⟩
    | tag ht _ =>
      obtain ⟨v, rfl, g1, -, g3⟩ := hg _ ht
      exact absurd (hs [] _ rfl (by
        show stray ((v ++ ['>']) ++ _) = false
        rw [List.append_assoc]; exact stray_sharp g1 g3 _)) (by simp)
  | cons c x ih =>
    simp only [List.mem_cons, not_or] at hx
    generalize he : c :: x ++ '>' :: o = y at h
    cases h with
    | nil => simp at he
    | char _ h2 =>
      obtain ⟨rfl, rfl⟩ := List.cons.inj he
      obtain ⟨s', rfl, h3⟩ := ih h2 (by
        intro v b e hb
        have := hs (c :: v) b (by rw [e]; rfl) hb
        simp only [List.mem_cons] at this
        rcases this with h | h
        · exact absurd h hx.1
        · exact h) hx.2
      exact ⟨s', rfl, h3⟩
    | tag ht _ =>
      obtain ⟨v, rfl, g1, -, g3⟩ := hg _ ht
      exact absurd (hs [] _ rfl (by
        show stray ((v ++ ['>']) ++ _) = false
        rw [List.append_assoc]; exact stray_sharp g1 g3 _)) (by simp)

/-- One more kind of tag is removed. -/
theorem without_more {gone : List Char → Prop} (hg : ∀ t, gone t → TagShape t) {t : List Char} (ht : TagShape t) (n : Nat) :
    ∀ s o, s.length ≤ n → Flat s → Without gone s o → Without (fun x => gone x ∨ x = t) s (replaceStr t [] o) := by
  induction n with
  | zero =>
    intro s o hn _ h
    have : s = [] := List.eq_nil_of_length_eq_zero (by omega)
    subst this
    generalize he : ([] : List Char) = y at h
    cases h with
    | nil => exact .nil
    | char => simp at he
    | tag h1 _ =>
      obtain ⟨v, rfl, -⟩ := hg _ h1
      simp at he
  | succ n ih =>
    intro s o hn hf h
    cases h with
    | nil => exact .nil
    | @tag t' s o h1 h2 =>
      obtain ⟨v, rfl, -⟩ := hg _ h1
      refine .tag (.inl h1) (ih _ _ ?_ (Flat.suffix hf) h2)
      simp only [List.length_append, List.length_cons] at hn
      omega
    | @char c s o h1 h2 =>
      simp only [List.length_cons] at hn
      by_cases hp : ∃ u, c :: o = t ++ u
      · obtain ⟨u, hu⟩ := hp
        rw [hu, replaceStr_hit ht.ne, List.nil_append]
        obtain ⟨v, rfl, hv1, hv2, hv3⟩ := ht
        obtain ⟨rfl, e⟩ := List.cons.inj hu
        have e : o = v ++ '>' :: u := by rw [e]; simp
        rw [e] at h2
        obtain ⟨s', rfl, h3⟩ := without_back hg h2 (Flat.inner hf (without_stray hg h2 hv1 hv3)) hv2
        have hs : '<' :: (v ++ '>' :: s') = ('<' :: (v ++ ['>'])) ++ s' := by simp
        rw [hs]
        refine .tag (.inr rfl) (ih _ _ ?_ (by rw [hs] at hf; exact (Flat.suffix hf)) h3)
        simp only [List.length_append, List.length_cons] at hn
        omega
      · rw [replaceStr_miss hp ht.ne]
        refine .char ?_ (ih _ _ (by omega) (Flat.suffix (a := [c]) hf) h2)
        rintro x u (hx | rfl) e
        · exact h1 x u hx e
        · obtain ⟨v, rfl, hv1, hv2, hv3⟩ := ht
          obtain ⟨rfl, e2⟩ := List.cons.inj e
          rw [e2] at h2
          obtain ⟨o', rfl, -⟩ := without_copy hg (x := v ++ ['>']) h2 (by simp [hv1])
          exact hp ⟨o', by simp⟩

theorem without_false (s : List Char) : Without (fun _ => False) s s := by
  induction s with
  | nil => exact .nil
  | cons c s ih => exact .char (fun _ _ h => h.elim) ih

theorem without_congr {g g' : List Char → Prop} {s o : List Char} (h : Without g s o) (hg : ∀ t, g t ↔ g' t) :
    Without g' s o := by
  have : g = g' := by funext t; exact propext (hg t)
  rw [← this]; exact h

theorem fold_without (ts : List (List Char)) (hts : ∀ t ∈ ts, TagShape t) {gone : List Char → Prop}
    (hg : ∀ t, gone t → TagShape t) {s o : List Char} (hf : Flat s) (h : Without gone s o) :
    Without (fun x => gone x ∨ x ∈ ts) s (ts.foldl (fun res t => replaceStr t [] res) o) := by
  induction ts generalizing gone o with
  | nil => exact without_congr h (by simp)
  | cons t ts ih =>
    have ht := hts t (by simp)
    have h1 := without_more hg ht _ s o (Nat.le_refl _) hf h
    have h2 := ih (fun x hx => hts x (by simp [hx])) (gone := fun x => gone x ∨ x = t) (by
      rintro x (hx | rfl)
      · exact hg x hx
      · exact ht) h1
    refine without_congr h2 ?_
    intro x
    simp only [List.mem_cons, or_assoc]

theorem clean_without {s : List Char} (hf : Flat s) : Without Listed s (cleanUnneededTags s) := by
  have h := fold_without uselessTags (fun t ht => useless_shape ht) (gone := fun _ => False) (by simp) hf (without_false s)
  refine without_congr h ?_
  intro t
  simp only [false_or]
  exact mem_uselessTags t

theorem listed_shape {t : List Char} (h : Listed t) : TagShape t := useless_shape ((mem_uselessTags t).2 h)

/-- Nothing is left of the tags. -/
theorem without_none {gone : List Char → Prop} (hg : ∀ t, gone t → TagShape t) {s o : List Char} (hf : Flat s)
    (h : Without gone s o) (a t b : List Char) (ht : gone t) : o ≠ a ++ t ++ b := by
  induction h generalizing a with
  | nil =>
    intro e
    have := List.append_eq_nil_iff.1 e.symm
    exact (hg t ht).ne (List.append_eq_nil_iff.1 this.1).2
  | @char c s o h1 h2 ih =>
    intro e
    cases a with
    | nil =>
      obtain ⟨v, rfl, hv1, hv2, hv3⟩ := hg t ht
      obtain ⟨rfl, e2⟩ := List.cons.inj e
      have e2 : o = v ++ '>' :: b := by rw [e2]; simp
      rw [e2] at h2
      obtain ⟨s', rfl, -⟩ := without_back hg h2 (Flat.inner hf (without_stray hg h2 hv1 hv3)) hv2
      exact h1 _ s' ht (by simp)
    | cons d a => exact ih (Flat.suffix (a := [c]) hf) a (List.cons.inj e).2
  | tag h1 h2 ih => exact ih (Flat.suffix hf) a

theorem shape_unique {t t' u u' : List Char} (h : TagShape t) (h' : TagShape t') (e : t ++ u = t' ++ u') : t = t' ∧ u = u' := by
  obtain ⟨v, rfl, -, h1, -⟩ := h
  obtain ⟨w, rfl, -, h2, -⟩ := h'
  have e : v ++ '>' :: u = w ++ '>' :: u' := by
    have := (List.cons.inj e).2
    simpa using this
  have key : ∀ (v w : List Char), '>' ∉ v → '>' ∉ w → v ++ '>' :: u = w ++ '>' :: u' → v = w ∧ u = u' := by
    intro v
    induction v with
    | nil =>
      intro w _ hw e
      cases w with
      | nil => exact ⟨rfl, (List.cons.inj e).2⟩
      | cons c w => exact absurd (List.cons.inj e).1 (fun h => hw (by rw [h]; simp))
    | cons d v ih =>
      intro w hv hw e
      cases w with
      | nil => exact absurd (List.cons.inj e).1.symm (fun h => hv (by rw [h]; simp))
      | cons c w =>
        obtain ⟨rfl, e'⟩ := List.cons.inj e
        simp only [List.mem_cons, not_or] at hv hw
        obtain ⟨rfl, h⟩ := ih w hv.2 hw.2 e'
        exact ⟨rfl, h⟩
  obtain ⟨rfl, rfl⟩ := key v w h1 h2 e
  exact ⟨rfl, rfl⟩

theorem without_unique {gone : List Char → Prop} (hg : ∀ t, gone t → TagShape t) {s o o' : List Char}
    (h : Without gone s o) (h' : Without gone s o') : o = o' := by
  induction h generalizing o' with
  | nil =>
    generalize he : ([] : List Char) = y at h'
    cases h' with
    | nil => rfl
    | char => simp at he
    | tag h1 _ =>
      obtain ⟨v, rfl, -⟩ := hg _ h1
      simp at he
  | char h1 _ ih =>
    generalize he : _ :: _ = y at h'
    cases h' with
    | nil => simp at he
    | char _ h2 =>
      obtain ⟨rfl, rfl⟩ := List.cons.inj he
      rw [ih h2]
    | tag h2 _ => exact absurd he (h1 _ _ h2)
  | @tag t s o h1 _ ih =>
    generalize he : t ++ s = y at h'
    cases h' with
    | nil => exact absurd (List.append_eq_nil_iff.1 he).1 (hg t h1).ne
    | char h2 _ => exact absurd he.symm (h2 _ _ h1)
    | tag h2 h3 =>
      obtain ⟨rfl, rfl⟩ := shape_unique (hg _ h1) (hg _ h2) he
      exact ih h3

/-! ## Deciding -/

/-- No tag begins before the next `>`. -/
def innerB : List Char → Bool
  | [] => true
  | c :: s => c == '>' || (c != '<' || stray s) && innerB s

def flatB : List Char → Bool
  | [] => true
  | c :: s => (c != '<' || stray s || innerB s) && flatB s

theorem inner_of {s u b : List Char} (h : innerB s = true) (e : s = u ++ '<' :: b) (hb : stray b = false) : '>' ∈ u := by
  induction u generalizing s with
  | nil => subst e; simp [innerB, hb] at h
  | cons c u ih =>
    subst e
    simp only [List.cons_append, innerB, Bool.or_eq_true, beq_iff_eq, Bool.and_eq_true] at h
    rcases h with rfl | h
    · simp
    · exact List.mem_cons_of_mem _ (ih h.2 rfl)

theorem flat_of {s : List Char} (h : flatB s = true) : Flat s := by
  intro a u b e h1 h2
  induction a generalizing s with
  | nil =>
    subst e
    simp only [List.nil_append, List.cons_append, flatB, h1, Bool.and_eq_true, Bool.or_eq_true] at h
    exact inner_of (by simpa using h.1) rfl h2
  | cons c a ih =>
    subst e
    simp only [List.cons_append, flatB, Bool.and_eq_true] at h
    exact ih h.2 (by simp)

end Verif.Html
