import Verif.Proofs.HtmlSpace
import Verif.Proofs.HtmlComments
import Verif.Proofs.HtmlTags
/-!
# The HTML minifier does not panic, does not invent anything and does not make a page larger
-/
set_option linter.unusedSimpArgs false
namespace Verif.Html
open Verif.Spec.Html

theorem bytes_append (a b : List Char) : bytes (a ++ b) = bytes a + bytes b := by
  simp [bytes]

theorem bytes_cons (c : Char) (s : List Char) : bytes (c :: s) = c.utf8Size + bytes s := by
  simp [bytes]

theorem bytes_pos {s : List Char} (h : s ≠ []) : 1 ≤ bytes s := by
  cases s with
  | nil => exact absurd rfl h
  | cons c s => rw [bytes_cons]; have := Char.utf8Size_pos c; omega

theorem ink_append (a b : List Char) : ink (a ++ b) = ink a ++ ink b := by simp [ink]

theorem ink_space {w : List Char} (h : ∀ c ∈ w, isWhitespace c = true) : ink w = [] := by
  simp only [ink, List.filter_eq_nil_iff]
  intro c hc
  rw [h c hc]; simp

/-- No new character but white space, and not larger. -/
structure Shrinks (s o : List Char) : Prop where
  ink : (ink o).Sublist (ink s)
  size : bytes o ≤ bytes s

theorem Shrinks.refl (s : List Char) : Shrinks s s := ⟨List.Sublist.refl _, Nat.le_refl _⟩
theorem Shrinks.trans {a b c : List Char} (h : Shrinks a b) (h' : Shrinks b c) : Shrinks a c :=
  ⟨h'.ink.trans h.ink, Nat.le_trans h'.size h.size⟩
theorem Shrinks.app {a b c d : List Char} (h : Shrinks a b) (h' : Shrinks c d) : Shrinks (a ++ c) (b ++ d) := by
  refine ⟨?_, ?_⟩
  · rw [ink_append, ink_append]; exact h.ink.append h'.ink
  · rw [bytes_append, bytes_append]; have := h.size; have := h'.size; omega

theorem shrinks_piecewise : Piecewise Shrinks := ⟨.refl _, fun _ => .refl _, fun _ _ _ _ h h' => h.app h'⟩

theorem Shrinks.nil (s : List Char) : Shrinks s [] := ⟨by simp [Spec.Html.ink], by simp [bytes]⟩

theorem Shrinks.blank {s : List Char} (h : s ≠ []) : Shrinks s [' '] := by
  refine ⟨?_, ?_⟩
  · have : Spec.Html.ink [' '] = [] := ink_space (by simp [ws_sp])
    rw [this]; simp
  · have := bytes_pos h
    have : bytes [' '] = 1 := by decide +kernel
    omega

theorem Shrinks.of_sublist {s o : List Char} (h : o.Sublist s) : Shrinks s o := by
  refine ⟨h.filter _, ?_⟩
  induction h with
  | slnil => exact Nat.le_refl _
  | cons c _ ih => rw [bytes_cons]; omega
  | cons_cons c _ ih => rw [bytes_cons, bytes_cons]; omega

theorem shrinks_trim (s : List Char) : Shrinks s (trim s) := by
  obtain ⟨a, b, h, -⟩ := trim_spec s
  refine .of_sublist ?_
  have h2 : (trim s).Sublist (a ++ trim s ++ b) :=
    (List.sublist_append_right a (trim s)).trans (List.sublist_append_left _ b)
  rwa [← h] at h2

theorem shrinks_comments (s : List Char) : Shrinks s (removeComments s) := by
  refine replaceAll_rel shrinks_piecewise solid_comment s ?_
  intro u h hm
  split
  · exact .refl _
  · exact .blank (hit_ne solid_comment hm)

theorem solid_styleTag (T : Tables) : solid (styleTag T) := solid_seq _ (solid_c _)
theorem solid_typeAttr (T : Tables) : solid (typeAttr T) := solid_seq' _ (solid_lit (by simp))

theorem shrinks_condense (T : Tables) (s : List Char) : Shrinks s (condense T s) := by
  refine replaceAll_rel shrinks_piecewise (solid_styleTag T) s ?_
  intro u h hm
  exact replaceAll_rel shrinks_piecewise (solid_typeAttr T) _ fun _ _ _ => .nil _

theorem shrinks_tags (s : List Char) : Shrinks s (cleanUnneededTags s) := by
  have h := clean_removal s
  generalize cleanUnneededTags s = o at h
  induction h with
  | refl => exact .refl _
  | @step a t b o _ _ ih =>
    refine Shrinks.trans ?_ ih
    refine .of_sublist ?_
    exact (List.sublist_append_left a t).append (List.Sublist.refl b)

theorem shrinks_gap {q w : List Char} {r : List Char} (hw : w ≠ []) :
    Shrinks (q ++ (w ++ r)) (q ++ ([' '] ++ r)) := (Shrinks.refl q).app ((Shrinks.blank hw).app (.refl r))

theorem shrinks_space (T : Tables) (s : List Char) : Shrinks s (condenseWhitespace T s) := by
  rw [condenseWhitespace_eq]
  split
  · refine Shrinks.trans (b := pass1 s) ?_ ?_
    · refine replaceAll_rel shrinks_piecewise solid_betweenTags s ?_
      intro u h hm
      obtain ⟨w, hw, h1, h2⟩ := lang_betweenTags.1 (ends_sound hm).2
      rw [hw]
      exact shrinks_gap (q := ['>']) (r := ['<']) h1
    · refine replaceAll_rel shrinks_piecewise solid_runs _ ?_
      intro u h hm
      exact .blank (hit_ne solid_runs hm)
  · exact shrinks_trim s

/-! ## Tags -/

theorem solid_anyTag (T : Tables) : solid (anyTag T) := solid_seq _ (solid_c _)
theorem solid_extraSpaces : solid extraSpaces := solid_alt (solid_seq _ (solid_c _)) (solid_seq _ (solid_ch _))
theorem solid_betweenWords (T : Tables) : solid (betweenWords T) := solid_seq _ (solid_ch _)
theorem solid_spacesBeforeClose (q : Char) : solid (spacesBeforeClose q) := solid_seq _ (solid_c _)
theorem solid_extraSpaces2 (T : Tables) : solid (extraSpaces2 T) :=
  solid_alt (solid_seq _ (solid_c _)) (solid_alt (solid_seq _ (solid_c _)) (solid_alt (solid_seq _ (solid_c _))
    (solid_seq _ (solid_c _))))
theorem solid_extraSpaces3 (T : Tables) : solid (extraSpaces3 T) := solid_seq _ (solid_ch _)
theorem solid_quotesInTag : solid quotesInTag := solid_seq _ (solid_grp (solid_plus _))

theorem lang_spacesBeforeClose {q : Char} {t : List Char} : lang (spacesBeforeClose q) t ↔
    ∃ w, t = q :: (w ++ ['>']) ∧ w ≠ [] ∧ ∀ c ∈ w, isWhitespace c = true := by
  constructor
  · rintro ⟨u, v, rfl, hu, x, y, rfl, hx, hy⟩
    rw [lang_c.1 hu, lang_c.1 hy]
    obtain ⟨h1, h2⟩ := lang_plus.1 hx
    exact ⟨x, by simp, h1, h2⟩
  · rintro ⟨w, rfl, h1, h2⟩
    exact ⟨[q], w ++ ['>'], rfl, lang_c.2 rfl, w, _, rfl, lang_plus.2 ⟨h1, h2⟩, lang_c.2 rfl⟩

theorem shrinks_close {q : Char} (s : List Char) : Shrinks s (replaceAll (spacesBeforeClose q) (fun _ => [q, '>']) s) := by
  refine replaceAll_rel shrinks_piecewise (solid_spacesBeforeClose q) s ?_
  intro u h hm
  obtain ⟨w, hw, -, -⟩ := lang_spacesBeforeClose.1 (ends_sound hm).2
  rw [hw]
  exact (Shrinks.refl [q]).app ((Shrinks.nil w).app (.refl ['>']))

theorem shrinks_oneSpace (s : List Char) : Shrinks s (oneSpace s) := by
  refine replaceAll_rel shrinks_piecewise solid_extraSpaces s ?_
  intro u h hm
  exact .blank (hit_ne solid_extraSpaces hm)

theorem shrinks_spaceLoop (as bs : List (List Char)) (tag : List Char) : Shrinks tag (spaceLoop as bs tag) := by
  unfold spaceLoop
  induction replacements as bs generalizing tag with
  | nil => exact .refl _
  | cons x xs ih => exact (replaceStr_rel shrinks_piecewise _ (shrinks_oneSpace x)).trans (ih _)

theorem lang_extraSpaces2 {T : Tables} {t : List Char} (h : lang (extraSpaces2 T) t) :
    ∃ q a b r, (q = '"' ∨ q = '\'') ∧ t = q :: a :: b :: r ∧ isWhitespace a = true ∧ isWhitespace b = true := by
  have key : ∀ (q : Char) (r : Re), lang (spacedName T q r) t →
      ∃ a b r, t = q :: a :: b :: r ∧ isWhitespace a = true ∧ isWhitespace b = true := by
    rintro q r ⟨u, v, rfl, hu, x, y, rfl, ⟨a, rfl, ha⟩, z, z', rfl, hz, -⟩
    rw [lang_c.1 hu]
    obtain ⟨h1, h2⟩ := lang_plus.1 hz
    cases z with
    | nil => exact absurd rfl h1
    | cons b z => exact ⟨a, b, z ++ z', rfl, ha, h2 b (by simp)⟩
  rcases h with h | h | h | h
  · obtain ⟨a, b, r, h⟩ := key _ _ h; exact ⟨_, a, b, r, .inl rfl, h⟩
  · obtain ⟨a, b, r, h⟩ := key _ _ h; exact ⟨_, a, b, r, .inr rfl, h⟩
  · obtain ⟨a, b, r, h⟩ := key _ _ h; exact ⟨_, a, b, r, .inl rfl, h⟩
  · obtain ⟨a, b, r, h⟩ := key _ _ h; exact ⟨_, a, b, r, .inr rfl, h⟩

theorem bytes_dropWhile (p : Char → Bool) (s : List Char) : bytes (s.dropWhile p) ≤ bytes s :=
  (Shrinks.of_sublist (List.dropWhile_sublist p)).size

theorem ink_trimStart (s : List Char) : ink (trimStart s) = ink s := by
  obtain ⟨a, h1, h2, -⟩ := dropWhile_split space s
  have : ink s = ink (a ++ trimStart s) := congrArg ink h1
  rw [this, ink_append, ink_space h2]; rfl

theorem nameLoop_some {T : Tables} (ms : List (List Char)) (hms : ∀ m ∈ ms, lang (extraSpaces2 T) m) (s : List Char) :
    ∃ o, nameLoop ms s = some o ∧ Shrinks s o := by
  induction ms generalizing s with
  | nil => exact ⟨s, rfl, .refl _⟩
  | cons m ms ih =>
    obtain ⟨q, a, b, r, hq, rfl, ha, hb⟩ := lang_extraSpaces2 (hms m (by simp))
    have hf : from1 (q :: a :: b :: r) = some (a :: b :: r) := by
      rw [from1, if_pos]
      rcases hq with rfl | rfl <;> decide +kernel
    obtain ⟨o, h1, h2⟩ := ih (fun x hx => hms x (by simp [hx]))
      (replaceStr (q :: a :: b :: r) ((q :: a :: b :: r).take 1 ++ ' ' :: trimStart (a :: b :: r)) s)
    refine ⟨o, by rw [nameLoop, hf]; exact h1, Shrinks.trans ?_ h2⟩
    refine replaceStr_rel shrinks_piecewise s ?_
    refine Shrinks.app (a := [q]) (b := [q]) (.refl _) ⟨?_, ?_⟩
    · have : ink (' ' :: trimStart (a :: b :: r)) = ink (a :: b :: r) := by
        have h3 : ink (' ' :: trimStart (a :: b :: r)) = ink ([' '] ++ trimStart (a :: b :: r)) := rfl
        rw [h3, ink_append, ink_trimStart, ink_space (by simp [ws_sp])]; rfl
      rw [this]; exact List.Sublist.refl _
    · have : trimStart (a :: b :: r) = trimStart (b :: r) := by
        rw [trimStart, List.dropWhile_cons, if_pos (show space a = true from ha)]; rfl
      rw [this, bytes_cons, bytes_cons]
      have h4 := bytes_dropWhile space (b :: r)
      have h5 := Char.utf8Size_pos a
      have h6 : (' ' : Char).utf8Size = 1 := by decide +kernel
      show _ + bytes ((b :: r).dropWhile space) ≤ _
      omega

/-- The groups of a match of `([a-zA-Z]+)="([a-zA-Z0-9-_\.]+)"`. -/
theorem quotes_caps {s : List Char} {h : Hit} (hm : h ∈ ends quotesInTag s) :
    h.text = h.cap 1 ++ '=' :: '"' :: (h.cap 2 ++ ['"']) ∧ h.cap 1 ≠ [] ∧ (∀ c ∈ h.cap 1, letter c = true) ∧
      h.cap 2 ≠ [] ∧ ∀ c ∈ h.cap 2, simple c = true := by
  unfold quotesInTag at hm
  rw [ends] at hm
  obtain ⟨x, hx, hm⟩ := List.mem_flatMap.1 hm
  obtain ⟨y, hy, rfl⟩ := List.mem_map.1 hm
  rw [ends] at hx
  obtain ⟨x', hx', rfl⟩ := List.mem_map.1 hx
  have lx := lang_plus.1 (ends_sound hx').2
  simp only at hy
  by_cases hp : ∃ u, x'.rest = "=\"".toList ++ u
  · obtain ⟨u, hu⟩ := hp
    rw [hu, ends_lit] at hy
    obtain ⟨z, hz, rfl⟩ := List.mem_map.1 hy
    rw [ends] at hz
    obtain ⟨a, ha, hz⟩ := List.mem_flatMap.1 hz
    obtain ⟨b, hb, rfl⟩ := List.mem_map.1 hz
    rw [ends] at ha
    obtain ⟨a', ha', rfl⟩ := List.mem_map.1 ha
    have la := lang_plus.1 (ends_sound ha').2
    have lb := lang_c.1 (ends_sound hb).2
    have cx : x'.caps = [] := by
      unfold Re.plus at hx'
      simp only [ends, List.mem_flatMap, List.mem_map] at hx'
      obtain ⟨p, hp, k, hk, rfl⟩ := hx'
      have hp0 : p.caps = [] := by
        cases hs : s with
        | nil => rw [hs] at hp; simp [ends] at hp
        | cons c s' =>
          rw [hs, ends] at hp
          split at hp
          · rw [List.mem_singleton] at hp; rw [hp]
          · simp at hp
      have hk0 : k.caps = [] := by
        simp only [if_true, List.mem_reverse, List.mem_map] at hk
        obtain ⟨_, _, rfl⟩ := hk; rfl
      simp [hp0, hk0]
    simp only [Hit.cap, cx, List.nil_append, List.cons_append, List.lookup_cons, beq_self_eq_true, Option.getD_some]
    have h21 : ((2 : Nat) == 1) = false := rfl
    simp only [h21, List.lookup_cons, beq_self_eq_true, Option.getD_some]
    refine ⟨?_, lx.1, lx.2, la.1, la.2⟩
    rw [lb]
    simp
  · rw [ends_lit_nil (fun u e => hp ⟨u, e⟩)] at hy
    simp at hy

theorem shrinks_quotes (s : List Char) : Shrinks s (replaceAll quotesInTag unquote s) := by
  refine replaceAll_rel shrinks_piecewise solid_quotesInTag s ?_
  intro u h hm
  have ht := (quotes_caps hm).1
  rw [ht, unquote]
  split
  · refine (Shrinks.refl (h.cap 1)).app (Shrinks.app (a := ['=']) (b := ['=']) (.refl _) (.of_sublist ?_))
    exact (List.sublist_append_left _ _).trans (List.sublist_cons_self '"' _)
  · exact .refl _

theorem tidyTag_some (T : Tables) (cap : List Char) : ∃ o, tidyTag T cap = some o ∧ Shrinks cap o := by
  unfold tidyTag
  split
  · exact ⟨cap, rfl, .refl _⟩
  · simp only
    have h1 := shrinks_close (q := '"') cap
    have h2 := shrinks_close (q := '\'') (replaceAll (spacesBeforeClose '"') (fun _ => "\">".toList) cap)
    have h3 := shrinks_spaceLoop
      (findIter (betweenWords T) (replaceAll (spacesBeforeClose '\'') (fun _ => "'>".toList) (replaceAll (spacesBeforeClose '"') (fun _ => "\">".toList) cap)))
      (findIter (extraSpaces3 T) (replaceAll (spacesBeforeClose '\'') (fun _ => "'>".toList) (replaceAll (spacesBeforeClose '"') (fun _ => "\">".toList) cap)))
      (replaceAll (spacesBeforeClose '\'') (fun _ => "'>".toList) (replaceAll (spacesBeforeClose '"') (fun _ => "\">".toList) cap))
    generalize spaceLoop _ _ _ = tag at h3
    obtain ⟨o, h4, h5⟩ := nameLoop_some (findIter (extraSpaces2 T) tag)
      (fun m hm => findIter_lang (solid_extraSpaces2 T) hm) tag
    rw [h4]
    exact ⟨_, rfl, h1.trans (h2.trans (h3.trans (h5.trans (shrinks_quotes o))))⟩

theorem replaceAllM_nil (r : Re) (f : Hit → Option (List Char)) : replaceAllM r f [] = some [] := rfl

theorem replaceAllM_miss {r : Re} (f : Hit → Option (List Char)) {c : Char} {s : List Char} (h : ends r (c :: s) = []) :
    replaceAllM r f (c :: s) = (replaceAllM r f s).map (c :: ·) := by
  rw [replaceAllM, cut_miss h, List.mapM_cons, replaceAllM]
  cases (cut r s).mapM (fun (x : Piece) => match x with | .chr c => some [c] | .hit h => f h) <;> rfl

theorem replaceAllM_hit {r : Re} (hs : solid r) (f : Hit → Option (List Char)) {h : Hit} {hh : List Hit} {s : List Char}
    (he : ends r s = h :: hh) :
    replaceAllM r f s = (f h).bind fun t => (replaceAllM r f h.rest).map (t ++ ·) := by
  rw [replaceAllM, cut_hit hs he, List.mapM_cons, replaceAllM]
  simp only
  cases f h with
  | none => rfl
  | some t =>
    cases (cut r h.rest).mapM (fun (x : Piece) => match x with | .chr c => some [c] | .hit h => f h) <;> rfl

theorem replaceAllM_rel {R : List Char → List Char → Prop} (hR : Piecewise R) {r : Re} (hs : solid r)
    {f : Hit → Option (List Char)} (s : List Char) (hf : ∀ u, ∀ h ∈ ends r u, ∃ t, f h = some t ∧ R h.text t) :
    ∃ o, replaceAllM r f s = some o ∧ R s o := by
  induction s using cut_induct hs with
  | nil => exact ⟨[], rfl, hR.nil⟩
  | miss c s he ih =>
    obtain ⟨o, h1, h2⟩ := ih
    exact ⟨c :: o, by rw [replaceAllM_miss _ he, h1]; rfl, hR.app [c] [c] _ _ (hR.one c) h2⟩
  | hit s h hh he ih =>
    have hm : h ∈ ends r s := by rw [he]; simp
    obtain ⟨o, h1, h2⟩ := ih
    obtain ⟨t, h3, h4⟩ := hf s h hm
    refine ⟨t ++ o, by rw [replaceAllM_hit hs _ he, h1, h3]; rfl, ?_⟩
    have := hR.app _ _ _ _ h4 h2
    rwa [← (ends_sound hm).1] at this

theorem unquote_some (T : Tables) (s : List Char) : ∃ o, unquoteAttributes T s = some o ∧ Shrinks s o := by
  obtain ⟨o, h1, h2⟩ := replaceAllM_rel shrinks_piecewise (solid_anyTag T) (f := fun h => tidyTag T h.text) s
    fun u h _ => tidyTag_some T h.text
  exact ⟨trim o, by rw [unquoteAttributes, h1]; rfl, h2.trans (shrinks_trim o)⟩

theorem minify_some (T : Tables) (s : List Char) : ∃ o, minify T s = some o ∧ Shrinks s o := by
  obtain ⟨o, h1, h2⟩ := unquote_some T (condenseWhitespace T (cleanUnneededTags (condense T (removeComments s))))
  refine ⟨trim o, by rw [minify, h1]; rfl, ?_⟩
  exact (shrinks_comments s).trans ((shrinks_condense T _).trans ((shrinks_tags _).trans ((shrinks_space T _).trans
    (h2.trans (shrinks_trim o)))))

end Verif.Html
