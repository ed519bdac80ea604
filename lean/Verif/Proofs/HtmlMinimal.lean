import Verif.Proofs.HtmlThin
import Verif.Proofs.HtmlPage
import Verif.Spec.HtmlMinimal
/-!
# Pages that the HTML minifier does not change
-/
set_option linter.unusedSimpArgs false
namespace Verif.Html
open Verif.Spec.Html

/-- Smaller, or unchanged. -/
def Strict (s o : List Char) : Prop := bytes o < bytes s ∨ o = s

theorem Strict.refl (s : List Char) : Strict s s := .inr rfl

theorem Strict.le {s o : List Char} (h : Strict s o) : bytes o ≤ bytes s := by
  rcases h with h | rfl
  · omega
  · exact Nat.le_refl _

theorem Strict.eq {s o : List Char} (h : Strict s o) (e : bytes s ≤ bytes o) : o = s := by
  rcases h with h | rfl
  · omega
  · rfl

theorem Strict.trans {a b c : List Char} (h : Strict a b) (h' : Strict b c) : Strict a c := by
  rcases h with h | rfl
  · have := h'.le; exact .inl (by omega)
  · exact h'

theorem strict_piecewise : Piecewise Strict := by
  refine ⟨.refl _, fun _ => .refl _, ?_⟩
  rintro a b c d (h | rfl) h'
  · have := h'.le
    exact .inl (by rw [bytes_append, bytes_append]; omega)
  · rcases h' with h' | rfl
    · exact .inl (by rw [bytes_append, bytes_append]; omega)
    · exact .refl _

/-- If all matches become smaller, a text that is not changed has none. -/
theorem replaceAll_fixed {r : Re} (hs : solid r) {f : Hit → List Char} {s : List Char}
    (hf : ∀ u, ∀ h ∈ ends r u, bytes (f h) < bytes h.text) (e : replaceAll r f s = s) :
    ∀ a t b, s = a ++ t ++ b → ¬ lang r t := by
  induction s using cut_induct hs with
  | nil =>
    intro a t b h hl
    have : t = [] := by
      have := congrArg List.length h
      simp only [List.length_nil, List.length_append] at this
      exact List.length_eq_zero_iff.1 (by omega)
    rw [this] at hl; exact hs hl
  | miss c s he ih =>
    rw [replaceAll_miss _ he] at e
    intro a t b h hl
    cases a with
    | nil => exact ends_nil.1 he t b h hl
    | cons d a => exact ih (List.cons.inj e).2 a t b (List.cons.inj h).2 hl
  | hit s x hh he ih =>
    have hm : x ∈ ends r s := by rw [he]; simp
    rw [replaceAll_hit hs _ he] at e
    have h1 := hf s x hm
    have h2 : Strict x.rest (replaceAll r f x.rest) := replaceAll_rel strict_piecewise hs _ fun u h hm => .inl (hf u h hm)
    have h3 := congrArg bytes e
    have h4 := congrArg bytes (ends_sound hm).1
    rw [bytes_append] at h3 h4
    have := h2.le
    omega

/-- If all matches become smaller or stay, those of a text that is not changed stay. -/
theorem replaceAll_each {r : Re} (hs : solid r) {g : List Char → List Char} {s : List Char}
    (hf : ∀ t, Strict t (g t)) (e : replaceAll r (fun h => g h.text) s = s) : ∀ t ∈ findIter r s, g t = t := by
  induction s using cut_induct hs with
  | nil => intro t ht; simp [findIter_nil] at ht
  | miss c s he ih =>
    rw [replaceAll_miss _ he] at e
    rw [findIter_miss he]
    exact ih (List.cons.inj e).2
  | hit s x hh he ih =>
    have hm : x ∈ ends r s := by rw [he]; simp
    rw [replaceAll_hit hs _ he] at e
    have h2 : Strict x.rest (replaceAll r (fun h => g h.text) x.rest) := replaceAll_rel strict_piecewise hs _ fun u h hm => hf _
    have h3 := congrArg bytes e
    have h4 := congrArg bytes (ends_sound hm).1
    rw [bytes_append] at h3 h4
    have h5 := h2.le
    have h6 := (hf x.text).le
    have e1 := h2.eq (by omega)
    rw [findIter_hit hs he]
    intro t ht
    rcases List.mem_cons.1 ht with rfl | ht
    · exact (hf _).eq (by omega)
    · exact ih e1 t ht

/-! ## The passes -/

theorem strict_comments (s : List Char) : Strict s (removeComments s) := by
  refine replaceAll_rel strict_piecewise solid_comment s ?_
  intro u h hm
  split
  · exact .refl _
  · left
    obtain ⟨x, hx, -⟩ := lang_lit.1 (ends_sound hm).2
    rw [hx, bytes_append]
    have h1 : bytes "<!--".toList = 4 := by decide +kernel
    have h2 : bytes [' '] = 1 := by decide +kernel
    omega

/-- Without the types. -/
def untyped (T : Tables) (t : List Char) : List Char := replaceAll (typeAttr T) (fun _ => []) t

theorem type_less {T : Tables} (u : List Char) (h : Hit) (hm : h ∈ ends (typeAttr T) u) : bytes [] < bytes h.text := by
  have := bytes_pos (hit_ne (solid_typeAttr T) hm)
  have h0 : bytes [] = 0 := rfl
  omega

theorem strict_untyped (T : Tables) (t : List Char) : Strict t (untyped T t) :=
  replaceAll_rel strict_piecewise (solid_typeAttr T) t fun u h hm => .inl (type_less u h hm)

theorem strict_condense (T : Tables) (s : List Char) : Strict s (condense T s) :=
  replaceAll_rel strict_piecewise (solid_styleTag T) s fun _ h _ => strict_untyped T h.text

theorem strict_removal {s o : List Char} (h : Removal s o) : bytes o ≤ bytes s ∧ (bytes o = bytes s → o = s) := by
  induction h with
  | refl => exact ⟨Nat.le_refl _, fun _ => rfl⟩
  | @step a t b o ht _ ih =>
    have : 1 ≤ bytes t := bytes_pos (listed_shape ht).ne
    have := ih.1
    rw [bytes_append] at this
    simp only [bytes_append]
    exact ⟨by omega, fun h => by omega⟩

theorem strict_tags (s : List Char) : Strict s (cleanUnneededTags s) := by
  obtain ⟨h1, h2⟩ := strict_removal (clean_removal s)
  by_cases h : bytes (cleanUnneededTags s) = bytes s
  · exact .inr (h2 h)
  · exact .inl (by omega)

theorem strict_trim (s : List Char) : Strict s (trim s) := by
  obtain ⟨a, b, h, -⟩ := trim_spec s
  generalize hx : trim s = x at h
  subst h
  by_cases ha : a = []
  · by_cases hb : b = []
    · right; simp [ha, hb]
    · left
      have := bytes_pos hb
      simp only [bytes_append]; omega
  · left
    have := bytes_pos ha
    simp only [bytes_append]; omega

theorem close_less {q : Char} (u : List Char) (h : Hit) (hm : h ∈ ends (spacesBeforeClose q) u) : bytes [q, '>'] < bytes h.text := by
  obtain ⟨w, hw, h1, -⟩ := lang_spacesBeforeClose.1 (ends_sound hm).2
  have := bytes_pos h1
  rw [hw]
  simp only [bytes_cons, bytes_append]
  omega

theorem strict_shut {q : Char} (s : List Char) : Strict s (shut q s) :=
  replaceAll_rel strict_piecewise (solid_spacesBeforeClose q) s fun u h hm => .inl (close_less u h hm)

theorem strict_oneSpace (s : List Char) : Strict s (oneSpace s) := by
  refine replaceAll_rel strict_piecewise solid_extraSpaces s ?_
  intro u h hm
  left
  have h2 : bytes [' '] = 1 := by decide +kernel
  rcases (ends_sound hm).2 with hl | hl
  · obtain ⟨x, y, e, h3, h4⟩ := hl
    rw [lang_c.1 h3] at e
    have := bytes_pos (lang_plus.1 h4).1
    rw [e, bytes_append]; omega
  · obtain ⟨x, y, e, ⟨c, h3, -⟩, h4⟩ := hl
    have := bytes_pos (lang_plus.1 h4).1
    have := bytes_pos (s := x) (by rw [h3]; simp)
    rw [e, bytes_append]; omega

theorem strict_replaceStr {x y : List Char} (s : List Char) (h : Strict x y) : Strict s (replaceStr x y s) :=
  replaceStr_rel strict_piecewise s h

theorem strict_spaceLoop (as bs : List (List Char)) (tag : List Char) : Strict tag (spaceLoop as bs tag) := by
  unfold spaceLoop
  induction replacements as bs generalizing tag with
  | nil => exact .refl _
  | cons x xs ih => exact (strict_replaceStr _ (strict_oneSpace x)).trans (ih _)

theorem name_less {q a b : Char} {r : List Char} (ha : isWhitespace a = true) (hb : isWhitespace b = true) :
    bytes ((q :: a :: b :: r).take 1 ++ ' ' :: trimStart (a :: b :: r)) < bytes (q :: a :: b :: r) := by
  have : trimStart (a :: b :: r) = trimStart r := by
    rw [trimStart, List.dropWhile_cons, if_pos (show space a = true from ha), List.dropWhile_cons, if_pos (show space b = true from hb)]; rfl
  rw [this]
  have h4 := bytes_dropWhile space r
  have h5 := Char.utf8Size_pos a
  have h7 := Char.utf8Size_pos b
  have h6 : (' ' : Char).utf8Size = 1 := by decide +kernel
  simp only [List.take_succ_cons, List.take_zero, List.cons_append, List.nil_append, bytes_cons]
  show _ + (_ + bytes (r.dropWhile space)) < _
  omega

theorem strict_nameLoop {T : Tables} (ms : List (List Char)) (hms : ∀ m ∈ ms, lang (extraSpaces2 T) m) (s : List Char) :
    ∃ o, nameLoop ms s = some o ∧ Strict s o ∧ (bytes s ≤ bytes o → ∀ m ∈ ms, ∀ a b, s ≠ a ++ m ++ b) := by
  induction ms generalizing s with
  | nil => exact ⟨s, rfl, .refl _, fun _ m hm => by simp at hm⟩
  | cons m ms ih =>
    obtain ⟨q, a, b, r, hq, rfl, ha, hb⟩ := lang_extraSpaces2 (hms m (by simp))
    have hf : from1 (q :: a :: b :: r) = some (a :: b :: r) := by
      rw [from1, if_pos]
      rcases hq with rfl | rfl <;> decide +kernel
    obtain ⟨o, h1, h2, h3⟩ := ih (fun x hx => hms x (by simp [hx]))
      (replaceStr (q :: a :: b :: r) ((q :: a :: b :: r).take 1 ++ ' ' :: trimStart (a :: b :: r)) s)
    have hless := name_less (q := q) (r := r) ha hb
    have hst := strict_replaceStr s (.inl hless)
    refine ⟨o, by rw [nameLoop, hf]; exact h1, hst.trans h2, ?_⟩
    intro he
    have e1 := hst.eq (by have := h2.le; omega)
    rw [e1] at h3
    intro m hm x y e
    rcases List.mem_cons.1 hm with rfl | hm
    · refine replaceAll_fixed (solid_str _) (fun u h hm => ?_) e1 x _ y e ((lang_str (by simp)).2 rfl)
      rw [(lang_str (by simp)).1 (ends_sound hm).2]
      exact hless
    · exact h3 he m hm x y e

theorem strict_quotes (s : List Char) : Strict s (quotes s) := by
  refine replaceAll_rel strict_piecewise solid_quotesInTag s ?_
  intro u h hm
  have ht := (quotes_caps hm).1
  rw [ht, unquote]
  split
  · left
    simp only [bytes_append, bytes_cons]
    have h1 : ('"' : Char).utf8Size = 1 := by decide +kernel
    omega
  · exact .refl _

theorem tidyTag_strict (T : Tables) (cap : List Char) : ∃ o, tidyTag T cap = some o ∧ Strict cap o ∧
    (o = cap → startsWith "<!".toList cap = false → contains "</".toList cap = false →
      shut '"' cap = cap ∧ shut '\'' cap = cap ∧ findIter (extraSpaces2 T) cap = [] ∧ quotes cap = cap) := by
  unfold tidyTag
  split
  · rename_i hc
    refine ⟨cap, rfl, .refl _, fun _ h1 h2 => ?_⟩
    rw [h1, h2] at hc; cases hc
  · simp only
    have h1 : Strict cap (shut '"' cap) := strict_shut cap
    have h2 : Strict _ (shut '\'' (shut '"' cap)) := strict_shut (shut '"' cap)
    have e1 : replaceAll (spacesBeforeClose '\'') (fun _ => "'>".toList) (replaceAll (spacesBeforeClose '"') (fun _ => "\">".toList) cap) =
      shut '\'' (shut '"' cap) := by
      have a1 : "\">".toList = ['"', '>'] := by decide +kernel
      have a2 : "'>".toList = ['\'', '>'] := by decide +kernel
      rw [a1, a2]; rfl
    rw [e1]
    have h3 := strict_spaceLoop (findIter (betweenWords T) (shut '\'' (shut '"' cap))) (findIter (extraSpaces3 T) (shut '\'' (shut '"' cap)))
      (shut '\'' (shut '"' cap))
    generalize spaceLoop _ _ _ = tag at h3
    obtain ⟨o, h4, h5, h6⟩ := strict_nameLoop (findIter (extraSpaces2 T) tag)
      (fun m hm => findIter_lang (solid_extraSpaces2 T) hm) tag
    rw [h4]
    have h7 := strict_quotes o
    refine ⟨quotes o, rfl, h1.trans (h2.trans (h3.trans (h5.trans h7))), ?_⟩
    intro he _ _
    have b := congrArg bytes he
    have l1 := h1.le; have l2 := h2.le; have l3 := h3.le; have l5 := h5.le; have l7 := h7.le
    have k1 := h1.eq (by omega)
    rw [k1] at h2 l2 l3 h3
    have k2 := h2.eq (by omega)
    rw [k2] at h3 l3
    have k3 := h3.eq (by omega)
    subst k3
    have k5 := h5.eq (by omega)
    subst k5
    refine ⟨k1, k2, ?_, he⟩
    cases hi : findIter (extraSpaces2 T) o with
    | nil => rfl
    | cons m ms =>
      have hm : m ∈ findIter (extraSpaces2 T) o := by rw [hi]; simp
      obtain ⟨x, y, e⟩ := findIter_infix (solid_extraSpaces2 T) hm
      exact absurd e (h6 (Nat.le_refl _) m hm x y)

/-- What becomes of a tag. -/
def tidied (T : Tables) (x : List Char) : List Char := (tidyTag T x).getD x

theorem tidied_eq (T : Tables) (x : List Char) : tidyTag T x = some (tidied T x) := by
  obtain ⟨o, h, -⟩ := tidyTag_strict T x
  rw [tidied, h]; rfl

theorem strict_tidied (T : Tables) (x : List Char) : Strict x (tidied T x) := by
  obtain ⟨o, h, h1, -⟩ := tidyTag_strict T x
  rw [tidied, h]; exact h1

theorem replaceAllM_some {r : Re} (hs : solid r) (f : Hit → List Char) (s : List Char) :
    replaceAllM r (fun h => some (f h)) s = some (replaceAll r f s) := by
  induction s using cut_induct hs with
  | nil => rfl
  | miss c s he ih => rw [replaceAllM_miss _ he, replaceAll_miss _ he, ih]; rfl
  | hit s h hh he ih => rw [replaceAllM_hit hs _ he, replaceAll_hit hs _ he, ih]; rfl

/-- All tags are tidied. -/
def allTidied (T : Tables) (s : List Char) : List Char := replaceAll (anyTag T) (fun h => tidied T h.text) s

theorem unquote_eq (T : Tables) (s : List Char) : unquoteAttributes T s = some (trim (allTidied T s)) := by
  rw [unquoteAttributes]
  have : (fun h : Hit => tidyTag T h.text) = fun h => some (tidied T h.text) := funext fun h => tidied_eq T h.text
  rw [this, replaceAllM_some (solid_anyTag T)]; rfl

theorem strict_allTidied (T : Tables) (s : List Char) : Strict s (allTidied T s) :=
  replaceAll_rel strict_piecewise (solid_anyTag T) s fun _ h _ => strict_tidied T h.text

theorem strict_chain {s a b c d e f : List Char} (h1 : Strict s a) (h2 : Strict a b) (h3 : Strict b c) (h4 : bytes d ≤ bytes c)
    (h5 : Strict d e) (h6 : Strict e f) (h : f = s) : a = s ∧ b = s ∧ c = s ∧ d = s ∧ e = s := by
  have l := congrArg bytes h
  have l1 := h1.le; have l2 := h2.le; have l3 := h3.le; have l5 := h5.le; have l6 := h6.le
  have e6 := h6.eq (by omega)
  have e5 := h5.eq (by omega)
  have e3 := h3.eq (by omega)
  have e2 := h2.eq (by omega)
  have e1 := h1.eq (by omega)
  subst e6 e5 e1 e2 e3
  exact ⟨rfl, rfl, rfl, h, h⟩

/-- A page is not changed exactly if no pass changes it. -/
theorem minify_fixed (T : Tables) (s : List Char) : minify T s = some s ↔
    removeComments s = s ∧ condense T s = s ∧ cleanUnneededTags s = s ∧ condenseWhitespace T s = s ∧ allTidied T s = s ∧ trim s = s := by
  rw [minify, unquote_eq, Option.map_some, trim_trim]
  constructor
  · intro h
    obtain ⟨e1, e2, e3, e4, e5⟩ := strict_chain (strict_comments s) (strict_condense T _) (strict_tags _)
      (shrinks_space T (cleanUnneededTags (condense T (removeComments s)))).size (strict_allTidied T _) (strict_trim _) (Option.some.inj h)
    rw [e1] at e2
    rw [e1, e2] at e3
    rw [e1, e2, e3] at e4
    rw [e1, e2, e3, e4] at e5
    rw [e1, e2, e3, e4, e5] at h
    exact ⟨e1, e2, e3, e4, e5, Option.some.inj h⟩
  · rintro ⟨h1, h2, h3, h4, h5, h6⟩
    rw [h1, h2, h3, h4, h5, h6]

/-! ## What that says about the page -/

theorem findIter_none {r : Re} {s : List Char} (hs : solid r) (e : findIter r s = []) : ∀ a t b, s = a ++ t ++ b → ¬ lang r t := by
  induction s using cut_induct hs with
  | nil =>
    intro a t b h hl
    have : t = [] := by
      have := congrArg List.length h
      simp only [List.length_nil, List.length_append] at this
      exact List.length_eq_zero_iff.1 (by omega)
    rw [this] at hl; exact hs hl
  | miss c s he ih =>
    rw [findIter_miss he] at e
    intro a t b h hl
    cases a with
    | nil => exact ends_nil.1 he t b h hl
    | cons d a => exact ih e a t b (List.cons.inj h).2 hl
  | hit s x hh he ih => rw [findIter_hit hs he] at e; cases e

theorem find_text {r : Re} (h : Taglike r) {w : List Char} (hw : '<' ∉ w) (s : List Char) : findIter r (w ++ s) = findIter r s := by
  induction w with
  | nil => rfl
  | cons c w ih =>
    simp only [List.mem_cons, not_or] at hw
    rw [List.cons_append, findIter_miss (h.head c _ (Ne.symm hw.1)), ih hw.2]

theorem find_after {r : Re} (h : Taglike r) (n : Nat) : ∀ (a s : List Char), a.length ≤ n → ∀ x ∈ findIter r s, x ∈ findIter r (a ++ '>' :: s) := by
  induction n with
  | zero =>
    intro a s ha x hx
    rw [List.length_eq_zero_iff.1 (Nat.le_zero.1 ha), List.nil_append, findIter_miss (h.head _ _ (by decide))]
    exact hx
  | succ n ih =>
    intro a s ha x hx
    cases a with
    | nil => rw [List.nil_append, findIter_miss (h.head _ _ (by decide))]; exact hx
    | cons c a =>
      simp only [List.length_cons] at ha
      by_cases hc : ends r (c :: (a ++ '>' :: s)) = []
      · rw [List.cons_append, findIter_miss hc]
        exact ih a s (by omega) x hx
      · have hl : c = '<' := Classical.byContradiction fun hn => hc (h.head c _ hn)
        subst hl
        by_cases hg : '>' ∈ a
        · obtain ⟨t, y, e, ht⟩ := List.append_of_mem hg |> fun _ => List.eq_append_cons_of_mem hg
          subst e
          rcases h.tag t ht with k | k
          · obtain ⟨k1, kk, e1, -, e3⟩ := k (y ++ '>' :: s)
            have e1' : ends r ('<' :: (t ++ '>' :: y) ++ '>' :: s) = k1 :: kk := by
              rw [← e1]; simp
            rw [findIter_hit h.solid e1', e3]
            refine List.mem_cons_of_mem _ (ih y s ?_ x hx)
            simp only [List.length_append, List.length_cons] at ha
            omega
          · refine absurd (k (y ++ '>' :: s)) ?_
            have e : '<' :: (t ++ '>' :: (y ++ '>' :: s)) = '<' :: (t ++ '>' :: y ++ '>' :: s) := by simp
            rw [e]; exact hc
        · rcases h.tag a hg with k | k
          · obtain ⟨k1, kk, e1, -, e3⟩ := k s
            rw [List.cons_append, findIter_hit h.solid e1, e3]
            exact List.mem_cons_of_mem _ hx
          · exact absurd (k s) hc

theorem find_tag {r : Re} (h : Taglike r) {s t : List Char} (ht : TagOf s t) (hl : lang r ('<' :: t ++ ['>'])) :
    '<' :: t ++ ['>'] ∈ findIter r s := by
  obtain ⟨a, w, b, rfl, ha, hw, -, hg⟩ := ht
  have h1 : '<' :: t ++ ['>'] ∈ findIter r ('<' :: (t ++ '>' :: b)) := by
    rcases h.tag t hg with k | k
    · obtain ⟨k1, kk, e1, e2, -⟩ := k b
      rw [findIter_hit h.solid e1, e2]; simp
    · obtain ⟨x, hx, -⟩ := ends_complete (u := b) hl
      have e : '<' :: t ++ ['>'] ++ b = '<' :: (t ++ '>' :: b) := by simp
      rw [e, k b] at hx; cases hx
  have h2 : '<' :: t ++ ['>'] ∈ findIter r (w ++ '<' :: (t ++ '>' :: b)) := by rw [find_text h hw]; exact h1
  rcases ha with rfl | ⟨x, rfl⟩
  · have e : [] ++ w ++ '<' :: t ++ '>' :: b = w ++ '<' :: (t ++ '>' :: b) := by simp
    rw [e]; exact h2
  · have e : x ++ ['>'] ++ w ++ '<' :: t ++ '>' :: b = x ++ '>' :: (w ++ '<' :: (t ++ '>' :: b)) := by simp
    rw [e]; exact find_after h x.length x _ (Nat.le_refl _) _ h2

theorem comments_kept {keep : List Char → Prop} {s o : List Char} (h : Comments keep s o) :
    bytes o ≤ bytes s ∧ (bytes s ≤ bytes o → AllComments keep s) := by
  induction h with
  | nil => exact ⟨Nat.le_refl _, fun _ => .nil⟩
  | char hc _ ih =>
    simp only [bytes_cons]
    exact ⟨by omega, fun h => .char hc (ih.2 (by omega))⟩
  | @drop s body rest o hc _ _ ih =>
    rw [hc.1]
    have h1 : bytes "<!--".toList = 4 := by decide +kernel
    have h2 : (' ' : Char).utf8Size = 1 := by decide +kernel
    simp only [bytes_append, bytes_cons]
    exact ⟨by omega, fun h => by omega⟩
  | @keep s body rest o hc hk _ ih =>
    have e := congrArg bytes hc.1
    simp only [bytes_append] at e ⊢
    exact ⟨by omega, fun h => .comment hc hk (ih.2 (by omega))⟩

theorem clean_none {s : List Char} (h : cleanUnneededTags s = s) : ∀ a t b, Listed t → s ≠ a ++ t ++ b := by
  have key : ∀ ts : List (List Char), (∀ t ∈ ts, t ≠ []) → ∀ s, Strict s (ts.foldl (fun res t => replaceStr t [] res) s) ∧
      (ts.foldl (fun res t => replaceStr t [] res) s = s → ∀ t ∈ ts, ∀ a b, s ≠ a ++ t ++ b) := by
    intro ts
    induction ts with
    | nil => intro _ s; exact ⟨.refl _, fun _ t ht => by simp at ht⟩
    | cons t ts ih =>
      intro hts s
      rw [List.foldl_cons]
      have hne := hts t (by simp)
      have h0 : bytes [] < bytes t := by have := bytes_pos hne; exact this
      have h1 := strict_replaceStr s (x := t) (y := []) (.inl h0)
      obtain ⟨h2, h3⟩ := ih (fun x hx => hts x (by simp [hx])) (replaceStr t [] s)
      refine ⟨h1.trans h2, ?_⟩
      intro e
      have e1 := h1.eq (by have := congrArg bytes e; have := h2.le; omega)
      rw [e1] at h3 e
      intro x hx a b es
      rcases List.mem_cons.1 hx with rfl | hx
      · refine replaceAll_fixed (solid_str _) (fun u h hm => ?_) e1 a _ b es ((lang_str hne).2 rfl)
        rw [(lang_str hne).1 (ends_sound hm).2]; exact h0
      · exact h3 e x hx a b es
  intro a t b ht
  exact (key uselessTags (fun t ht => (useless_shape ht).ne) s).2 h t ((mem_uselessTags t).2 ht) a b

theorem alpha_word {T : Tables} (hT : T.Ok) {c : Char} (h : c.isAlphanum = true) : T.word c = true := by
  have : c.toNat < 128 := by
    simp only [Char.isAlphanum, Char.isAlpha, Char.isUpper, Char.isLower, Char.isDigit, Bool.or_eq_true, Bool.and_eq_true, decide_eq_true_eq,
      ge_iff_le, UInt32.le_iff_toNat_le] at h
    have e : c.toNat = c.val.toNat := rfl
    rw [e]
    simp at h
    omega
  rw [hT.word_ascii c this, h]; rfl

theorem plainSign_simple {c : Char} (h : plainSign c = true) : simple c = true := by
  simp only [plainSign, Bool.or_eq_true, Char.isAlphanum, Char.isAlpha, Char.isUpper, Char.isLower, Char.isDigit, Bool.and_eq_true,
    decide_eq_true_eq, ge_iff_le, UInt32.le_iff_toNat_le] at h
  simp only [simple, letter, Bool.or_eq_true, Bool.and_eq_true, decide_eq_true_eq, Char.le_def, UInt32.le_iff_toNat_le]
  grind

theorem tag_facts {T : Tables} (hT : T.Ok) {s t : List Char} (h : allTidied T s = s) (ht : StartOf s t) :
    shut '"' ('<' :: t ++ ['>']) = '<' :: t ++ ['>'] ∧ shut '\'' ('<' :: t ++ ['>']) = '<' :: t ++ ['>'] ∧
      findIter (extraSpaces2 T) ('<' :: t ++ ['>']) = [] ∧ quotes ('<' :: t ++ ['>']) = '<' :: t ++ ['>'] := by
  obtain ⟨h1, h2, c, u, rfl, hc⟩ := ht
  have hw : T.word c = true := alpha_word hT (by simp [Char.isAlphanum, hc])
  have hl : lang (anyTag T) ('<' :: (c :: u) ++ ['>']) := by
    refine ⟨['<'], c :: (u ++ ['>']), rfl, lang_c.2 rfl, [c], u ++ ['>'], rfl, ⟨c, rfl, hw⟩, u, ['>'], rfl, ?_, lang_c.2 rfl⟩
    intro d hd
    have : d ≠ '\n' := by rintro rfl; exact h2 (by simp [hd])
    simpa [notNl] using this
  have hm := find_tag (anyTag_taglike hT) h1 hl
  have e := replaceAll_each (solid_anyTag T) (strict_tidied T) h _ hm
  obtain ⟨o, k1, -, k3⟩ := tidyTag_strict T ('<' :: (c :: u) ++ ['>'])
  have k4 : tidied T ('<' :: (c :: u) ++ ['>']) = o := by rw [tidied, k1]; rfl
  refine k3 (k4.symm.trans e) ?_ ?_
  · refine Bool.eq_false_iff.2 fun hs => ?_
    obtain ⟨v, hv⟩ := startsWith_iff.1 hs
    have hb : "<!".toList = ['<', '!'] := by decide +kernel
    rw [hb] at hv
    have := (List.cons.inj (List.cons.inj hv).2).1
    rw [this] at hc; exact absurd hc (by decide +kernel)
  · refine Bool.eq_false_iff.2 fun hs => ?_
    obtain ⟨x, y, hv⟩ := contains_iff.1 hs
    obtain ⟨-, -, -, -, -, -, hlt, -⟩ := h1
    have hb : "</".toList = ['<', '/'] := by decide +kernel
    rw [hb] at hv
    cases x with
    | nil =>
      have := (List.cons.inj (List.cons.inj hv).2).1
      rw [this] at hc; exact absurd hc (by decide +kernel)
    | cons d x =>
      have hv := (List.cons.inj hv).2
      have : '<' ∈ (c :: u) ++ ['>'] := by
        have hv' : (c :: u) ++ ['>'] = x ++ ['<', '/'] ++ y := hv
        rw [hv']; simp
      rcases List.mem_append.1 this with h | h
      · exact hlt h
      · simp at h

/-- A page that is not changed is minimal. -/
theorem minimal_of {T : Tables} (hT : T.Ok) {s : List Char} (h : minify T s = some s) : Minimal s := by
  obtain ⟨h1, h2, h3, h4, h5, h6⟩ := (minify_fixed T s).1 h
  refine ⟨?_, ?_, clean_none h3, ?_, ?_, ?_, ?_, ?_⟩
  · obtain ⟨a, b, -, -, -, k1, k2⟩ := trim_spec s
    rw [h6] at k1 k2
    exact ⟨k1, k2⟩
  · have := removeComments_spec s
    exact (comments_kept this).2 (by rw [h1]; exact Nat.le_refl _)
  · intro k1 k2
    have k := (condenseWhitespace_spec hT s).2 k1 k2
    rw [h4] at k
    exact ⟨(gaps_nobreak k).1, (gaps_nobreak k).2, gaps_apart k⟩
  · intro t a q w ht e hq hw
    obtain ⟨f1, f2, -, -⟩ := tag_facts hT h5 ht
    refine Classical.byContradiction fun hn => ?_
    have hl : lang (spacesBeforeClose q) (q :: (w ++ ['>'])) := lang_spacesBeforeClose.2 ⟨w, rfl, hn, hw⟩
    have e' : '<' :: t ++ ['>'] = ('<' :: a) ++ (q :: (w ++ ['>'])) ++ [] := by rw [e]; simp
    rcases hq with rfl | rfl
    · exact replaceAll_fixed (solid_spacesBeforeClose _) close_less f1 _ _ _ e' hl
    · exact replaceAll_fixed (solid_spacesBeforeClose _) close_less f2 _ _ _ e' hl
  · intro t a q w n b ht e hq hw hn hn'
    obtain ⟨-, -, f3, -⟩ := tag_facts hT h5 ht
    refine Classical.byContradiction fun hlen => ?_
    have e' : '<' :: t ++ ['>'] = ('<' :: a) ++ (q :: (w ++ (n ++ ['=']))) ++ (b ++ ['>']) := by rw [e]; simp
    have hl : lang (spacedName T q (.c '=')) (q :: (w ++ (n ++ ['=']))) := by
      match w, hlen, hw with
      | d :: d' :: w, _, hw =>
        refine ⟨[q], _, rfl, lang_c.2 rfl, [d], d' :: w ++ (n ++ ['=']), rfl, ⟨d, rfl, hw d (by simp)⟩, d' :: w, n ++ ['='], rfl,
          lang_plus.2 ⟨by simp, fun c hc => hw c (by simp only [List.mem_cons] at hc ⊢; exact .inr hc)⟩, n, ['='], rfl, lang_plus.2 ⟨hn, fun c hc => alpha_word hT (hn' c hc)⟩,
          lang_c.2 rfl⟩
      | [], hlen, _ => exact absurd (Nat.zero_le _) hlen
      | [_], hlen, _ => exact absurd (Nat.le_refl _) hlen
    refine findIter_none (solid_extraSpaces2 T) f3 _ _ _ e' ?_
    rcases hq with rfl | rfl
    · exact .inr (.inr (.inl hl))
    · exact .inr (.inr (.inr hl))
  · intro t a d k v b ht e hd hk hv
    obtain ⟨-, -, -, f4⟩ := tag_facts hT h5 ht
    refine Classical.byContradiction fun hn => ?_
    have v2 : ∀ c ∈ v, simple c = true := by
      intro c hc
      refine plainSign_simple ?_
      cases hp : plainSign c with
      | true => rfl
      | false => exact absurd ⟨c, hc, hp⟩ hn
    have e' : '<' :: t ++ ['>'] = ('<' :: a) ++ d :: (k ++ '=' :: '"' :: (v ++ '"' :: (b ++ ['>']))) := by
      have : "=\"".toList = ['=', '"'] := by decide +kernel
      rw [e, this]; simp
    have d1 : simple d = false := by
      cases hs : simple d with
      | false => rfl
      | true => rw [simple_ws hs] at hd; cases hd
    have d2 : d ≠ '=' := by rintro rfl; rw [ws_eq] at hd; cases hd
    have d3 : d ≠ '"' := by rintro rfl; rw [ws_dq] at hd; cases hd
    have k1 : k ≠ [] ∧ ∀ c ∈ k, letter c = true := by
      rcases hk with rfl | rfl <;> exact ⟨by decide +kernel, by decide +kernel⟩
    rw [e', quotes_split d1 d2 d3, quotes_at k1.1 k1.2 hv v2, if_pos hk] at f4
    have b1 := congrArg bytes f4
    have b2 := (strict_quotes ('<' :: a)).le
    have b3 := (strict_quotes (b ++ ['>'])).le
    have b4 : ('"' : Char).utf8Size = 1 := by decide +kernel
    simp only [bytes_append, bytes_cons] at b1 b2 b3
    omega
  · intro t n d a c v b ht hn hd hc e
    have hnl : '\n' ∉ t := ht.2.1
    have hl : lang (styleTag T) ('<' :: t ++ ['>']) := by
      refine ⟨['<'], _, rfl, lang_c.2 rfl, n, d :: (a ++ "type=\"".toList ++ c :: (v ++ '"' :: b)) ++ ['>'], by rw [e]; simp, ?_,
        [d], _, rfl, ⟨d, rfl, ?_⟩, a ++ "type=\"".toList ++ c :: (v ++ '"' :: b), ['>'], rfl, ?_, lang_c.2 rfl⟩
      · rcases hn with rfl | rfl
        · exact .inl ((lang_str (by decide +kernel)).2 rfl)
        · exact .inr ((lang_str (by decide +kernel)).2 rfl)
      · simp [wordBarSpace, space, hd]
      · intro x hx
        have : x ≠ '\n' := by
          rintro rfl
          refine hnl ?_
          rw [e]
          exact List.mem_append_right _ (List.mem_cons_of_mem _ hx)
        simpa [notNl] using this
    have hm := find_tag (styleTag_taglike hT) ht.1 hl
    have e1 := replaceAll_each (solid_styleTag T) (strict_untyped T) h2 _ hm
    have e' : '<' :: t ++ ['>'] = ('<' :: (n ++ d :: a)) ++ ("type=\"".toList ++ c :: (v ++ ['"'])) ++ (b ++ ['>']) := by rw [e]; simp
    refine replaceAll_fixed (solid_typeAttr T) type_less e1 _ _ _ e' ?_
    refine ⟨[], _, rfl, fun x hx => by simp at hx, ?_⟩
    refine lang_lit.2 ⟨c :: (v ++ ['"']), rfl, [c], _, rfl, ⟨c, rfl, ?_⟩, v, ['"'], rfl, ?_, lang_c.2 rfl⟩
    · simp [wordBarSpace, alpha_word hT hc]
    · intro x hx
      have : x ≠ '\n' := by
        rintro rfl
        refine hnl ?_
        rw [e]; simp [hx]
      simpa [notNl] using this

end Verif.Html
