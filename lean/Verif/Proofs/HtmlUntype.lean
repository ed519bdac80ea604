import Verif.Proofs.HtmlThin
import Verif.Proofs.HtmlType
/-!
# The type of a style or script tag, a second time
-/
set_option linter.unusedSimpArgs false
namespace Verif.Html
open Verif.Spec.Html

/-- The pass over one tag. -/
def untype (T : Tables) (s : List Char) : List Char := replaceAll (typeAttr T) (fun _ => []) s

theorem untype_nil (T : Tables) : untype T [] = [] := rfl

theorem untype_miss {T : Tables} {c : Char} {s : List Char} (h : ends (typeAttr T) (c :: s) = []) :
    untype T (c :: s) = c :: untype T s := replaceAll_miss _ h

theorem untype_hit {T : Tables} {s : List Char} {h : Hit} {hh : List Hit} (he : ends (typeAttr T) s = h :: hh) :
    untype T s = untype T h.rest := by
  rw [untype, replaceAll_hit (solid_typeAttr T) _ he]; rfl

theorem type_chars : "type=\"".toList = ['t', 'y', 'p', 'e', '=', '"'] := by decide +kernel

theorem spaced_type_suffix {a s : List Char} (h : TypeSpaced (a ++ s)) : TypeSpaced s := by
  intro b v u e hv
  exact h (a ++ b) v u (by rw [e]; simp) hv

theorem hit_rest {T : Tables} (hT : T.Ok) {s : List Char} {h : Hit} {hh : List Hit} (he : ends (typeAttr T) s = h :: hh)
    (hs : TypeSpaced s) : Stops h.rest ∧ TypeSpaced h.rest := by
  obtain ⟨w, v, e, -, hv⟩ := typeAttr_hit hT he
  refine ⟨hs w v h.rest (by rw [e]; simp) hv, spaced_type_suffix (a := w ++ ("type=\"".toList ++ v ++ ['"'])) (by rw [← e]; exact hs)⟩

theorem stops_untype {T : Tables} (hT : T.Ok) {s : List Char} (h : Stops s) (hs : TypeSpaced s) : Stops (untype T s) := by
  induction s using cut_induct (solid_typeAttr T) with
  | nil => obtain ⟨d, v, e, -⟩ := h; cases e
  | miss c s he ih =>
    rw [untype_miss he]
    obtain ⟨d, v, e, g⟩ := h
    rw [(List.cons.inj e).1]
    exact ⟨d, _, rfl, g⟩
  | hit s k kk he ih =>
    rw [untype_hit he]
    obtain ⟨g1, g2⟩ := hit_rest hT he hs
    exact ih g1 g2

/-- The start of a part of the result. -/
theorem split_back {T : Tables} {s a u : List Char} (e : untype T s = a ++ u) : ∃ x y, s = x ++ y ∧ untype T y = u := by
  induction s using cut_induct (solid_typeAttr T) generalizing a with
  | nil =>
    rw [untype_nil] at e
    cases a with
    | nil => exact ⟨[], [], rfl, e⟩
    | cons _ _ => cases e
  | miss c s he ih =>
    cases a with
    | nil => exact ⟨[], c :: s, rfl, e⟩
    | cons x a =>
      rw [untype_miss he] at e
      obtain ⟨x', y, rfl, h⟩ := ih (List.cons.inj e).2
      exact ⟨c :: x', y, rfl, h⟩
  | hit s k kk he ih =>
    rw [untype_hit he] at e
    obtain ⟨x, y, h1, h2⟩ := ih e
    obtain ⟨g, -⟩ := ends_sound (r := typeAttr T) (h := k) (by rw [he]; simp)
    exact ⟨k.text ++ x, y, by rw [g, h1]; simp, h2⟩

/-- What has no white space in the result was there at the start. -/
theorem nows_back {T : Tables} (hT : T.Ok) {s p u : List Char} (hs : TypeSpaced s)
    (hp : ∀ c ∈ p, isWhitespace c = false ∧ c ≠ '>' ∧ c ≠ '/') (e : untype T s = p ++ u) : ∃ u', s = p ++ u' ∧ untype T u' = u := by
  induction p generalizing s with
  | nil => exact ⟨s, rfl, e⟩
  | cons d p ih =>
    cases s with
    | nil => rw [untype_nil] at e; cases e
    | cons c s =>
      cases he : ends (typeAttr T) (c :: s) with
      | nil =>
        rw [untype_miss he] at e
        obtain ⟨rfl, e'⟩ := List.cons.inj e
        obtain ⟨u', rfl, h⟩ := ih (spaced_type_suffix (a := [c]) hs) (fun z hz => hp z (by simp [hz])) e'
        exact ⟨u', rfl, h⟩
      | cons k kk =>
        exfalso
        obtain ⟨g1, g2⟩ := hit_rest hT he hs
        obtain ⟨x, v, f1, f2⟩ := stops_untype hT g1 g2
        rw [untype_hit he, f1] at e
        have h := hp d (by simp)
        rw [← (List.cons.inj e).1] at h
        rcases f2 with f2 | f2 | f2
        · rw [h.1] at f2; cases f2
        · exact h.2.1 f2
        · exact h.2.2 f2

theorem untype_mem {T : Tables} {s : List Char} {c : Char} (h : c ∈ untype T s) : c ∈ s := by
  induction s using cut_induct (solid_typeAttr T) with
  | nil => exact h
  | miss d s he ih =>
    rw [untype_miss he] at h
    rcases List.mem_cons.1 h with rfl | h
    · simp
    · exact List.mem_cons_of_mem _ (ih h)
  | hit s k kk he ih =>
    rw [untype_hit he] at h
    obtain ⟨g, -⟩ := ends_sound (r := typeAttr T) (h := k) (by rw [he]; simp)
    rw [g]; exact List.mem_append_right _ (ih h)

/-- Nothing is left for the pass. -/
def NoType (T : Tables) (s : List Char) : Prop := ∀ a c v, s = a ++ "type=\"".toList ++ c :: v → wordBarSpace T c = true → '"' ∉ v

theorem notype_same {T : Tables} {s : List Char} (h : NoType T s) : untype T s = s := by
  refine replaceAll_none (solid_typeAttr T) ?_
  rintro a t b rfl ⟨w, y, rfl, -, h2⟩
  obtain ⟨z, rfl, h3⟩ := lang_lit.1 h2
  obtain ⟨x, z, rfl, ⟨c, rfl, hc⟩, d, q, rfl, -, h4⟩ := h3
  rw [lang_c.1 h4] at h
  exact h (a ++ w) c (d ++ ['"'] ++ b) (by simp) hc (by simp)

theorem type_match {T : Tables} {c : Char} {v : List Char} (hc : wordBarSpace T c = true) (hv : '"' ∈ v) (hn : '\n' ∉ v) :
    ∃ t u, "type=\"".toList ++ c :: v = t ++ u ∧ lang (typeAttr T) t := by
  obtain ⟨a, b, rfl⟩ := List.append_of_mem hv
  refine ⟨"type=\"".toList ++ c :: (a ++ ['"']), b, by simp, [], _, rfl, by simp [lang], lang_lit.2 ⟨c :: (a ++ ['"']), rfl,
    [c], a ++ ['"'], rfl, ⟨c, rfl, hc⟩, a, ['"'], rfl, ?_, lang_c.2 rfl⟩⟩
  intro x hx
  simp only [notNl, bne_iff_ne]
  rintro rfl
  exact hn (by simp [hx])

theorem ws_wordBarSpace {T : Tables} {c : Char} (h : isWhitespace c = true) : wordBarSpace T c = true := by
  simp [wordBarSpace, space, h]

theorem notype_untype {T : Tables} (hT : T.Ok) {s : List Char} (hn : '\n' ∉ s) (hs : TypeSpaced s) : NoType T (untype T s) := by
  intro a c v e hc hv
  obtain ⟨x, y, rfl, e2⟩ := split_back (by rw [← List.append_assoc]; exact e : untype T s = a ++ ("type=\"".toList ++ c :: v))
  have sy := spaced_type_suffix hs
  have hny : '\n' ∉ y := fun h => hn (by simp [h])
  -- the literal is there, and the pass takes it away
  obtain ⟨u', rfl, e3⟩ := nows_back hT sy (by rw [type_chars]; decide +kernel) e2
  have key : ∃ t u, "type=\"".toList ++ u' = t ++ u ∧ lang (typeAttr T) t := by
    cases u' with
    | nil => rw [untype_nil] at e3; cases e3
    | cons d u =>
      have hn' : '\n' ∉ u := fun h => hny (by simp [h])
      cases he : ends (typeAttr T) (d :: u) with
      | nil =>
        rw [untype_miss he] at e3
        obtain ⟨rfl, rfl⟩ := List.cons.inj e3
        exact type_match hc (untype_mem hv) hn'
      | cons k kk =>
        obtain ⟨w, z, f, hw, hz⟩ := typeAttr_hit hT he
        have hd : wordBarSpace T d = true ∧ '"' ∈ u := by
          rw [type_chars] at f
          cases w with
          | nil =>
            obtain ⟨rfl, rfl⟩ := List.cons.inj f
            exact ⟨by simp [wordBarSpace, hT.word_ascii 't' (by decide)], by simp⟩
          | cons b w =>
            obtain ⟨rfl, rfl⟩ := List.cons.inj f
            exact ⟨ws_wordBarSpace (hw d (by simp)), by simp⟩
        exact type_match hd.1 hd.2 hn'
  obtain ⟨t, u, f1, f2⟩ := key
  have hne : ends (typeAttr T) ("type=\"".toList ++ u') ≠ [] := fun h => ends_nil.1 h t u f1 f2
  have et : "type=\"".toList ++ u' = 't' :: ("ype=\"".toList ++ u') := by rw [type_chars]; rfl
  rw [et] at hne e2 sy
  cases he : ends (typeAttr T) ('t' :: ("ype=\"".toList ++ u')) with
  | nil => exact hne he
  | cons k kk =>
    obtain ⟨g1, g2⟩ := hit_rest hT he sy
    obtain ⟨d, z, f3, f4⟩ := stops_untype hT g1 g2
    rw [untype_hit he, f3, type_chars] at e2
    rw [(List.cons.inj e2).1] at f4
    rcases f4 with f4 | f4
    · exact absurd f4 (by decide +kernel)
    · exact absurd f4 (by decide)

theorem apart_untype {T : Tables} {s : List Char} (h : Apart s) : Apart (untype T s) := by
  induction s using cut_induct (solid_typeAttr T) with
  | nil => exact apart_nil
  | miss c s he ih =>
    rw [untype_miss he]
    refine apart_cons (ih (apart_right (a := [c]) h)) ?_
    rintro d hd ⟨w1, w2⟩
    cases s with
    | nil => cases hd
    | cons x s =>
      cases hx : ends (typeAttr T) (x :: s) with
      | nil =>
        rw [untype_miss hx] at hd
        have : x = d := by simpa using hd
        rw [← this] at w2
        exact h [] c x s rfl ⟨w1, w2⟩
      | cons k kk =>
        obtain ⟨g, w, y, e1, g2, g3⟩ := ends_sound (r := typeAttr T) (h := k) (by rw [hx]; simp)
        refine ends_nil.1 he (c :: k.text) k.rest (by rw [g]; rfl) ⟨c :: w, y, by rw [e1]; rfl, ?_, g3⟩
        intro z hz
        rcases List.mem_cons.1 hz with rfl | hz
        · exact w1
        · exact g2 z hz
  | hit s k kk he ih =>
    rw [untype_hit he]
    obtain ⟨g, -⟩ := ends_sound (r := typeAttr T) (h := k) (by rw [he]; simp)
    exact ih (apart_right (a := k.text) (by rw [← g]; exact h))

theorem lang_quotes_solid {t : List Char} (h : lang quotesInTag t) : ∀ c ∈ t, isWhitespace c = false ∧ c ≠ '>' ∧ c ≠ '/' := by
  obtain ⟨k, v, rfl, k1, k2, v1, v2⟩ := lang_quotes.1 h
  have ok : ∀ c, simple c = true → isWhitespace c = false ∧ c ≠ '>' ∧ c ≠ '/' := by
    intro c hc
    refine ⟨simple_ws hc, ?_, ?_⟩
    · rintro rfl; rw [simple_gt] at hc; cases hc
    · rintro rfl; exact absurd hc (by decide +kernel)
  intro c hc
  simp only [List.mem_append, List.mem_cons, List.not_mem_nil, or_false] at hc
  rcases hc with hc | rfl | rfl | hc | rfl
  · exact ok c (letter_simple (k2 c hc))
  · exact ⟨ws_eq, by decide, by decide⟩
  · exact ⟨ws_dq, by decide, by decide⟩
  · exact ok c (v2 c hc)
  · exact ⟨ws_dq, by decide, by decide⟩

theorem sep_untype {T : Tables} (hT : T.Ok) {s : List Char} (hs : TypeSpaced s) (h : Sep s) : Sep (untype T s) := by
  intro a m u e hl
  rw [List.append_assoc] at e
  obtain ⟨x, y, rfl, e2⟩ := split_back e
  obtain ⟨u', rfl, e3⟩ := nows_back hT (spaced_type_suffix hs) (lang_quotes_solid hl) e2
  have := h x m u' (by simp) hl
  rw [← e3]
  exact stops_untype hT this (spaced_type_suffix (a := x ++ m) (by rw [List.append_assoc]; exact hs))

theorem sep_spaced {s : List Char} (h : Spaced s) : Sep s := by
  intro a m u e hl
  obtain ⟨k, v, rfl, k1, k2, v1, v2⟩ := lang_quotes.1 hl
  refine h (a ++ k) v u (by rw [e]; simp) v1 ?_
  intro c hc
  refine ⟨simple_ws (v2 c hc), ?_⟩
  rintro rfl
  have := v2 _ hc
  rw [simple_dq] at this; cases this

/-! ## Less white space -/

theorem soft_back {s o : List Char} (h : Soft s o) {a b : List Char} (e : o = a ++ b) : ∃ a' b', s = a' ++ b' ∧ Soft a' a ∧ Soft b' b := by
  induction h generalizing a with
  | nil =>
    obtain ⟨rfl, rfl⟩ := List.append_eq_nil_iff.1 e.symm
    exact ⟨[], [], rfl, .nil, .nil⟩
  | @char s o c h ih =>
    cases a with
    | nil => subst e; exact ⟨[], c :: s, rfl, .nil, .char c h⟩
    | cons x a =>
      obtain ⟨rfl, e'⟩ := List.cons.inj e
      obtain ⟨a', b', rfl, h1, h2⟩ := ih e'
      exact ⟨c :: a', b', rfl, .char c h1, h2⟩
  | @gap w s o h1 h2 h ih =>
    cases a with
    | nil => subst e; exact ⟨[], w ++ s, rfl, .nil, .gap h1 h2 h⟩
    | cons x a =>
      obtain ⟨rfl, e'⟩ := List.cons.inj e
      obtain ⟨a', b', rfl, g1, g2⟩ := ih e'
      exact ⟨w ++ a', b', by simp, .gap h1 h2 g1, g2⟩

theorem soft_solid {s o : List Char} (h : Soft s o) (ho : ∀ c ∈ o, isWhitespace c = false) : s = o := by
  induction h with
  | nil => rfl
  | char c h ih => rw [ih fun z hz => ho z (by simp [hz])]
  | gap h1 h2 h ih => have := ho ' ' (by simp); rw [ws_sp] at this; cases this

theorem soft_prefix {s p u : List Char} (h : Soft s (p ++ u)) (hp : ∀ c ∈ p, isWhitespace c = false) : ∃ u', s = p ++ u' ∧ Soft u' u := by
  obtain ⟨a, b, rfl, h1, h2⟩ := soft_back h rfl
  exact ⟨b, by rw [soft_solid h1 hp], h2⟩

theorem soft_stops {s o : List Char} (h : Soft s o) (hs : Stops s) : Stops o := by
  obtain ⟨d, v, rfl, hd⟩ := hs
  rcases soft_head h with e | ⟨c, -, -, e⟩
  · cases o with
    | nil => cases e
    | cons x o =>
      have : d = x := by simpa using e
      exact ⟨x, o, rfl, by rw [← this]; exact hd⟩
  · cases o with
    | nil => cases e
    | cons x o => exact ⟨x, o, rfl, .inl (by rw [Option.some.inj e]; exact ws_sp)⟩

theorem sep_soft {s o : List Char} (h : Sep s) (hs : Soft s o) : Sep o := by
  intro a m u e hl
  rw [List.append_assoc] at e
  obtain ⟨a', b', rfl, -, h1⟩ := soft_back hs e
  obtain ⟨u', rfl, h2⟩ := soft_prefix h1 fun c hc => (lang_quotes_solid hl c hc).1
  exact soft_stops h2 (h a' m u' (by simp) hl)

/-- The first character, and what is behind it. -/
theorem soft_cons {s v : List Char} {c : Char} (h : Soft s (c :: v)) :
    ∃ d u, s = d :: u ∧ (d = c ∨ c = ' ' ∧ isWhitespace d = true) ∧ ∀ x, isWhitespace x = false → x ∈ v → x ∈ u := by
  generalize ho : c :: v = o at h
  cases h with
  | nil => cases ho
  | @char s o d h =>
    obtain ⟨rfl, rfl⟩ := List.cons.inj ho
    exact ⟨_, s, rfl, .inl rfl, fun x hx hm => soft_mem h hx hm⟩
  | @gap w s o h1 h2 h =>
    obtain ⟨rfl, rfl⟩ := List.cons.inj ho
    cases w with
    | nil => exact absurd rfl h1
    | cons d w => exact ⟨d, w ++ s, rfl, .inr ⟨rfl, h2 d (by simp)⟩, fun x hx hm => List.mem_append_right _ (soft_mem h hx hm)⟩

theorem notype_soft {T : Tables} {s o : List Char} (h : NoType T s) (hs : Soft s o) : NoType T o := by
  intro a c v e hc hv
  rw [List.append_assoc] at e
  obtain ⟨a', b', rfl, -, h1⟩ := soft_back hs e
  obtain ⟨u', rfl, h2⟩ := soft_prefix h1 (by rw [type_chars]; decide +kernel)
  obtain ⟨d, u, rfl, h3, h4⟩ := soft_cons h2
  refine h a' d u (by simp) ?_ (h4 '"' ws_dq hv)
  rcases h3 with rfl | ⟨-, h3⟩
  · exact hc
  · exact ws_wordBarSpace h3

theorem notype_prefix {T : Tables} {a b : List Char} (h : NoType T (a ++ b)) : NoType T a := by
  intro x c v e hc hv
  exact h x c (v ++ b) (by rw [e]; simp) hc (List.mem_append_left _ hv)

theorem notype_gt {T : Tables} {a : List Char} (h : NoType T a) : NoType T (a ++ ['>']) := by
  intro x c v e hc hv
  cases hr : v.reverse with
  | nil =>
    have : v = [] := by simpa using hr
    subst this; cases hv
  | cons y v' =>
    have ev : v = v'.reverse ++ [y] := by have := congrArg List.reverse hr; simpa using this
    have e2 : a ++ ['>'] = (x ++ "type=\"".toList ++ c :: v'.reverse) ++ [y] := by rw [e, ev]; simp
    have e3 := (List.cons.inj (List.append_inj_right' e2 rfl)).1
    refine h x c v'.reverse (List.append_inj_left' e2 rfl) hc ?_
    rw [ev] at hv
    rcases List.mem_append.1 hv with hv | hv
    · exact hv
    · rw [List.mem_singleton] at hv; rw [← hv] at e3; exact absurd e3 (by decide)

/-! ## Fewer quotes -/

/-- Some widths and heights have lost their quotes. -/
inductive Unq : List Char → List Char → Prop
  | nil : Unq [] []
  | char {s o : List Char} (c : Char) : Unq s o → Unq (c :: s) (c :: o)
  | attr {k v s o : List Char} : (k = "width".toList ∨ k = "height".toList) → v ≠ [] → (∀ c ∈ v, simple c = true) → Stops s →
      Unq s o → Unq (k ++ '=' :: '"' :: (v ++ '"' :: s)) (k ++ '=' :: (v ++ o))

theorem Unq.app (a : List Char) {s o : List Char} (h : Unq s o) : Unq (a ++ s) (a ++ o) := by
  induction a with
  | nil => exact h
  | cons c a ih => exact .char c ih

theorem unq_quotes {s : List Char} (h : Sep s) : Unq s (quotes s) := by
  induction s using cut_induct solid_quotesInTag with
  | nil => exact .nil
  | miss c s he ih => rw [quotes_miss he]; exact .char c (ih (sep_suffix (a := [c]) h))
  | hit s k kk he ih =>
    obtain ⟨g, gl⟩ := ends_sound (r := quotesInTag) (h := k) (by rw [he]; simp)
    have ih := ih (sep_suffix (a := k.text) (by rw [← g]; exact h))
    obtain ⟨n, v, k1, k2, v1, v2, ht, es, eq⟩ := quotes_hit he
    rw [eq]
    by_cases hk : n = "width".toList ∨ n = "height".toList
    · rw [if_pos hk, es]
      have := Unq.attr hk v1 v2 (h [] k.text k.rest g gl) ih
      simpa using this
    · rw [if_neg hk, es]
      have := Unq.app (n ++ '=' :: '"' :: (v ++ ['"'])) ih
      simpa using this

theorem unq_mem {s o : List Char} (h : Unq s o) {c : Char} (hc : c ∈ o) : c ∈ s := by
  induction h with
  | nil => exact hc
  | char d _ ih =>
    rcases List.mem_cons.1 hc with rfl | hc
    · simp
    · exact List.mem_cons_of_mem _ (ih hc)
  | attr _ _ _ _ _ ih =>
    simp only [List.mem_append, List.mem_cons] at hc ⊢
    rcases hc with hc | hc | hc | hc
    · exact .inl hc
    · exact .inr (.inl hc)
    · exact .inr (.inr (.inr (.inl hc)))
    · exact .inr (.inr (.inr (.inr (.inr (ih hc)))))

theorem width_chars : "width".toList = 'w' :: "idth".toList := by decide +kernel
theorem height_chars : "height".toList = 'h' :: "eight".toList := by decide +kernel

/-- The first character stays. -/
theorem unq_cons {s o : List Char} {c : Char} (h : Unq s (c :: o)) :
    ∃ s', s = c :: s' ∧ ((c ≠ 'w' ∧ c ≠ 'h' → Unq s' o) ∧ ∀ x, x ∈ o → x ∈ s') := by
  generalize e : c :: o = y at h
  cases h with
  | nil => cases e
  | @char s o d h =>
    obtain ⟨rfl, rfl⟩ := List.cons.inj e
    exact ⟨s, rfl, fun _ => h, fun x hx => unq_mem h hx⟩
  | @attr k v s o hk v1 v2 hs h =>
    have mem : ∀ k' : List Char, ∀ x, x ∈ k' ++ '=' :: (v ++ o) → x ∈ k' ++ '=' :: '"' :: (v ++ '"' :: s) := by
      intro k' x hx
      simp only [List.mem_append, List.mem_cons] at hx ⊢
      rcases hx with hx | hx | hx | hx
      · exact .inl hx
      · exact .inr (.inl hx)
      · exact .inr (.inr (.inr (.inl hx)))
      · exact .inr (.inr (.inr (.inr (.inr (unq_mem h hx)))))
    rcases hk with rfl | rfl
    · rw [width_chars] at e ⊢
      obtain ⟨rfl, rfl⟩ := List.cons.inj e
      exact ⟨_, rfl, fun h => absurd rfl h.1, mem _⟩
    · rw [height_chars] at e ⊢
      obtain ⟨rfl, rfl⟩ := List.cons.inj e
      exact ⟨_, rfl, fun h => absurd rfl h.2, mem _⟩

theorem unq_prefix {p s u : List Char} (hp : ∀ c ∈ p, c ≠ 'w' ∧ c ≠ 'h') (h : Unq s (p ++ u)) : ∃ u', s = p ++ u' ∧ Unq u' u := by
  induction p generalizing s with
  | nil => exact ⟨s, rfl, h⟩
  | cons c p ih =>
    obtain ⟨s', rfl, h1, -⟩ := unq_cons h
    obtain ⟨u', rfl, h2⟩ := ih (fun z hz => hp z (by simp [hz])) (h1 (hp c (by simp)))
    exact ⟨u', rfl, h2⟩

theorem unq_forward {p s o : List Char} (hp : ∀ c ∈ p, c ≠ 'w' ∧ c ≠ 'h') (h : Unq (p ++ s) o) : ∃ u, o = p ++ u ∧ Unq s u := by
  induction p generalizing o with
  | nil => exact ⟨o, rfl, h⟩
  | cons c p ih =>
    generalize e : c :: p ++ s = y at h
    cases h with
    | nil => cases e
    | @char s' o d h =>
      obtain ⟨rfl, rfl⟩ := List.cons.inj e
      obtain ⟨u, rfl, h2⟩ := ih (fun z hz => hp z (by simp [hz])) h
      exact ⟨u, rfl, h2⟩
    | @attr k v s o hk v1 v2 hs h =>
      exfalso
      rcases hk with rfl | rfl
      · rw [width_chars] at e; exact (hp c (by simp)).1 (List.cons.inj e).1
      · rw [height_chars] at e; exact (hp c (by simp)).2 (List.cons.inj e).1

theorem unq_same {s o : List Char} (h : Unq s o) (ho : '=' ∉ o) : s = o := by
  induction h with
  | nil => rfl
  | char c h ih => rw [ih fun hc => ho (by simp [hc])]
  | attr _ _ _ _ _ _ => exact absurd (by simp) ho

theorem unq_stops {s o : List Char} (h : Unq s o) (hs : Stops s) : Stops o := by
  obtain ⟨d, v, rfl, hd⟩ := hs
  have hp : ∀ c ∈ [d], c ≠ 'w' ∧ c ≠ 'h' := by
    intro c hc
    rw [List.mem_singleton] at hc
    subst hc
    constructor <;> (rintro rfl; rcases hd with hd | hd <;> exact absurd hd (by decide +kernel))
  obtain ⟨u, rfl, -⟩ := unq_forward (p := [d]) (s := v) hp h
  exact ⟨d, u, rfl, hd⟩

theorem notype_unq {T : Tables} {s o : List Char} (h : NoType T s) (hs : Unq s o) : NoType T o := by
  induction hs with
  | nil => exact h
  | @char s o d hs ih =>
    intro a c v e hc hv
    cases a with
    | cons x a =>
      refine ih ?_ a c v (List.cons.inj e).2 hc hv
      intro a c v e
      exact h (d :: a) c v (by rw [e]; rfl)
    | nil =>
      have : Unq (d :: s) ("type=\"".toList ++ c :: v) := by rw [List.nil_append] at e; rw [← e]; exact .char d hs
      obtain ⟨u', e2, h2⟩ := unq_prefix (by rw [type_chars]; decide +kernel) this
      obtain ⟨u, rfl, -, h3⟩ := unq_cons h2
      exact h [] c u (by rw [e2]; rfl) hc (h3 _ hv)
  | @attr k w s o hk v1 v2 hst hs ih =>
    intro a c v e hc hv
    have e : (k ++ '=' :: w) ++ o = a ++ ("type=\"".toList ++ c :: v) := by
      rw [List.append_assoc] at e; rw [← e]; simp
    have nq : '"' ∉ k ++ '=' :: w := by
      intro hm
      simp only [List.mem_append, List.mem_cons] at hm
      rcases hm with hm | hm | hm
      · rcases hk with rfl | rfl <;> exact absurd hm (by decide +kernel)
      · exact absurd hm (by decide)
      · have := v2 _ hm; rw [simple_dq] at this; cases this
    have ih := ih (by
      intro a c v e
      exact h (k ++ '=' :: '"' :: (w ++ '"' :: a)) c v (by rw [e]; simp))
    rcases List.append_eq_append_iff.1 e with ⟨x, g1, g2⟩ | ⟨x, g1, g2⟩
    · exact ih x c v (by rw [g2]; simp) hc hv
    · cases x with
      | nil => exact ih [] c v (by rw [List.nil_append] at g2; rw [← g2]; rfl) hc hv
      | cons x0 x =>
        -- the word would go on behind the value
        have hx : '"' ∉ x0 :: x := fun hm => nq (by rw [g1]; exact List.mem_append_right _ hm)
        obtain ⟨d, y, rfl, hd⟩ := unq_stops hs hst
        have hd' : d ∉ "type=\"".toList := by
          intro hm
          rw [type_chars] at hm
          simp only [List.mem_cons, List.not_mem_nil, or_false] at hm
          rcases hd with hd | rfl | rfl
          · rcases hm with rfl | rfl | rfl | rfl | rfl | rfl <;> exact absurd hd (by decide +kernel)
          · rcases hm with hm | hm | hm | hm | hm | hm <;> exact absurd hm (by decide)
          · rcases hm with hm | hm | hm | hm | hm | hm <;> exact absurd hm (by decide)
        rcases List.append_eq_append_iff.1 g2 with ⟨z, f1, f2⟩ | ⟨z, f1, f2⟩
        · refine hx ?_
          rw [f1, type_chars]; simp
        · cases z with
          | nil => rw [List.append_nil] at f1; exact hx (by rw [← f1, type_chars]; simp)
          | cons z0 z => exact hd' (by rw [f1, (List.cons.inj f2).1]; simp)

end Verif.Html
