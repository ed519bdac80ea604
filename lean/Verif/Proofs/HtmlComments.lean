import Verif.Proofs.HtmlRe
import Verif.Spec.Html
/-!
# The comment pass of the HTML minifier
-/
set_option linter.unusedSimpArgs false
namespace Verif.Html
open Verif.Spec.Html

/-! ## Lazy repetitions -/

theorem lazy_nil (p : Char → Bool) (b : Re) : ends (.seq (.star false p) b) [] = ends b [] := by
  simp [ends, splits]

theorem lazy_cons (p : Char → Bool) (b : Re) (c : Char) (s : List Char) :
    ends (.seq (.star false p) b) (c :: s) =
      ends b (c :: s) ++ if p c then (ends (.seq (.star false p) b) s).map fun h => ⟨c :: h.text, h.rest, h.caps⟩ else [] := by
  by_cases hc : p c = true
  · simp [ends, splits, hc, List.flatMap_map, List.map_flatMap, Function.comp_def]
  · simp [ends, splits, hc]

/-- A lazy repetition stops where what follows it matches first. -/
theorem lazy_head {p : Char → Bool} {b : Re} {s : List Char} {h : Hit} {hh : List Hit}
    (he : ends (.seq (.star false p) b) s = h :: hh) :
    ∃ t w k kk, s = t ++ w ∧ (∀ c ∈ t, p c = true) ∧ ends b w = k :: kk ∧ h = ⟨t ++ k.text, k.rest, k.caps⟩ ∧
      ∀ t' w', s = t' ++ w' → t'.length < t.length → ends b w' = [] := by
  induction s generalizing h hh with
  | nil =>
    rw [lazy_nil] at he
    exact ⟨[], [], h, hh, rfl, by simp, he, rfl, by intro _ _ _ h; simp at h⟩
  | cons c s ih =>
    rw [lazy_cons] at he
    cases hb : ends b (c :: s) with
    | cons k kk =>
      rw [hb] at he
      obtain ⟨rfl, -⟩ := List.cons.inj he
      exact ⟨[], c :: s, k, kk, rfl, by simp, hb, rfl, by intro _ _ _ h; simp at h⟩
    | nil =>
      rw [hb, List.nil_append] at he
      split at he
      · rename_i hc
        cases hl : ends (.seq (.star false p) b) s with
        | nil => rw [hl] at he; simp at he
        | cons x xs =>
          rw [hl, List.map_cons] at he
          obtain ⟨rfl, -⟩ := List.cons.inj he
          obtain ⟨t, w, k, kk, h1, h2, h3, h4, h5⟩ := ih hl
          refine ⟨c :: t, w, k, kk, by rw [h1]; rfl, ?_, h3, by rw [h4]; rfl, ?_⟩
          · intro d hd
            simp only [List.mem_cons] at hd
            rcases hd with rfl | hd
            · exact hc
            · exact h2 d hd
          · intro t' w' e hlt
            cases t' with
            | nil => rw [← hb, e]; rfl
            | cons d t' =>
              simp only [List.length_cons] at hlt
              exact h5 t' w' (List.cons.inj e).2 (by omega)
      · simp at he

theorem lazy_none {p : Char → Bool} {b : Re} {s : List Char} :
    ends (.seq (.star false p) b) s = [] ↔ ∀ t w, s = t ++ w → (∀ c ∈ t, p c = true) → ends b w = [] := by
  rw [ends_nil]
  constructor
  · rintro h t w rfl ht
    rw [ends_nil]
    rintro x u rfl hx
    exact h (t ++ x) u (by simp) ⟨t, x, rfl, ht, hx⟩
  · rintro h t u rfl ⟨v, w, rfl, hv, hw⟩
    have := h v (w ++ u) (by simp) hv
    exact ends_nil.1 this w u rfl hw

theorem ends_c_ne {c d : Char} (r : Re) (s : List Char) (h : d ≠ c) : ends (.seq (.c c) r) (d :: s) = [] := by
  simp [ends, Re.c, h]

theorem ends_c_eq (c : Char) (r : Re) (s : List Char) :
    ends (.seq (.c c) r) (c :: s) = (ends r s).map fun h => ⟨c :: h.text, h.rest, h.caps⟩ := by
  simp [ends, Re.c]

theorem ends_c_nil (c : Char) (r : Re) : ends (.seq (.c c) r) [] = [] := by
  simp [ends, Re.c]

theorem ends_lit {a u : List Char} (r : Re) :
    ends (.lit a r) (a ++ u) = (ends r u).map fun h => ⟨a ++ h.text, h.rest, h.caps⟩ := by
  induction a with
  | nil => simp [Re.lit]
  | cons c a ih =>
    show ends (.seq (.c c) (.lit a r)) (c :: (a ++ u)) = _
    rw [ends_c_eq, ih, List.map_map]
    rfl

theorem ends_lit_nil {a s : List Char} {r : Re} (h : ∀ u, s ≠ a ++ u) : ends (.lit a r) s = [] := by
  rw [ends_nil]
  rintro t u rfl hl
  obtain ⟨v, rfl, -⟩ := lang_lit.1 hl
  exact h (v ++ u) (by simp)

/-! ## Comments -/

theorem solid_comment : solid comment := solid_lit (by simp)

private theorem close_ne : "-->".toList ≠ [] := by simp

/-- The matches of the expression for comments are the comments. -/
theorem comment_at (s : List Char) :
    (∃ body rest h hh, CommentAt s body rest ∧ ends comment s = h :: hh ∧ h.text = "<!--".toList ++ body ++ "-->".toList ∧
      h.rest = rest) ∨
    ((∀ body rest, ¬ CommentAt s body rest) ∧ ends comment s = []) := by
  cases he : ends comment s with
  | nil =>
    right
    refine ⟨?_, rfl⟩
    rintro body rest ⟨rfl, -⟩
    refine ends_nil.1 he ("<!--".toList ++ body ++ "-->".toList) rest rfl ?_
    exact lang_lit.2 ⟨body ++ "-->".toList, by simp, body, _, rfl, fun _ _ => rfl, (lang_str close_ne).2 rfl⟩
  | cons h hh =>
    left
    by_cases hp : ∃ u, s = "<!--".toList ++ u
    · obtain ⟨u, rfl⟩ := hp
      rw [comment, ends_lit] at he
      cases hl : ends (.seq (.star false fun _ => true) (.str "-->".toList)) u with
      | nil => rw [hl] at he; simp at he
      | cons x xs =>
        rw [hl, List.map_cons] at he
        obtain ⟨rfl, -⟩ := List.cons.inj he
        obtain ⟨t, w, k, kk, h1, -, h3, h4, h5⟩ := lazy_head hl
        obtain ⟨e, hk⟩ := ends_sound (r := .str "-->".toList) (s := w) (h := k) (by rw [h3]; simp)
        rw [lang_str close_ne] at hk
        refine ⟨t, k.rest, _, _, ⟨?_, ?_⟩, rfl, ?_, by rw [h4]⟩
        · rw [h1, e, hk]; simp
        · intro a v ha
          by_cases hv : v = []
          · exact hv
          · exfalso
            have hlen := congrArg List.length ha
            have hvl := List.length_pos_iff.2 hv
            simp only [List.length_append] at hlen
            have hs : u = a ++ ("-->".toList ++ v ++ k.rest) := by
              rw [h1, e, hk, ← List.append_assoc, ha]; simp
            have := h5 a _ hs (by omega)
            exact ends_nil.1 this "-->".toList (v ++ k.rest) (by simp) ((lang_str close_ne).2 rfl)
        · rw [h4, hk]; simp
    · rw [comment, ends_lit_nil (fun u e => hp ⟨u, e⟩)] at he
      simp at he

theorem commentAt_unique {s b r b' r' : List Char} (h : CommentAt s b r) (h' : CommentAt s b' r') : b = b' ∧ r = r' := by
  obtain ⟨e, hm⟩ := h
  obtain ⟨e', hm'⟩ := h'
  rw [e] at e'
  simp only [List.append_assoc] at e'
  have e2 := List.append_cancel_left e'
  have key : ∀ (x y u v : List Char), x ++ ("-->".toList ++ u) = y ++ ("-->".toList ++ v) →
      (∀ a w, y ++ "-->".toList = a ++ "-->".toList ++ w → w = []) → y.length ≤ x.length := by
    intro x y u v hxy hy
    by_cases hl : y.length ≤ x.length
    · exact hl
    · exfalso
      have h1 : (x ++ "-->".toList).length ≤ (y ++ "-->".toList).length := by simp only [List.length_append]; omega
      have h2 : x ++ "-->".toList <+: y ++ "-->".toList := by
        refine List.prefix_of_prefix_length_le (l₃ := y ++ ("-->".toList ++ v)) ⟨u, ?_⟩ ⟨v, by simp⟩ h1
        rw [← hxy]; simp
      obtain ⟨w, hw⟩ := h2
      have := hy x w hw.symm
      subst this
      rw [List.append_nil] at hw
      have := congrArg List.length hw
      simp only [List.length_append] at this
      omega
  have l1 := key b b' r r' e2 hm'
  have l2 := key b' b r' r e2.symm hm
  have := List.append_inj e2 (by omega)
  exact ⟨this.1, List.append_cancel_left this.2⟩

theorem commentAt_ne {s b r : List Char} (h : CommentAt s b r) : s ≠ [] := by
  rw [h.1]; simp

theorem comments_unique {k : List Char → Prop} {s o o' : List Char} (h : Comments k s o) (h' : Comments k s o') : o = o' := by
  induction h generalizing o' with
  | nil =>
    cases h' with
    | nil => rfl
    | drop h1 => exact absurd rfl (commentAt_ne h1)
    | keep h1 => exact absurd rfl (commentAt_ne h1)
  | char hn _ ih =>
    cases h' with
    | char _ h2 => rw [ih h2]
    | drop h1 => exact absurd h1 (hn _ _)
    | keep h1 => exact absurd h1 (hn _ _)
  | drop hc hk _ ih =>
    cases h' with
    | nil => exact absurd rfl (commentAt_ne hc)
    | char hn => exact absurd hc (hn _ _)
    | drop h1 _ h3 =>
      obtain ⟨rfl, rfl⟩ := commentAt_unique hc h1
      rw [ih h3]
    | keep h1 h2 =>
      obtain ⟨rfl, rfl⟩ := commentAt_unique hc h1
      exact absurd h2 hk
  | keep hc hk _ ih =>
    cases h' with
    | nil => exact absurd rfl (commentAt_ne hc)
    | char hn => exact absurd hc (hn _ _)
    | drop h1 h2 =>
      obtain ⟨rfl, rfl⟩ := commentAt_unique hc h1
      exact absurd hk h2
    | keep h1 _ h3 =>
      obtain ⟨rfl, rfl⟩ := commentAt_unique hc h1
      rw [ih h3]

/-! ## Which comments are kept -/

private theorem space_bracket : space '[' = false := by decide +kernel

theorem starts_trim (s : List Char) : startsWith ['['] (trim s) = true ↔ ∃ u, trimStart s = '[' :: u := by
  obtain ⟨b, h4, h5, h6⟩ := dropWhile_split space (trimStart s).reverse
  have e : trimStart s = trim s ++ b.reverse := by
    have := congrArg List.reverse h4
    rw [List.reverse_reverse, List.reverse_append] at this
    exact this
  rw [startsWith_iff]
  constructor
  · rintro ⟨u, h⟩
    exact ⟨u ++ b.reverse, by rw [e, h]; rfl⟩
  · rintro ⟨u, h⟩
    cases ht : trim s with
    | nil =>
      rw [ht, List.nil_append] at e
      rw [e] at h
      have := h5 '[' (by
        have : '[' ∈ b.reverse := by rw [h]; simp
        simpa using this)
      rw [space_bracket] at this
      exact absurd this (by decide)
    | cons c t =>
      rw [ht] at e
      rw [e] at h
      rw [(List.cons.inj h).1]
      exact ⟨t, rfl⟩

private theorem open_ne : "<!--".toList ≠ [] := by simp

theorem conditional_cons {c : Char} {s : List Char} (h : ¬ ∃ u, c :: s = "<!--".toList ++ u) :
    Conditional (c :: s) ↔ c = '[' ∨ (isWhitespace c = true ∧ Conditional s) := by
  constructor
  · intro hc
    generalize he : c :: s = x at hc
    cases hc with
    | here => left; exact (List.cons.inj he).1
    | blank h1 h2 =>
      right
      obtain ⟨rfl, rfl⟩ := List.cons.inj he
      exact ⟨h1, h2⟩
    | again h1 => exact absurd ⟨_, he⟩ h
  · rintro (rfl | ⟨h1, h2⟩)
    · exact .here
    · exact .blank h1 h2

private theorem not_space_lt : isWhitespace '<' = false := by decide +kernel

theorem conditional_again {s : List Char} : Conditional ("<!--".toList ++ s) ↔ Conditional s := by
  constructor
  · intro hc
    generalize he : "<!--".toList ++ s = x at hc
    cases hc with
    | here => exact absurd (List.cons.inj he).1 (by decide)
    | blank h1 h2 =>
      have e : "<!--".toList = ['<', '!', '-', '-'] := by decide +kernel
      rw [e] at he
      have := (List.cons.inj he).1
      rw [← this, not_space_lt] at h1
      exact absurd h1 (by decide)
    | again h1 => rw [List.append_cancel_left he]; exact h1
  · exact .again

theorem trimStart_cons (c : Char) (s : List Char) : trimStart (c :: s) = if space c then trimStart s else c :: s := by
  rw [trimStart, List.dropWhile_cons]; rfl

theorem keeps_text (s : List Char) :
    (∃ u, trimStart (replaceStr "<!--".toList [' '] s) = '[' :: u) ↔ Conditional s := by
  induction s using str_induct open_ne with
  | nil =>
    rw [replaceStr_nil]
    constructor
    · rintro ⟨u, h⟩; simp [trimStart] at h
    · intro h
      generalize he : ([] : List Char) = x at h
      cases h with
      | here => simp at he
      | blank => simp at he
      | again => simp at he
  | miss c s h ih =>
    rw [replaceStr_miss h open_ne, conditional_cons h, trimStart_cons, ← ih]
    by_cases hs : space c = true
    · rw [if_pos hs]
      constructor
      · intro h; exact .inr ⟨hs, h⟩
      · rintro (rfl | h)
        · rw [space_bracket] at hs; exact absurd hs (by decide)
        · exact h.2
    · rw [if_neg hs]
      constructor
      · rintro ⟨u, h⟩; left; exact (List.cons.inj h).1
      · rintro (rfl | h)
        · exact ⟨_, rfl⟩
        · exact absurd h.1 hs
  | hit u ih =>
    rw [replaceStr_hit open_ne, conditional_again, ← ih]
    have : trimStart ([' '] ++ replaceStr "<!--".toList [' '] u) = trimStart (replaceStr "<!--".toList [' '] u) := by
      rw [List.singleton_append, trimStart_cons, if_pos (by decide +kernel)]
    rw [this]

private theorem conditional_nil : ¬ Conditional [] := by
  intro h
  generalize he : ([] : List Char) = x at h
  cases h with
  | here => simp at he
  | blank => simp at he
  | again => simp at he

private theorem head_conditional {c : Char} {s : List Char} (h1 : c ≠ '[') (h2 : isWhitespace c = false) (h3 : c ≠ '<') :
    ¬ Conditional (c :: s) := by
  rw [conditional_cons (by rintro ⟨u, e⟩; exact h3 (List.cons.inj e).1)]
  rintro (h | ⟨h, -⟩)
  · exact h1 h
  · rw [h2] at h; exact absurd h (by decide)

/-- The end of a comment plays no part. -/
theorem conditional_close (body : List Char) : Conditional (body ++ "-->".toList) ↔ Conditional body := by
  constructor
  · intro h
    generalize he : body ++ "-->".toList = x at h
    induction h generalizing body with
    | here =>
      cases body with
      | nil => exact absurd (List.cons.inj he).1 (by decide)
      | cons c b => rw [(List.cons.inj he).1]; exact .here
    | blank hc h ih =>
      cases body with
      | nil =>
        have := (List.cons.inj he).1
        rw [← this] at hc
        exact absurd hc (by decide +kernel)
      | cons c b =>
        obtain ⟨rfl, h2⟩ := List.cons.inj he
        exact .blank hc (ih b h2)
    | again h ih =>
      match body, he with
      | [], he => exact absurd (List.cons.inj he).1 (by decide)
      | [a], he => simp at he
      | [a, b], he =>
        simp at he
        rw [← he.2.2] at h
        exact absurd h (head_conditional (by decide) (by decide +kernel) (by decide))
      | [a, b, c], he =>
        simp at he
        rw [← he.2.2.2] at h
        exact absurd h (head_conditional (by decide) (by decide +kernel) (by decide))
      | a :: b :: c :: d :: t, he =>
        simp at he
        obtain ⟨rfl, rfl, rfl, rfl, h2⟩ := he
        exact .again (s := t) (ih t (by simpa using h2))
  · intro h
    induction h with
    | here => exact .here
    | blank hc _ ih => exact .blank hc ih
    | again _ ih =>
      rw [List.append_assoc]
      exact .again ih

theorem keeps_iff (body : List Char) :
    startsWith ['['] (trim (replaceStr "<!--".toList [' '] ("<!--".toList ++ body ++ "-->".toList))) = true ↔
      Conditional body := by
  rw [starts_trim, keeps_text, List.append_assoc, conditional_again, conditional_close]

/-- The comment pass. -/
theorem removeComments_spec (s : List Char) : Comments Conditional s (removeComments s) := by
  induction s using cut_induct solid_comment with
  | nil => exact .nil
  | miss c s he ih =>
    rw [removeComments, replaceAll_miss _ he]
    refine .char ?_ ih
    rcases comment_at (c :: s) with ⟨_, _, _, _, -, h, -⟩ | ⟨h, -⟩
    · rw [he] at h; simp at h
    · exact h
  | hit s h hh he ih =>
    rw [removeComments, replaceAll_hit solid_comment _ he]
    rcases comment_at s with ⟨body, rest, x, xx, h1, h2, h3, h4⟩ | ⟨-, h1⟩
    · rw [he] at h2
      obtain ⟨rfl, -⟩ := List.cons.inj h2
      rw [h4] at ih ⊢
      simp only [h3]
      by_cases hk : Conditional body
      · rw [if_pos ((keeps_iff body).2 hk)]
        exact .keep h1 hk ih
      · rw [if_neg (fun e => hk ((keeps_iff body).1 e))]
        exact .drop h1 hk ih
    · rw [he] at h1; simp at h1

/-! ## Nothing is left to do -/

theorem comments_prefix {k : List Char → Prop} {x s b : List Char} (h : Comments k s (x ++ b)) (h1 : ' ' ∉ x) (h2 : '<' ∉ x) :
    ∃ b', s = x ++ b' ∧ Comments k b' b := by
  induction x generalizing s with
  | nil => exact ⟨s, rfl, h⟩
  | cons d x ih =>
    simp only [List.mem_cons, not_or] at h1 h2
    generalize he : d :: x ++ b = o at h
    cases h with
    | nil => simp at he
    | char hn hc =>
      obtain ⟨rfl, rfl⟩ := List.cons.inj he
      obtain ⟨b', rfl, hb⟩ := ih hc h1.2 h2.2
      exact ⟨b', rfl, hb⟩
    | drop => exact absurd (List.cons.inj he).1.symm h1.1
    | keep => exact absurd (List.cons.inj he).1.symm h2.1

theorem comments_close {k : List Char → Prop} {s o : List Char} (h : Comments k s o)
    (hc : ∃ a b, o = a ++ "-->".toList ++ b) : ∃ a b, s = a ++ "-->".toList ++ b := by
  induction h with
  | nil => obtain ⟨a, b, h⟩ := hc; simp at h
  | char hn h ih =>
    obtain ⟨a, b, e⟩ := hc
    cases a with
    | nil =>
      have hz := Comments.char hn h
      rw [e] at hz
      obtain ⟨b', hb, -⟩ := comments_prefix (x := "-->".toList) (b := b) hz (by decide) (by decide)
      exact ⟨[], b', hb⟩
    | cons d a =>
      obtain ⟨a', b', h'⟩ := ih ⟨a, b, (List.cons.inj e).2⟩
      exact ⟨_ :: a', b', by rw [h']; rfl⟩
  | drop h1 _ _ _ => exact ⟨_, _, h1.1⟩
  | keep h1 _ _ _ => exact ⟨_, _, h1.1⟩

theorem commentAt_exists {a b : List Char} : ∃ body rest, CommentAt ("<!--".toList ++ (a ++ "-->".toList ++ b)) body rest := by
  rcases comment_at ("<!--".toList ++ (a ++ "-->".toList ++ b)) with ⟨body, rest, -, -, h, -⟩ | ⟨-, h⟩
  · exact ⟨body, rest, h⟩
  · exfalso
    refine ends_nil.1 h ("<!--".toList ++ a ++ "-->".toList) b (by simp) ?_
    exact lang_lit.2 ⟨a ++ "-->".toList, by simp, a, _, rfl, fun _ _ => rfl, (lang_str close_ne).2 rfl⟩

theorem comments_again {k : List Char → Prop} {s o : List Char} (h : Comments k s o) : Comments k o o := by
  induction h with
  | nil => exact .nil
  | @char c s o hn h ih =>
    refine .char ?_ ih
    rintro body rest ⟨e, -⟩
    have e4 : "<!--".toList = '<' :: "!--".toList := by decide +kernel
    rw [e4] at e
    obtain ⟨rfl, e2⟩ := List.cons.inj e
    have e2 : o = "!--".toList ++ (body ++ "-->".toList ++ rest) := by rw [e2]; simp
    rw [e2] at h
    obtain ⟨b', rfl, hb⟩ := comments_prefix (x := "!--".toList) h (by decide) (by decide)
    obtain ⟨a, b, rfl⟩ := comments_close hb ⟨body, rest, by simp⟩
    obtain ⟨y, z, hy⟩ := commentAt_exists (a := a) (b := b)
    exact hn y z (by rw [e4] at hy; exact hy)
  | drop _ _ _ ih =>
    refine .char ?_ ih
    rintro body rest ⟨e, -⟩
    exact absurd (List.cons.inj e).1 (by decide)
  | keep h1 h2 _ ih => exact .keep ⟨rfl, h1.2⟩ h2 ih

end Verif.Html
