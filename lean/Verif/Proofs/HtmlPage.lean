import Verif.Proofs.HtmlPlain
import Verif.Proofs.HtmlAttr
import Verif.Spec.HtmlPage
/-!
# The passes on a page made of texts, tags and comments
-/
set_option linter.unusedSimpArgs false
namespace Verif.Html
open Verif.Spec.Html

theorem notGt_unique {a b u v : List Char} (ha : '>' ∉ a) (hb : '>' ∉ b) (e : a ++ '>' :: u = b ++ '>' :: v) : a = b ∧ u = v := by
  induction a generalizing b with
  | nil =>
    cases b with
    | nil => exact ⟨rfl, (List.cons.inj e).2⟩
    | cons z b => simp only [List.mem_cons, not_or] at hb; exact absurd (List.cons.inj e).1 hb.1
  | cons y a iha =>
    simp only [List.mem_cons, not_or] at ha
    cases b with
    | nil => exact absurd (List.cons.inj e).1.symm ha.1
    | cons z b =>
      simp only [List.mem_cons, not_or] at hb
      obtain ⟨h1, h2⟩ := iha ha.2 hb.2 (List.cons.inj e).2
      exact ⟨by rw [(List.cons.inj e).1, h1], h2⟩

/-! ## The end of a tag -/

/-- `.*?>` -/
def upToGt : Re := .seq (.star false notNl) (.c '>')

theorem upToGt_hit {b rest : List Char} (h1 : '>' ∉ b) (h2 : '\n' ∉ b) :
    ∃ h hh, ends upToGt (b ++ '>' :: rest) = h :: hh ∧ h.text = b ++ ['>'] ∧ h.rest = rest := by
  induction b with
  | nil =>
    rw [List.nil_append, upToGt, lazy_cons]
    have : ends (.c '>') ('>' :: rest) = [⟨['>'], rest, []⟩] := by simp [ends, Re.c]
    rw [this]
    exact ⟨_, _, rfl, rfl, rfl⟩
  | cons c b ih =>
    simp only [List.mem_cons, not_or] at h1 h2
    obtain ⟨h, hh, e1, e2, e3⟩ := ih h1.2 h2.2
    rw [List.cons_append, upToGt, lazy_cons]
    have hc : ends (.c '>') (c :: (b ++ '>' :: rest)) = [] := by simp [ends, Re.c, Ne.symm h1.1]
    have hn : notNl c = true := by simp [notNl, Ne.symm h2.1]
    rw [hc, List.nil_append, if_pos hn]
    have e1' : ends (.seq (.star false notNl) (.c '>')) (b ++ '>' :: rest) = h :: hh := e1
    rw [e1']
    exact ⟨_, _, rfl, by simp [e2], e3⟩

theorem lang_upToGt {t : List Char} (h : lang upToGt t) : ∃ b, t = b ++ ['>'] ∧ '\n' ∉ b := by
  obtain ⟨u, v, rfl, h1, h2⟩ := h
  refine ⟨u, by rw [lang_c.1 h2], ?_⟩
  intro hc
  have := h1 _ hc
  simp [notNl] at this

theorem upToGt_miss {b rest : List Char} (h1 : '>' ∉ b) (h2 : '\n' ∈ b) : ends upToGt (b ++ '>' :: rest) = [] := by
  refine ends_nil.2 ?_
  intro t u e hl
  obtain ⟨x, rfl, hx⟩ := lang_upToGt hl
  -- the text reaches at least to the first '>'
  have : ∀ (b x : List Char), '>' ∉ b → '\n' ∈ b → b ++ '>' :: rest = x ++ ['>'] ++ u → '\n' ∈ x := by
    intro b
    induction b with
    | nil => intro x _ h _; simp at h
    | cons c b ih =>
      intro x h1 h2 e
      simp only [List.mem_cons, not_or] at h1
      cases x with
      | nil => exact absurd (List.cons.inj e).1.symm h1.1
      | cons d x =>
        rcases List.mem_cons.1 h2 with h2 | h2
        · rw [h2, (List.cons.inj e).1]; simp
        · exact List.mem_cons_of_mem _ (ih x h1.2 h2 (List.cons.inj e).2)
  exact hx (this b x h1 h2 e)

/-- An expression that matches whole tags. -/
structure Taglike (r : Re) : Prop where
  solid : solid r
  loose : ∀ s, stray s = true → ends r ('<' :: s) = []
  head : ∀ c s, c ≠ '<' → ends r (c :: s) = []
  tag : ∀ t, '>' ∉ t → (∀ rest, ∃ h hh, ends r ('<' :: (t ++ '>' :: rest)) = h :: hh ∧ h.text = '<' :: (t ++ ['>']) ∧ h.rest = rest) ∨
    (∀ rest, ends r ('<' :: (t ++ '>' :: rest)) = [])

theorem dull_word {T : Tables} (hT : T.Ok) {c : Char} (h : dull c = true) : T.word c = false := by
  rw [dull, Bool.or_eq_true] at h
  rcases h with h | h
  · refine Bool.eq_false_iff.2 fun hw => ?_
    rw [hT.word_space c hw] at h
    exact absurd h (by decide)
  · rw [List.contains_eq_mem, decide_eq_true_eq] at h
    have : ∀ c ∈ "\"#$%&'()*+,-.:;=@[\\]^`{|}~".toList, c.toNat < 128 ∧ (c.isAlphanum || c == '_') = false := by
      decide +kernel
    rw [hT.word_ascii c (this c h).1]; exact (this c h).2

/-- After a stray `<`. -/
theorem stray_word {T : Tables} (hT : T.Ok) {s : List Char} (h : stray s = true) : ∃ c u, s = c :: u ∧ T.word c = false ∧
    (c = '<' ∨ dull c = true) := by
  cases s with
  | nil => exact absurd h (by decide)
  | cons c u =>
    refine ⟨c, u, rfl, ?_⟩
    rw [stray] at h
    split at h
    · rename_i hc
      refine ⟨?_, .inl hc⟩
      rw [hc, hT.word_ascii '<' (by decide)]; decide
    · exact ⟨dull_word hT h, .inr h⟩

theorem stray_append {s : List Char} (h : stray s = true) (u : List Char) : stray (s ++ u) = true := by
  induction s with
  | nil => exact absurd h (by decide)
  | cons c s ih =>
    rw [stray] at h
    rw [List.cons_append, stray]
    split at h
    · rename_i hc
      rw [if_pos hc]; exact ih h
    · rename_i hc
      rw [if_neg hc]; exact h

theorem _root_.Verif.Spec.Html.Tagless.of {t : List Char} (h : '<' ∉ t) : Tagless t := by
  rintro a b rfl
  exact absurd (by simp) h

theorem _root_.Verif.Spec.Html.Tagless.tail {c : Char} {t : List Char} (h : Tagless (c :: t)) : Tagless t := by
  rintro a b rfl
  exact h (c :: a) b rfl

theorem _root_.Verif.Spec.Html.Tagless.head {t : List Char} (h : Tagless ('<' :: t)) : stray t = true := (h [] t rfl).1

theorem _root_.Verif.Spec.Html.Tagless.suffix {a t : List Char} (h : Tagless (a ++ t)) : Tagless t := by
  rintro x b rfl
  exact h (a ++ x) b (by simp)

theorem _root_.Verif.Spec.Html.Tagless.append {a t : List Char} (h : Tagless a) (h' : Tagless t) : Tagless (a ++ t) := by
  induction a with
  | nil => exact h'
  | cons c a ih =>
    intro x b e
    cases x with
    | nil =>
      obtain ⟨rfl, rfl⟩ := List.cons.inj e
      obtain ⟨h1, d, h2, h3⟩ := h [] a rfl
      exact ⟨stray_append h1 _, d, by simp [h2], h3⟩
    | cons d x => exact ih h.tail x b (List.cons.inj e).2

theorem stray_bang (s : List Char) : stray ('!' :: s) = false := by
  show dull '!' = false
  decide +kernel

theorem gt_word {T : Tables} (hT : T.Ok) : T.word '>' = false := by
  rw [hT.word_ascii '>' (by decide)]; decide

theorem anyTag_taglike {T : Tables} (hT : T.Ok) : Taglike (anyTag T) where
  solid := solid_anyTag T
  loose := by
    intro s hs
    obtain ⟨c, u, rfl, hc, -⟩ := stray_word hT hs
    rw [anyTag, ends_c_eq, ends_ch_seq, hc]; rfl
  head := fun c s hc => ends_c_ne _ s hc
  tag := by
    intro t ht
    cases t with
    | nil =>
      right; intro rest
      rw [List.nil_append, anyTag, ends_c_eq, ends_ch_seq, gt_word hT]; rfl
    | cons c t =>
      simp only [List.mem_cons, not_or] at ht
      by_cases hc : T.word c = true
      · by_cases hn : '\n' ∈ t
        · right; intro rest
          rw [List.cons_append, anyTag, ends_c_eq, ends_ch_seq, if_pos hc]
          have := upToGt_miss (rest := rest) ht.2 hn
          unfold upToGt at this
          rw [this]; rfl
        · left; intro rest
          obtain ⟨h, hh, e1, e2, e3⟩ := upToGt_hit (rest := rest) ht.2 hn
          unfold upToGt at e1
          rw [List.cons_append, anyTag, ends_c_eq, ends_ch_seq, if_pos hc, e1]
          exact ⟨_, _, rfl, by simp [e2], e3⟩
      · right; intro rest
        rw [List.cons_append, anyTag, ends_c_eq, ends_ch_seq, if_neg hc]; rfl

/-- Two literal words. -/
theorem ends_words {a b s : List Char} (ha : a ≠ []) (hb : b ≠ []) (hab : ∀ u v, a ++ u ≠ b ++ v) (i : Nat) (r : Re) :
    (∃ w u, (w = a ∨ w = b) ∧ s = w ++ u ∧
      ends (.seq (.grp i (.alt (.str a) (.str b))) r) s = (ends r u).map fun h => ⟨w ++ h.text, h.rest, (i, w) :: h.caps⟩) ∨
    ((∀ u, s ≠ a ++ u ∧ s ≠ b ++ u) ∧ ends (.seq (.grp i (.alt (.str a) (.str b))) r) s = []) := by
  have one : ∀ {a u : List Char}, a ≠ [] → ends (.str a) (a ++ u) = [⟨a, u, []⟩] := by
    intro a u ha
    match a with
    | [] => exact absurd rfl ha
    | [c] => simp [Re.str, ends, Re.c]
    | c :: d :: a =>
      have : ∀ (a : List Char) (c : Char), ends (.str (c :: a)) (c :: a ++ u) = [⟨c :: a, u, []⟩] := by
        intro a
        induction a with
        | nil => intro c; simp [Re.str, ends, Re.c]
        | cons d a ih =>
          intro c
          show ends (.seq (.c c) (.str (d :: a))) (c :: (d :: a ++ u)) = _
          rw [ends_c_eq, ih d]; rfl
      exact this (d :: a) c
  have none : ∀ {a s : List Char}, a ≠ [] → (∀ u, s ≠ a ++ u) → ends (.str a) s = [] := by
    intro a s ha h
    rcases ends_str (s := s) ha with ⟨u, e, -⟩ | ⟨-, h⟩
    · exact absurd e (h u)
    · exact h
  by_cases h1 : ∃ u, s = a ++ u
  · obtain ⟨u, rfl⟩ := h1
    left
    refine ⟨a, u, .inl rfl, rfl, ?_⟩
    have e2 := none hb (s := a ++ u) (fun v => hab u v)
    simp only [ends, one ha, e2, List.append_nil, List.map_cons, List.map_nil, List.flatMap_cons, List.flatMap_nil,
      List.cons_append, List.nil_append]
  · by_cases h2 : ∃ u, s = b ++ u
    · obtain ⟨u, rfl⟩ := h2
      left
      refine ⟨b, u, .inr rfl, rfl, ?_⟩
      have e2 := none ha (s := b ++ u) (fun v e => h1 ⟨v, e⟩)
      simp only [ends, one hb, e2, List.append_nil, List.map_cons, List.map_nil, List.flatMap_cons, List.flatMap_nil,
        List.cons_append, List.nil_append]
    · right
      refine ⟨fun u => ⟨fun e => h1 ⟨u, e⟩, fun e => h2 ⟨u, e⟩⟩, ?_⟩
      simp only [ends, none ha (fun u e => h1 ⟨u, e⟩), none hb (fun u e => h2 ⟨u, e⟩), List.append_nil, List.map_nil,
        List.flatMap_nil]

theorem style_word : "style".toList = ['s', 't', 'y', 'l', 'e'] := by decide +kernel
theorem script_word : "script".toList = ['s', 'c', 'r', 'i', 'p', 't'] := by decide +kernel

theorem style_ne (u v : List Char) : "style".toList ++ u ≠ "script".toList ++ v := by
  rw [style_word, script_word]; simp

theorem gt_wordBarSpace {T : Tables} (hT : T.Ok) : wordBarSpace T '>' = false := by
  simp [wordBarSpace, gt_word hT, space, ws_gt]

/-- A word without `>` at the start of a tag. -/
theorem prefix_tag {w t rest u : List Char} (hw : '>' ∉ w) (e : t ++ '>' :: rest = w ++ u) : ∃ t', t = w ++ t' ∧ u = t' ++ '>' :: rest := by
  induction w generalizing t with
  | nil => exact ⟨t, rfl, e.symm⟩
  | cons c w ih =>
    simp only [List.mem_cons, not_or] at hw
    cases t with
    | nil => exact absurd (List.cons.inj e).1 hw.1
    | cons d t =>
      obtain ⟨t', h1, h2⟩ := ih hw.2 (List.cons.inj e).2
      exact ⟨t', by rw [(List.cons.inj e).1, h1]; rfl, h2⟩

theorem styleTag_taglike {T : Tables} (hT : T.Ok) : Taglike (styleTag T) where
  solid := solid_styleTag T
  loose := by
    intro s hs
    have h1 : "style".toList ≠ [] := by simp
    have h2 : "script".toList ≠ [] := by simp
    rw [styleTag, ends_c_eq]
    rcases ends_words (s := s) h1 h2 style_ne 1
      (.seq (.ch (wordBarSpace T)) (.seq (.star false notNl) (.c '>'))) with ⟨w', u, g1, rfl, -⟩ | ⟨-, g3⟩
    · have : dull 's' = false := by decide +kernel
      rcases g1 with rfl | rfl
      · rw [style_word] at hs
        exact absurd (this.symm.trans hs) (by decide)
      · rw [script_word] at hs
        exact absurd (this.symm.trans hs) (by decide)
    · rw [g3]; rfl
  head := fun c s hc => ends_c_ne _ s hc
  tag := by
    intro t ht
    have hs : "style".toList ≠ [] := by simp
    have hc : "script".toList ≠ [] := by simp
    have key : ∀ w, (w = "style".toList ∨ w = "script".toList) → '>' ∉ w := by
      rintro w (rfl | rfl) <;> decide +kernel
    by_cases hw : ∃ w c t', (w = "style".toList ∨ w = "script".toList) ∧ t = w ++ c :: t' ∧ wordBarSpace T c = true ∧ '\n' ∉ t'
    · left
      obtain ⟨w, c, t', h1, rfl, h3, h4⟩ := hw
      intro rest
      have ht' : '>' ∉ t' := by intro h; exact ht (by simp [h])
      obtain ⟨h, hh, e1, e2, e3⟩ := upToGt_hit (rest := rest) ht' h4
      unfold upToGt at e1
      rw [styleTag, ends_c_eq]
      rcases ends_words (s := w ++ c :: t' ++ '>' :: rest) hs hc style_ne 1
        (.seq (.ch (wordBarSpace T)) (.seq (.star false notNl) (.c '>'))) with ⟨w', u, g1, g2, g3⟩ | ⟨g1, -⟩
      · rw [g3]
        have : w' = w ∧ u = c :: t' ++ '>' :: rest := by
          rcases h1 with rfl | rfl <;> rcases g1 with rfl | rfl
          · exact ⟨rfl, List.append_cancel_left (by rw [← g2]; simp)⟩
          · exact absurd (by rw [← g2]; simp : "style".toList ++ (c :: t' ++ '>' :: rest) = "script".toList ++ u) (style_ne _ _)
          · exact absurd (by rw [← g2]; simp : "style".toList ++ u = "script".toList ++ (c :: t' ++ '>' :: rest)) (style_ne _ _)
          · exact ⟨rfl, List.append_cancel_left (by rw [← g2]; simp)⟩
        obtain ⟨rfl, rfl⟩ := this
        rw [List.cons_append, ends_ch_seq, if_pos h3, e1]
        exact ⟨_, _, rfl, by simp [e2], e3⟩
      · rcases h1 with rfl | rfl
        · exact absurd (by simp) (g1 (c :: t' ++ '>' :: rest)).1
        · exact absurd (by simp) (g1 (c :: t' ++ '>' :: rest)).2
    · right
      intro rest
      rw [styleTag, ends_c_eq]
      rcases ends_words (s := t ++ '>' :: rest) hs hc style_ne 1
        (.seq (.ch (wordBarSpace T)) (.seq (.star false notNl) (.c '>'))) with ⟨w', u, g1, g2, g3⟩ | ⟨-, g3⟩
      · rw [g3]
        obtain ⟨t', k1, k2⟩ := prefix_tag (key w' g1) g2
        have : ends (.seq (.ch (wordBarSpace T)) (.seq (.star false notNl) (.c '>'))) u = [] := by
          rw [k2]
          cases t' with
          | nil => rw [List.nil_append, ends_ch_seq, gt_wordBarSpace hT]; rfl
          | cons c t' =>
            rw [List.cons_append, ends_ch_seq]
            split
            · rename_i hc
              have hn : '\n' ∈ t' := by
                refine Decidable.byContradiction fun hn => hw ⟨w', c, t', g1, k1, hc, hn⟩
              have ht' : '>' ∉ t' := by intro h; exact ht (by rw [k1]; simp [h])
              have := upToGt_miss (rest := rest) ht' hn
              unfold upToGt at this
              rw [this]; rfl
            · rfl
        rw [this]; rfl
      · rw [g3]; rfl

/-! ## Texts and tags one by one -/

theorem replaceAll_text {r : Re} (h : Taglike r) (f : Hit → List Char) {t : List Char} (ht : Tagless t) (s : List Char) :
    replaceAll r f (t ++ s) = t ++ replaceAll r f s := by
  induction t with
  | nil => rfl
  | cons c t ih =>
    have hm : ends r (c :: (t ++ s)) = [] := by
      by_cases hc : c = '<'
      · subst hc
        exact h.loose _ (stray_append ht.head s)
      · exact h.head c _ hc
    rw [List.cons_append, replaceAll_miss _ hm, ih ht.tail]; rfl

theorem replaceAll_tag {r : Re} (h : Taglike r) (F : List Char → List Char) {t : List Char} (h1 : '<' ∉ t) (h2 : '>' ∉ t)
    (s : List Char) : replaceAll r (fun x => F x.text) ('<' :: (t ++ '>' :: s)) =
      replaceAll r (fun x => F x.text) ('<' :: (t ++ ['>'])) ++ replaceAll r (fun x => F x.text) s := by
  rcases h.tag t h2 with hh | hh
  · obtain ⟨a, aa, e1, e2, e3⟩ := hh s
    obtain ⟨b, bb, f1, f2, f3⟩ := hh []
    rw [replaceAll_hit h.solid _ e1, replaceAll_hit h.solid _ f1, e3, f3, e2, f2, replaceAll_nil, List.append_nil]
  · rw [replaceAll_miss _ (hh s), replaceAll_miss _ (hh [])]
    have n : Tagless (t ++ ['>']) := .of (by simp [h1])
    have e : t ++ '>' :: s = (t ++ ['>']) ++ s := by simp
    rw [e, replaceAll_text h _ n, ]
    have := replaceAll_text h (fun x => F x.text) n []
    rw [List.append_nil] at this
    rw [this, replaceAll_nil, List.append_nil]; rfl

theorem replaceAllM_text {r : Re} (h : Taglike r) (f : Hit → Option (List Char)) {t : List Char} (ht : Tagless t) (s : List Char) :
    replaceAllM r f (t ++ s) = (replaceAllM r f s).map (t ++ ·) := by
  induction t with
  | nil => cases hh : replaceAllM r f s <;> simp [hh]
  | cons c t ih =>
    have hm : ends r (c :: (t ++ s)) = [] := by
      by_cases hc : c = '<'
      · subst hc
        exact h.loose _ (stray_append ht.head s)
      · exact h.head c _ hc
    rw [List.cons_append, replaceAllM_miss _ hm, ih ht.tail]
    cases replaceAllM r f s <;> rfl

theorem replaceAllM_tag {r : Re} (h : Taglike r) (F : List Char → Option (List Char)) {t : List Char} (h1 : '<' ∉ t) (h2 : '>' ∉ t)
    (s : List Char) : replaceAllM r (fun x => F x.text) ('<' :: (t ++ '>' :: s)) =
      (replaceAllM r (fun x => F x.text) ('<' :: (t ++ ['>']))).bind fun a =>
        (replaceAllM r (fun x => F x.text) s).map (a ++ ·) := by
  rcases h.tag t h2 with hh | hh
  · obtain ⟨a, aa, e1, e2, e3⟩ := hh s
    obtain ⟨b, bb, f1, f2, f3⟩ := hh []
    rw [replaceAllM_hit h.solid _ e1, replaceAllM_hit h.solid _ f1, e3, f3, e2, f2, replaceAllM_nil]
    cases F ('<' :: (t ++ ['>'])) with
    | none => rfl
    | some x => cases replaceAllM r (fun x => F x.text) s <;> simp
  · rw [replaceAllM_miss _ (hh s), replaceAllM_miss _ (hh [])]
    have n : Tagless (t ++ ['>']) := .of (by simp [h1])
    have e : t ++ '>' :: s = (t ++ ['>']) ++ s := by simp
    rw [e, replaceAllM_text h _ n]
    have := replaceAllM_text h (fun x => F x.text) n []
    rw [List.append_nil] at this
    rw [this, replaceAllM_nil]
    cases replaceAllM r (fun x => F x.text) s <;> simp

/-! ## Comments -/

def decomment : Seg → Seg
  | .comment _ => .text [' ']
  | x => x

theorem render_cons (x : Seg) (P : List Seg) : render (x :: P) = x.show ++ render P := rfl

theorem comments_text {k : List Char → Prop} {t s o : List Char} (ht : Tagless t) (h : Comments k s o) : Comments k (t ++ s) (t ++ o) := by
  induction t with
  | nil => exact h
  | cons c t ih =>
    refine .char ?_ (ih ht.tail)
    rintro body rest ⟨e, -⟩
    have e0 : "<!--".toList = ['<', '!', '-', '-'] := by decide +kernel
    rw [e0] at e
    obtain ⟨rfl, e2⟩ := List.cons.inj e
    have e2 : t ++ s = _ := e2
    have := stray_append ht.head s
    rw [e2] at this
    exact absurd ((stray_bang _).symm.trans this) (by decide)

theorem comments_keep {P : List Seg} (h : Page P) : Comments Conditional (render P) (render (P.map decomment)) := by
  induction h with
  | nil => exact .nil
  | @seg x P hx hc _ ih =>
    rw [render_cons, List.map_cons, render_cons]
    cases x with
    | text t => exact comments_text hx ih
    | tag t =>
      show Comments Conditional ('<' :: t ++ ['>'] ++ _) ('<' :: t ++ ['>'] ++ _)
      refine .char ?_ ?_
      · rintro body rest ⟨e, -⟩
        have e0 : "<!--".toList = '<' :: "!--".toList := by decide +kernel
        rw [e0] at e
        have e1 : t ++ '>' :: render P = "!--".toList ++ (body ++ ("-->".toList ++ rest)) := by
          have := (List.cons.inj e).2
          simpa using this
        obtain ⟨t', h, -⟩ := prefix_tag (by decide +kernel) e1
        exact hx.2.2.2 t' h
      · refine comments_text ?_ ih
        show Tagless (t ++ ['>'])
        exact .of (by simp [hx.1])
    | comment b => exact .drop ⟨rfl, hx⟩ (hc b rfl) ih
  | @block C P hC _ ih =>
    obtain ⟨h1, b, e, h2, h3⟩ := hC
    have ed : C.map decomment = C := by
      have : ∀ x ∈ C, decomment x = x := by
        intro x hx
        have := h1 x hx
        cases x with
        | text t => rfl
        | tag t => rfl
        | comment b => exact absurd this id
      rw [List.map_congr_left this]; simp
    have ea : ∀ A B : List Seg, render (A ++ B) = render A ++ render B := fun A B => by simp [render]
    rw [List.map_append, ed, ea, ea, e]
    exact .keep ⟨rfl, h2⟩ h3 ih

theorem removeComments_page {P : List Seg} (h : Page P) : removeComments (render P) = render (P.map decomment) :=
  comments_unique (removeComments_spec _) (comments_keep h)

theorem Page.of {P : List Seg} (hP : ∀ x ∈ P, x.Ok) (hc : ∀ b, Seg.comment b ∈ P → ¬ Conditional b) : Page P := by
  induction P with
  | nil => exact .nil
  | cons x P ih =>
    refine .seg (hP x (by simp)) ?_ (ih (fun x hx => hP x (by simp [hx])) (fun b hb => hc b (by simp [hb])))
    rintro b rfl
    exact hc b (by simp)

theorem page_tag {P : List Seg} (h : Page P) {t : List Char} (ht : Seg.tag t ∈ P) : '<' ∉ t ∧ '>' ∉ t ∧ Sharp t := by
  induction h with
  | nil => cases ht
  | @seg x P hx _ _ ih =>
    rcases List.mem_cons.1 ht with rfl | ht
    · exact ⟨hx.1, hx.2.1, hx.2.2.1⟩
    · exact ih ht
  | @block C P hC _ ih =>
    rcases List.mem_append.1 ht with ht | ht
    · exact hC.1 _ ht
    · exact ih ht

/-! ## Pages whose comments are all conditional -/

/-- Whatever begins like a comment begins like a conditional one. -/
def OpensAll (s : List Char) : Prop :=
  ∀ a u, s = a ++ "<!--".toList ++ u → ∃ w v, u = w ++ '[' :: v ∧ ∀ c ∈ w, isWhitespace c = true

private theorem conditional_of {b w v rest : List Char} (e : b ++ '-' :: rest = w ++ '[' :: v) (hw : ∀ c ∈ w, isWhitespace c = true) :
    Conditional b := by
  induction w generalizing b with
  | nil =>
    cases b with
    | nil => exact absurd (List.cons.inj e).1 (by decide)
    | cons c b => rw [(List.cons.inj e).1]; exact .here
  | cons d w ih =>
    cases b with
    | nil =>
      have := hw d (by simp)
      rw [← (List.cons.inj e).1] at this
      exact absurd this (by decide +kernel)
    | cons c b =>
      obtain ⟨e1, e2⟩ := List.cons.inj e
      exact .blank (e1 ▸ hw d (by simp)) (ih e2 fun c hc => hw c (by simp [hc]))

theorem comments_all {s : List Char} (h : OpensAll s) : Comments Conditional s s := by
  generalize hn : s.length = n
  induction n using Nat.strongRecOn generalizing s with
  | _ n ih =>
    cases s with
    | nil => exact .nil
    | cons c s =>
      by_cases hc : ∃ body rest, CommentAt (c :: s) body rest
      · obtain ⟨body, rest, hc⟩ := hc
        have e0 : "-->".toList = '-' :: "->".toList := by decide +kernel
        obtain ⟨w, v, e, hw⟩ := h [] (body ++ "-->".toList ++ rest) (by rw [hc.1]; simp)
        have hcond : Conditional body := conditional_of (rest := "->".toList ++ rest) (by rw [← e, e0]; simp) hw
        have hr := ih rest.length (by
          rw [← hn, hc.1]
          simp only [List.length_append]
          have : "<!--".toList.length = 4 := by decide +kernel
          omega) (s := rest) (by
            intro a u e
            exact h ("<!--".toList ++ body ++ "-->".toList ++ a) u (by rw [hc.1, e]; simp)) rfl
        have := Comments.keep hc hcond hr
        rw [← hc.1] at this
        exact this
      · refine .char (fun b r hb => hc ⟨b, r, hb⟩) (ih s.length (by rw [← hn]; simp) (s := s) ?_ rfl)
        intro a u e
        exact h (c :: a) u (by rw [e]; simp)

private theorem opens_skip {t s : List Char} (ht : Tagless t) (h : OpensAll s) : OpensAll (t ++ s) := by
  induction t with
  | nil => exact h
  | cons c t ih =>
    intro a u e
    cases a with
    | nil =>
      have e0 : "<!--".toList = ['<', '!', '-', '-'] := by decide +kernel
      rw [e0] at e
      obtain ⟨rfl, e2⟩ := List.cons.inj e
      have e2 : t ++ s = _ := e2
      have := stray_append ht.head s
      rw [e2] at this
      exact absurd ((stray_bang _).symm.trans this) (by decide)
    | cons d a => exact ih ht.tail a u (List.cons.inj e).2

/-! ## `condense` -/

/-- What `condense` makes of one tag. -/
def condTag (T : Tables) (t : List Char) : List Char := condense T ('<' :: (t ++ ['>']))

theorem condense_eq (T : Tables) (s : List Char) :
    condense T s = replaceAll (styleTag T) (fun h => (fun x => replaceAll (typeAttr T) (fun _ => []) x) h.text) s := rfl

theorem lang_typeAttr {T : Tables} {t : List Char} (h : lang (typeAttr T) t) :
    ∃ w v, t = w ++ "type=\"".toList ++ v ++ ['"'] ∧ (∀ c ∈ w, isWhitespace c = true) := by
  obtain ⟨w, y, rfl, h1, h2⟩ := h
  obtain ⟨z, rfl, h3⟩ := lang_lit.1 h2
  obtain ⟨a, b, rfl, -, c, d, rfl, -, h4⟩ := h3
  rw [lang_c.1 h4]
  exact ⟨w, a ++ c, by simp, h1⟩

theorem typeAttr_head {T : Tables} {c : Char} {s t u : List Char} (e : c :: s = t ++ u) (h : lang (typeAttr T) t) :
    isWhitespace c = true ∨ c = 't' := by
  obtain ⟨w, v, rfl, hw⟩ := lang_typeAttr h
  cases w with
  | nil =>
    have e0 : "type=\"".toList = ['t', 'y', 'p', 'e', '=', '"'] := by decide +kernel
    rw [e0] at e
    exact .inr (List.cons.inj e).1
  | cons d w => rw [(List.cons.inj e).1]; exact .inl (hw d (by simp))

theorem typeAttr_miss {T : Tables} {c : Char} (s : List Char) (h1 : isWhitespace c = false) (h2 : c ≠ 't') :
    ends (typeAttr T) (c :: s) = [] := by
  refine ends_nil.2 ?_
  intro t u e hl
  rcases typeAttr_head e hl with h | h
  · rw [h1] at h; exact absurd h (by decide)
  · exact h2 h

/-- The end of the tag stays. -/
theorem typeAttr_end {T : Tables} {x : List Char} :
    ∃ y, replaceAll (typeAttr T) (fun _ => []) (x ++ ['>']) = y ++ ['>'] ∧ y.Sublist x := by
  generalize hs : x ++ ['>'] = s
  induction s using cut_induct (solid_typeAttr T) generalizing x with
  | nil => simp at hs
  | miss c s he ih =>
    cases x with
    | nil =>
      obtain ⟨rfl, rfl⟩ := List.cons.inj hs
      exact ⟨[], by rw [replaceAll_miss _ he]; rfl, List.Sublist.refl _⟩
    | cons d x =>
      obtain ⟨rfl, e⟩ := List.cons.inj hs
      obtain ⟨y, h1, h2⟩ := ih (x := x) e
      exact ⟨d :: y, by rw [replaceAll_miss _ he, h1]; rfl, h2.cons_cons d⟩
  | hit s k kk he ih =>
    have hk : k ∈ ends (typeAttr T) s := by rw [he]; simp
    obtain ⟨h1, h2⟩ := ends_sound hk
    obtain ⟨w, v, h3, -⟩ := lang_typeAttr h2
    rw [replaceAll_hit (solid_typeAttr T) _ he]
    have hne : k.rest ≠ [] := by
      intro e0
      rw [e0, h3, List.append_nil] at h1
      rw [h1] at hs
      have := congrArg List.getLast? hs
      rw [List.getLast?_append, List.getLast?_append] at this
      simp at this
    have e1 : k.rest = k.rest.dropLast ++ ['>'] := by
      have := congrArg List.getLast? (hs.trans h1)
      rw [List.getLast?_append] at this
      simp only [List.getLast?_singleton, Option.some_or] at this
      rw [List.getLast?_append, List.getLast?_eq_some_getLast hne] at this
      simp only [Option.some_or, Option.some.injEq] at this
      rw [this, List.dropLast_concat_getLast]
    obtain ⟨y, g1, g2⟩ := ih e1.symm
    refine ⟨y, by rw [g1]; rfl, ?_⟩
    have e2 : x = k.text ++ k.rest.dropLast := by
      have h4 := hs.trans h1
      rw [e1, ← List.append_assoc] at h4
      exact (List.append_inj_left' h4 rfl)
    rw [e2]
    exact g2.trans (List.sublist_append_right _ _)

/-- A tag stays a tag, and its first character stays. -/
theorem condTag_shape {T : Tables} (hT : T.Ok) {t : List Char} (h1 : '<' ∉ t) (h2 : '>' ∉ t) :
    ∃ y, condTag T t = '<' :: (y ++ ['>']) ∧ y.Sublist t ∧
      (y = t ∨ ∃ z z', t = 's' :: z ∧ y = 's' :: z') := by
  rw [condTag, condense_eq]
  rcases (styleTag_taglike hT).tag t h2 with hh | hh
  · obtain ⟨b, bb, f1, f2, f3⟩ := hh []
    rw [replaceAll_hit (solid_styleTag T) _ f1, f2, f3, replaceAll_nil, List.append_nil]
    have hl := (ends_sound (h := b) (by rw [f1]; simp)).2
    rw [f2] at hl
    have hs : ∃ z, t = 's' :: z := by
      obtain ⟨u, v, e, g1, g2⟩ := hl
      rw [lang_c.1 g1] at e
      obtain ⟨a, b, rfl, g3, -⟩ := g2
      have e := (List.cons.inj e).2
      rcases g3 with g3 | g3
      · rw [(lang_str (by simp)).1 g3, style_word] at e
        cases t with
        | nil => exact absurd (List.cons.inj e).1 (by decide)
        | cons c t => exact ⟨t, by rw [(List.cons.inj e).1]⟩
      · rw [(lang_str (by simp)).1 g3, script_word] at e
        cases t with
        | nil => exact absurd (List.cons.inj e).1 (by decide)
        | cons c t => exact ⟨t, by rw [(List.cons.inj e).1]⟩
    obtain ⟨z, rfl⟩ := hs
    obtain ⟨y, g1, g2⟩ := typeAttr_end (T := T) (x := z)
    refine ⟨'s' :: y, ?_, g2.cons_cons 's', .inr ⟨z, y, rfl, rfl⟩⟩
    show replaceAll (typeAttr T) (fun _ => []) ('<' :: ('s' :: z ++ ['>'])) = _
    rw [replaceAll_miss _ (typeAttr_miss _ ws_lt (by decide)), List.cons_append,
      replaceAll_miss _ (typeAttr_miss _ (by decide +kernel) (by decide)), g1]
    rfl
  · refine ⟨t, ?_, List.Sublist.refl _, .inl rfl⟩
    have n : Tagless (t ++ ['>']) := .of (by simp [h1])
    rw [replaceAll_miss _ (hh [])]
    have := replaceAll_text (styleTag_taglike hT) (fun x => replaceAll (typeAttr T) (fun _ => []) x.text) n []
    rw [List.append_nil] at this
    rw [this, replaceAll_nil, List.append_nil]

/-- A seg of text or a tag. -/
def Seg.Plain : Seg → Prop
  | .text t => Tagless t
  | .tag t => '<' ∉ t ∧ '>' ∉ t ∧ Sharp t
  | .comment _ => False

theorem removeComments_opens {P : List Seg} (hP : ∀ x ∈ P, Seg.Plain x) (ho : ∀ t, Seg.tag t ∈ P → Opens t) :
    removeComments (render P) = render P := by
  refine comments_unique (removeComments_spec _) (comments_all ?_)
  induction P with
  | nil =>
    intro a u e
    have e0 : "<!--".toList = ['<', '!', '-', '-'] := by decide +kernel
    rw [e0] at e
    simp [render] at e
  | cons x P ih =>
    have ih := ih (fun x hx => hP x (by simp [hx])) (fun t ht => ho t (by simp [ht]))
    have hx := hP x (by simp)
    rw [render_cons]
    cases x with
    | text t => exact opens_skip hx ih
    | tag t =>
      intro a u e
      have e0 : "<!--".toList = '<' :: "!--".toList := by decide +kernel
      cases a with
      | nil =>
        rw [e0] at e
        have e1 : t ++ '>' :: render P = "!--".toList ++ u := by
          have := (List.cons.inj e).2
          simpa using this
        obtain ⟨t', h, rfl⟩ := prefix_tag (by decide +kernel) e1
        obtain ⟨w, v, rfl, hw⟩ := ho t (by simp) t' h
        exact ⟨w, v ++ '>' :: render P, by simp, hw⟩
      | cons d a =>
        refine opens_skip (t := t ++ ['>']) (s := render P) (.of (by simp [hx.1])) ih a u ?_
        exact (List.cons.inj e).2
    | comment b => exact absurd hx id

inductive Mapped (R : List Char → List Char → Prop) : List Seg → List Seg → Prop
  | nil : Mapped R [] []
  | text {t : List Char} {P Q : List Seg} : Mapped R P Q → Mapped R (.text t :: P) (.text t :: Q)
  | tag {t t' : List Char} {P Q : List Seg} : R t t' → Mapped R P Q → Mapped R (.tag t :: P) (.tag t' :: Q)

theorem condense_page {T : Tables} (hT : T.Ok) {P : List Seg} (hP : ∀ x ∈ P, Seg.Plain x) :
    ∃ Q, condense T (render P) = render Q ∧ (∀ x ∈ Q, Seg.Plain x) ∧
      Mapped (fun t t' => condTag T t = '<' :: (t' ++ ['>']) ∧ (t' = t ∨ ∃ z z', t = 's' :: z ∧ t' = 's' :: z')) P Q := by
  induction P with
  | nil => exact ⟨[], rfl, by simp, .nil⟩
  | cons x P ih =>
    obtain ⟨Q, h1, h2, h3⟩ := ih (fun x hx => hP x (by simp [hx]))
    have hx := hP x (by simp)
    rw [render_cons]
    cases x with
    | text t =>
      refine ⟨.text t :: Q, ?_, ?_, .text h3⟩
      · rw [condense_eq] at h1 ⊢
        show replaceAll _ _ (t ++ render P) = _
        rw [replaceAll_text (styleTag_taglike hT) _ hx, h1]; rfl
      · intro y hy
        rcases List.mem_cons.1 hy with rfl | hy
        · exact hx
        · exact h2 y hy
    | tag t =>
      obtain ⟨y, g1, g2, g3⟩ := condTag_shape hT hx.1 hx.2.1
      refine ⟨.tag y :: Q, ?_, ?_, .tag ⟨g1, g3⟩ h3⟩
      · have e : condense T ('<' :: (t ++ '>' :: render P)) = condTag T t ++ condense T (render P) := by
          rw [condTag, condense_eq, condense_eq, condense_eq]
          exact replaceAll_tag (styleTag_taglike hT) (fun x => replaceAll (typeAttr T) (fun _ => []) x) hx.1 hx.2.1 (render P)
        show condense T ('<' :: t ++ ['>'] ++ render P) = _
        have e0 : '<' :: t ++ ['>'] ++ render P = '<' :: (t ++ '>' :: render P) := by simp
        rw [e0, e, g1, h1]
        show _ = '<' :: y ++ ['>'] ++ render Q
        simp
      · intro z hz
        rcases List.mem_cons.1 hz with rfl | hz
        · refine ⟨fun h => hx.1 (g2.subset h), fun h => hx.2.1 (g2.subset h), ?_⟩
          rcases g3 with rfl | ⟨w, w', -, rfl⟩
          · exact hx.2.2
          · intro c u e
            rw [← (List.cons.inj e).1]; decide +kernel
        · exact h2 z hz
    | comment b => exact absurd hx id

/-! ## `clean_unneeded_tags` -/

inductive Dropped : List Seg → List Seg → Prop
  | nil : Dropped [] []
  | text {t : List Char} {P Q : List Seg} : Dropped P Q → Dropped (.text t :: P) (.text t :: Q)
  | drop {t : List Char} {P Q : List Seg} : Listed ('<' :: t ++ ['>']) → Dropped P Q → Dropped (.tag t :: P) Q
  | tag {t : List Char} {P Q : List Seg} : ¬ Listed ('<' :: t ++ ['>']) → Dropped P Q → Dropped (.tag t :: P) (.tag t :: Q)

theorem without_text {gone : List Char → Prop} (hg : ∀ t, gone t → TagShape t) {t s o : List Char} (ht : Tagless t)
    (h : Without gone s o) : Without gone (t ++ s) (t ++ o) := by
  induction t with
  | nil => exact h
  | cons c t ih =>
    refine .char ?_ (ih ht.tail)
    intro x u hx e
    obtain ⟨v, rfl, g1, -, g3⟩ := hg x hx
    obtain ⟨rfl, e2⟩ := List.cons.inj e
    have e2 : t ++ s = _ := e2
    have := stray_append ht.head s
    rw [e2] at this
    have e3 : (v ++ ['>']).append u = v ++ '>' :: u := by show (v ++ ['>']) ++ u = _; simp
    rw [e3, stray_sharp g1 g3] at this
    exact absurd this (by decide)

/-- A page up to the next `>`. -/
theorem flat_page {P : List Seg} (hP : ∀ x ∈ P, Seg.Plain x) : Flat (render P) := by
  have text : ∀ (t s : List Char), Tagless t → Flat s → Flat (t ++ s) := by
    intro t
    induction t with
    | nil => intro s _ h; exact h
    | cons c t ih =>
      intro s ht h a u b e h1 h2
      cases a with
      | nil =>
        obtain ⟨rfl, e2⟩ := List.cons.inj e
        have e2 : t ++ s = _ := e2
        have := stray_append ht.head s
        rw [e2] at this
        exact absurd (this.symm.trans h1) (by decide)
      | cons d a => exact ih s ht.tail h a u b (List.cons.inj e).2 h1 h2
  -- the first '>' comes before any '<'
  have key : ∀ (t u r b : List Char), '<' ∉ t → '>' ∉ u → t ++ '>' :: r = u ++ '<' :: b → False := by
    intro t
    induction t with
    | nil =>
      intro u r b _ hu e
      cases u with
      | nil => exact absurd (List.cons.inj e).1 (by decide)
      | cons c u => exact hu (by rw [← (List.cons.inj e).1]; simp)
    | cons c t iht =>
      intro u r b ht hu e
      simp only [List.mem_cons, not_or] at ht
      cases u with
      | nil => exact ht.1 (List.cons.inj e).1.symm
      | cons d u =>
        simp only [List.mem_cons, not_or] at hu
        exact iht u r b ht.2 hu.2 (List.cons.inj e).2
  induction P with
  | nil => intro a u b e; simp [render] at e
  | cons x P ih =>
    have ih := ih (fun x hx => hP x (by simp [hx]))
    have hx := hP x (by simp)
    rw [render_cons]
    cases x with
    | text t => exact text t _ hx ih
    | tag t =>
      have e0 : Seg.show (.tag t) ++ render P = '<' :: (t ++ ['>'] ++ render P) := rfl
      rw [e0]
      intro a u b e h1 h2
      cases a with
      | nil =>
        have e1 : t ++ '>' :: render P = u ++ '<' :: b := by simpa using (List.cons.inj e).2
        exact Decidable.byContradiction fun hu => key t u _ b hx.1 hu e1
      | cons d a =>
        exact text (t ++ ['>']) _ (.of (by simp [hx.1])) ih a u b (List.cons.inj e).2 h1 h2
    | comment b => exact absurd hx id

theorem clean_page {P : List Seg} (hP : ∀ x ∈ P, Seg.Plain x) :
    ∃ Q, cleanUnneededTags (render P) = render Q ∧ (∀ x ∈ Q, Seg.Plain x) ∧ Dropped P Q := by
  have : ∃ Q, Without Listed (render P) (render Q) ∧ (∀ x ∈ Q, Seg.Plain x) ∧ Dropped P Q := by
    induction P with
    | nil => exact ⟨[], .nil, by simp, .nil⟩
    | cons x P ih =>
      obtain ⟨Q, h1, h2, h3⟩ := ih (fun x hx => hP x (by simp [hx]))
      have hx := hP x (by simp)
      cases x with
      | text t =>
        refine ⟨.text t :: Q, without_text (fun _ h => listed_shape h) hx h1, ?_, .text h3⟩
        intro y hy
        rcases List.mem_cons.1 hy with rfl | hy
        · exact hx
        · exact h2 y hy
      | tag t =>
        by_cases hl : Listed ('<' :: t ++ ['>'])
        · exact ⟨Q, .tag hl h1, h2, .drop hl h3⟩
        · refine ⟨.tag t :: Q, ?_, ?_, .tag hl h3⟩
          · rw [render_cons, render_cons]
            show Without Listed ('<' :: (t ++ ['>'] ++ render P)) ('<' :: (t ++ ['>'] ++ render Q))
            refine .char ?_ (without_text (fun _ h => listed_shape h) (.of (by simp [hx.1])) h1)
            intro y u hy e
            have hy' := hy
            obtain ⟨v, rfl, g1, g2, -⟩ := listed_shape hy
            have e1 : t ++ '>' :: render P = v ++ '>' :: u := by simpa using (List.cons.inj e).2
            obtain ⟨rfl, -⟩ := notGt_unique hx.2.1 g2 e1
            exact hl hy'
          · intro y hy
            rcases List.mem_cons.1 hy with rfl | hy
            · exact hx
            · exact h2 y hy
      | comment b => exact absurd hx id
  obtain ⟨Q, h1, h2, h3⟩ := this
  exact ⟨Q, without_unique (fun t ht => listed_shape ht) (clean_without (flat_page hP)) h1, h2, h3⟩

end Verif.Html
