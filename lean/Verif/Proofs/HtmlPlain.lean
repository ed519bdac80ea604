import Verif.Proofs.HtmlShrink
/-!
# Doing the white space again, and pages without tags
-/
set_option linter.unusedSimpArgs false
namespace Verif.Html
open Verif.Spec.Html

theorem ascii_ok : ascii.Ok where
  word_ascii := by
    intro c hc
    have : ∀ n : Fin 128, ascii.word (Char.ofNat n.1) = ((Char.ofNat n.1).isAlphanum || Char.ofNat n.1 == '_') := by decide +kernel
    have h := this ⟨c.toNat, hc⟩
    simpa using h
  digit_ascii := by
    intro c hc
    have : ∀ n : Fin 128, ascii.digit (Char.ofNat n.1) = (Char.ofNat n.1).isDigit := by decide +kernel
    have h := this ⟨c.toNat, hc⟩
    simpa using h
  word_space := by
    intro c hc
    have hlt : c.toNat < 128 := by
      simp only [ascii, letter, Bool.or_eq_true, Bool.and_eq_true, decide_eq_true_eq, beq_iff_eq] at hc
      rcases hc with (((⟨-, h⟩ | ⟨-, h⟩) | ⟨-, h⟩) | h)
      · have := UInt32.le_iff_toNat_le.1 h; exact Nat.lt_of_le_of_lt this (by decide)
      · have := UInt32.le_iff_toNat_le.1 h; exact Nat.lt_of_le_of_lt this (by decide)
      · have := UInt32.le_iff_toNat_le.1 h; exact Nat.lt_of_le_of_lt this (by decide)
      · subst h; decide
    have : ∀ n : Fin 128, ascii.word (Char.ofNat n.1) = true → isWhitespace (Char.ofNat n.1) = false := by decide +kernel
    have h := this ⟨c.toNat, hlt⟩
    simp only [Char.ofNat_toNat] at h
    exact h hc
  digit_word := by
    intro c hc
    simp only [ascii, Bool.or_eq_true] at hc ⊢
    exact .inl (.inr hc)
  lower_ascii := fun _ _ => rfl
  lower_ne := fun _ => by simp [ascii]
  lower_other := by
    intro c hc d hd h
    simp only [ascii, List.mem_singleton] at hd
    subst hd
    exact absurd (toLower_ascii h) (by omega)

/-! ## White space, again -/

theorem squeeze_ws {p n : Option Char} {w : List Char} (hw : ∀ x ∈ w, isWhitespace x = true) :
    ∀ x ∈ squeeze p w n, isWhitespace x = true := by
  unfold squeeze
  split
  · simp
  · split
    · simp [ws_sp]
    · exact hw

theorem squeeze_squeeze (p n : Option Char) (w : List Char) : squeeze p (squeeze p w n) n = squeeze p w n := by
  have hs : squeeze p [' '] n = [' '] := by
    unfold squeeze; simp only [List.cons_ne_self, if_false]
    split <;> simp_all
  by_cases h0 : w = []
  · subst h0; simp [squeeze]
  · by_cases h1 : (p = some '>' ∧ n = some '<') ∨ 2 ≤ w.length ∨ w = ['\r'] ∨ w = ['\n']
    · have : squeeze p w n = [' '] := by unfold squeeze; rw [if_neg h0, if_pos h1]
      rw [this, hs]
    · have : squeeze p w n = w := by unfold squeeze; rw [if_neg h0, if_neg h1]
      rw [this, this]

theorem gaps_again {prev : Option Char} {s o : List Char} (h : Gaps squeeze prev s o) : Gaps squeeze prev o o := by
  induction h with
  | @last prev w hw =>
    have := Gaps.last (g := squeeze) (prev := prev) (w := squeeze prev w none) (squeeze_ws hw)
    rwa [squeeze_squeeze] at this
  | @next prev w s o c hw hc _ ih =>
    have := Gaps.next (g := squeeze) (prev := prev) (w := squeeze prev w (some c)) (squeeze_ws hw) hc ih
    rwa [squeeze_squeeze] at this

theorem squeeze_nil {p n : Option Char} {w : List Char} (h : squeeze p w n = []) : w = [] := by
  unfold squeeze at h
  split at h
  · assumption
  · split at h
    · simp at h
    · exact h

/-- What has no white space and is in the result was in the source. -/
theorem gaps_prefix {prev : Option Char} {s o m b : List Char} (h : Gaps squeeze prev s o) (hm : ∀ c ∈ m, isWhitespace c = false)
    (e : o = m ++ b) : ∃ b', s = m ++ b' := by
  induction h generalizing m with
  | @last prev w hw =>
    cases m with
    | nil => exact ⟨_, rfl⟩
    | cons c m =>
      have := squeeze_ws (p := prev) (n := none) hw c (by rw [e]; simp)
      rw [hm c (by simp)] at this; exact absurd this (by decide)
  | @next prev w s o c hw hc _ ih =>
    cases m with
    | nil => exact ⟨_, rfl⟩
    | cons d m =>
      cases hq : squeeze prev w (some c) with
      | nil =>
        rw [hq] at e
        have hw0 := squeeze_nil hq
        subst hw0
        obtain ⟨rfl, e'⟩ := List.cons.inj e
        obtain ⟨b', hb⟩ := ih (fun c hc => hm c (by simp [hc])) e'
        exact ⟨b', by rw [hb]; rfl⟩
      | cons x q =>
        rw [hq] at e
        have hx := squeeze_ws (p := prev) (n := some c) hw x (by rw [hq]; simp)
        have : x = d := (List.cons.inj e).1
        rw [this, hm d (by simp)] at hx; exact absurd hx (by decide)

theorem gaps_infix {prev : Option Char} {s o a m b : List Char} (h : Gaps squeeze prev s o) (hm : ∀ c ∈ m, isWhitespace c = false)
    (e : o = a ++ m ++ b) : ∃ a' b', s = a' ++ m ++ b' := by
  induction h generalizing a with
  | @last prev w hw =>
    cases m with
    | nil => exact ⟨[], w, rfl⟩
    | cons c m =>
      have := squeeze_ws (p := prev) (n := none) hw c (by rw [e]; simp)
      rw [hm c (by simp)] at this; exact absurd this (by decide)
  | @next prev w s o c hw hc h ih =>
    cases m with
    | nil => exact ⟨[], _, rfl⟩
    | cons d m =>
      have key : ∀ q x : List Char, (∀ z ∈ q, isWhitespace z = true) → q ++ c :: o = x ++ d :: m ++ b →
          (c :: o = d :: m ++ b) ∨ ∃ x', o = x' ++ d :: m ++ b := by
        intro q
        induction q with
        | nil =>
          intro x _ e
          cases x with
          | nil => exact .inl e
          | cons y x => exact .inr ⟨x, (List.cons.inj e).2⟩
        | cons z q ihq =>
          intro x hq e
          cases x with
          | nil =>
            have : z = d := (List.cons.inj e).1
            have hz := hq z (by simp)
            rw [this, hm d (by simp)] at hz; exact absurd hz (by decide)
          | cons y x => exact ihq x (fun z hz => hq z (by simp [hz])) (List.cons.inj e).2
      rcases key _ a (squeeze_ws hw) e with e1 | ⟨x', e1⟩
      · obtain ⟨rfl, e2⟩ := List.cons.inj e1
        obtain ⟨b', hb⟩ := gaps_prefix h (fun c hc => hm c (by simp [hc])) e2
        exact ⟨w, b', by rw [hb]; simp⟩
      · obtain ⟨a', b', hb⟩ := ih e1
        exact ⟨w ++ c :: a', b', by rw [hb]; simp⟩

theorem gaps_mentions {prev : Option Char} {s o n : List Char} (h : Gaps squeeze prev s o) (hn : ∀ c ∈ n, isWhitespace c = false)
    (hlow : ∀ c : Char, isWhitespace c = true → c.toLower = c) (hm : Mentions n o) : Mentions n s := by
  obtain ⟨a, m, b, e, hl⟩ := hm
  have : ∀ c ∈ m, isWhitespace c = false := by
    intro c hc
    cases hw : isWhitespace c with
    | false => rfl
    | true =>
      have h1 : c.toLower ∈ n := by rw [← hl]; exact List.mem_map_of_mem hc
      rw [hlow c hw] at h1
      rw [hn c h1] at hw; exact absurd hw (by decide)
  obtain ⟨a', b', e'⟩ := gaps_infix h this e
  exact ⟨a', m, b', e', hl⟩

theorem space_low (c : Char) (h : isWhitespace c = true) : c.toLower = c := by
  unfold Char.toLower
  split
  · rename_i hc
    have h1 : 65 ≤ c.toNat := UInt32.le_iff_toNat_le.1 hc.1
    have h2 : c.toNat ≤ 90 := UInt32.le_iff_toNat_le.1 hc.2
    have : ∀ n : Fin 128, 65 ≤ n.1 → n.1 ≤ 90 → isWhitespace (Char.ofNat n.1) = false := by decide +kernel
    have h3 := this ⟨c.toNat, by omega⟩ h1 h2
    simp only [Char.ofNat_toNat] at h3
    rw [h3] at h; exact absurd h (by decide)
  · rfl

theorem condenseWhitespace_again {T : Tables} (hT : T.Ok) (s : List Char) :
    condenseWhitespace T (condenseWhitespace T s) = condenseWhitespace T s := by
  obtain ⟨h1, h2⟩ := condenseWhitespace_spec hT s
  have p1 : ∀ c ∈ "<pre".toList, isWhitespace c = false := by decide +kernel
  have p2 : ∀ c ∈ "<textarea".toList, isWhitespace c = false := by decide +kernel
  by_cases hm : Mentions "<pre".toList s ∨ Mentions "<textarea".toList s
  · have e := h1 hm
    rw [e]
    have key : ∀ n : List Char, (∀ c ∈ n, isWhitespace c = false) → Mentions n s → Mentions n (trim s) := by
      rintro n hn ⟨a, m, b, e, hl⟩
      have hmw : ∀ c ∈ m, isWhitespace c = false := by
        intro c hc
        cases hw : isWhitespace c with
        | false => rfl
        | true =>
          have h1 : c.toLower ∈ n := by rw [← hl]; exact List.mem_map_of_mem hc
          rw [space_low c hw] at h1
          rw [hn c h1] at hw; exact absurd hw (by decide)
      obtain ⟨x, y, h3, h4, h5, -⟩ := trim_spec s
      by_cases hm0 : m = []
      · subst hm0; exact ⟨[], [], trim s, rfl, hl⟩
      rw [h3] at e
      -- strip the blanks on the left, then on the right
      have left : ∀ (x a t : List Char), (∀ c ∈ x, isWhitespace c = true) → x ++ t = a ++ m ++ b → ∃ a', t = a' ++ m ++ b := by
        intro x
        induction x with
        | nil => intro a t _ e; exact ⟨a, e⟩
        | cons z x ih =>
          intro a t hx e
          cases a with
          | nil =>
            cases m with
            | nil => exact absurd rfl hm0
            | cons d m =>
              have e1 : z = d := (List.cons.inj e).1
              have hz := hx z (by simp)
              rw [e1, hmw d (by simp)] at hz; exact absurd hz (by decide)
          | cons q a => exact ih a t (fun c hc => hx c (by simp [hc])) (List.cons.inj e).2
      have right : ∀ (t y a : List Char), (∀ c ∈ y, isWhitespace c = true) → t ++ y = a ++ m ++ b → ∃ b', t = a ++ m ++ b' := by
        intro t y a hy e
        have hlen : (a ++ m).length ≤ t.length := by
          refine Nat.le_of_not_lt fun hlt => ?_
          have hlast : (t ++ y)[(a ++ m).length - 1]? = (a ++ m)[(a ++ m).length - 1]? := by
            rw [e, List.getElem?_append_left]
            have := List.length_pos_iff.2 hm0
            simp only [List.length_append] at hlt ⊢; omega
          have hpos := List.length_pos_iff.2 hm0
          rw [List.getElem?_append_right (by omega)] at hlast
          have hl2 : (a ++ m)[(a ++ m).length - 1]? = some (m.getLast hm0) := by
            rw [List.getElem?_append_right (by simp only [List.length_append]; omega)]
            have : (a ++ m).length - 1 - a.length = m.length - 1 := by simp only [List.length_append]; omega
            rw [this, ← List.getLast?_eq_getElem?, List.getLast?_eq_some_getLast hm0]
          rw [hl2] at hlast
          have hmem := List.mem_of_getElem? hlast
          have := hy _ hmem
          rw [hmw _ (List.getLast_mem hm0)] at this; exact absurd this (by decide)
        have := List.prefix_of_prefix_length_le (l₁ := a ++ m) (l₂ := t) (l₃ := t ++ y) ⟨b, by rw [e]⟩ ⟨y, rfl⟩ hlen
        obtain ⟨b', hb⟩ := this
        exact ⟨b', hb.symm⟩
      obtain ⟨a', e2⟩ := left x a (trim s ++ y) h4 (by rw [← e]; simp)
      obtain ⟨b', e3⟩ := right (trim s) y a' h5 e2
      exact ⟨a', m, b', e3, hl⟩
    have : Mentions "<pre".toList (trim s) ∨ Mentions "<textarea".toList (trim s) := hm.imp (key _ p1) (key _ p2)
    rw [(condenseWhitespace_spec hT (trim s)).1 this, trim_trim]
  · simp only [not_or] at hm
    have g := h2 hm.1 hm.2
    have g2 := (condenseWhitespace_spec hT (condenseWhitespace T s)).2
      (fun x => hm.1 (gaps_mentions g p1 space_low x)) (fun x => hm.2 (gaps_mentions g p2 space_low x))
    exact gaps_unique g2 (gaps_again g)

/-! ## Pages without tags -/

theorem replaceAllM_none {r : Re} (hs : solid r) {f : Hit → Option (List Char)} {s : List Char}
    (h : ∀ a t b, s = a ++ t ++ b → ¬ lang r t) : replaceAllM r f s = some s := by
  induction s using cut_induct hs with
  | nil => rfl
  | miss c s he ih =>
    rw [replaceAllM_miss _ he, ih (fun a t b e => h (c :: a) t b (by rw [e]; rfl))]; rfl
  | hit s x hh he ih =>
    have hm : x ∈ ends r s := by rw [he]; simp
    obtain ⟨h1, h2⟩ := ends_sound hm
    exact absurd h2 (h [] x.text x.rest (by simpa using h1))

theorem lang_lt {c : Char} {r : Re} {t : List Char} (h : lang (.seq (.c c) r) t) : c ∈ t := by
  obtain ⟨u, v, rfl, h1, -⟩ := h
  rw [lang_c.1 h1]; simp

theorem removeComments_plain {s : List Char} (h : '<' ∉ s) : removeComments s = s := by
  refine replaceAll_none solid_comment ?_
  rintro a t b rfl hl
  obtain ⟨u, rfl, -⟩ := lang_lit.1 hl
  simp at h

theorem condense_plain {T : Tables} {s : List Char} (h : '<' ∉ s) : condense T s = s := by
  refine replaceAll_none (solid_styleTag T) ?_
  rintro a t b rfl hl
  have := lang_lt hl
  simp [this] at h

theorem clean_plain {s : List Char} (h : '<' ∉ s) : cleanUnneededTags s = s := by
  refine clean_absent ?_
  rintro a t b ht rfl
  obtain ⟨u, rfl, -⟩ := listed_shape ht
  simp at h

theorem unquote_plain {T : Tables} {s : List Char} (h : '<' ∉ s) : unquoteAttributes T s = some (trim s) := by
  rw [unquoteAttributes, replaceAllM_none (solid_anyTag T)]
  · rfl
  · rintro a t b rfl hl
    have := lang_lt hl
    simp [this] at h

theorem mentions_mem {w s : List Char} (h : Mentions w s) (hw : '<' ∈ w) : '<' ∈ s := by
  obtain ⟨a, m, b, rfl, hl⟩ := h
  rw [← hl] at hw
  obtain ⟨c, hc, e⟩ := List.mem_map.1 hw
  have : c = '<' := by
    unfold Char.toLower at e
    split at e
    · rename_i hr
      have h1 : 65 ≤ c.toNat := UInt32.le_iff_toNat_le.1 hr.1
      have h2 : c.toNat ≤ 90 := UInt32.le_iff_toNat_le.1 hr.2
      have h3 := congrArg Char.toNat e
      have : ∀ n : Fin 128, 65 ≤ n.1 → n.1 ≤ 90 → (Char.ofNat n.1).toLower ≠ '<' := by decide +kernel
      have h4 := this ⟨c.toNat, by omega⟩ h1 h2
      simp only [Char.ofNat_toNat] at h4
      exfalso; apply h4
      unfold Char.toLower
      rw [dif_pos hr]; exact e
    · exact e
  subst this
  simp [hc]

theorem minify_plain {T : Tables} (hT : T.Ok) {s o : List Char} (h : '<' ∉ s) (hg : Gaps squeeze none s o) :
    minify T s = some (trim o) := by
  have e := (condenseWhitespace_spec hT s).2 (fun x => h (mentions_mem x (by decide +kernel)))
    (fun x => h (mentions_mem x (by decide +kernel)))
  have e1 := gaps_unique e hg
  have ho : '<' ∉ o := by
    intro hc
    have h1 := (shrinks_space T s).ink
    rw [e1] at h1
    have h2 : '<' ∈ ink o := by simp [ink, hc, ws_lt]
    have h3 := h1.subset h2
    exact h ((List.mem_filter.1 h3).1)
  rw [minify, removeComments_plain h, condense_plain h, clean_plain h, e1, unquote_plain ho]
  show some (trim (trim o)) = _
  rw [trim_trim]

/-- Text whose white space is single and no line break is already squeezed. -/
theorem gaps_id {s : List Char} (h : Apart s) (h1 : '\r' ∉ s) (h2 : '\n' ∉ s) (h3 : '<' ∉ s) (prev : Option Char) :
    Gaps squeeze prev s s := by
  have key : ∀ n, ∀ (s : List Char) (prev : Option Char), s.length ≤ n → Apart s → '\r' ∉ s → '\n' ∉ s → '<' ∉ s →
      Gaps squeeze prev s s := by
    intro n
    have small : ∀ (w : List Char) (b : List Char) (p q : Option Char), (∀ x ∈ w, isWhitespace x = true) → Apart (w ++ b) →
        '\r' ∉ w → '\n' ∉ w → q ≠ some '<' → squeeze p w q = w := by
      intro w b p q hw ha hr hn hq
      match w, hw, ha, hr, hn with
      | [], _, _, _, _ => rfl
      | [x], _, _, hr, hn =>
        unfold squeeze
        rw [if_neg (by simp), if_neg]
        rintro (⟨-, h⟩ | h | h | h)
        · exact hq h
        · simp at h
        · rw [h] at hr; simp at hr
        · rw [h] at hn; simp at hn
      | x :: y :: w, hw, ha, _, _ =>
        exact absurd ⟨hw x (by simp), hw y (by simp)⟩ (ha [] x y (w ++ b) rfl)
    induction n with
    | zero =>
      intro s prev hs _ _ _ _
      have : s = [] := List.eq_nil_of_length_eq_zero (by omega)
      subst this
      exact Gaps.last (g := squeeze) (w := []) (by simp)
    | succ n ih =>
      intro s prev hs ha hr hn hl
      rcases gap_split s with hw | ⟨w, c, r, rfl, hw, hc⟩
      · have := Gaps.last (g := squeeze) (prev := prev) hw
        rwa [small s [] prev none hw (by simpa using ha) hr hn (by simp)] at this
      · simp only [List.mem_append, List.mem_cons, not_or] at hr hn hl
        have hr2 : Apart r := by
          intro a x y b e
          exact ha (w ++ c :: a) x y b (by rw [e]; simp)
        have := Gaps.next (g := squeeze) (prev := prev) hw hc
          (ih r (some c) (by simp at hs; omega) hr2 hr.2.2 hn.2.2 hl.2.2)
        rwa [small w (c :: r) prev (some c) hw ha hr.1 hn.1 (fun e => hl.2.1 (by rw [Option.some.inj e]))] at this
  exact key _ s prev (Nat.le_refl _) h h1 h2 h3

theorem minify_plain_again {T : Tables} (hT : T.Ok) {s o : List Char} (h : '<' ∉ s) (hm : minify T s = some o) :
    minify T o = some o := by
  have e := (condenseWhitespace_spec hT s).2 (fun x => h (mentions_mem x (by decide +kernel)))
    (fun x => h (mentions_mem x (by decide +kernel)))
  have hm2 := minify_plain hT h e
  rw [hm] at hm2
  have ho := Option.some.inj hm2
  obtain ⟨a, b, h1, -⟩ := trim_spec (condenseWhitespace T s)
  rw [← ho] at h1
  have hlt : '<' ∉ o := by
    obtain ⟨o', h2, h3⟩ := minify_some T s
    rw [hm] at h2
    have := Option.some.inj h2
    subst this
    intro hc
    have h2 : '<' ∈ ink o := by simp [ink, hc, ws_lt]
    exact h (List.mem_filter.1 (h3.ink.subset h2)).1
  have hnb := gaps_nobreak e
  have hap := gaps_apart e
  rw [h1] at hnb hap
  simp only [List.mem_append, not_or] at hnb
  have hap2 : Apart o := by
    intro x p q y e
    exact hap (a ++ x) p q (y ++ b) (by rw [e]; simp)
  have hg := gaps_id hap2 hnb.1.1.2 hnb.2.1.2 hlt none
  rw [minify_plain hT hlt hg]
  have := trim_trim (condenseWhitespace T s)
  rw [← ho] at this
  rw [this]

end Verif.Html
