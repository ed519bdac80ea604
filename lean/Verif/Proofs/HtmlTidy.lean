import Verif.Proofs.HtmlStrewn
import Verif.Proofs.HtmlMinimal
import Verif.Spec.HtmlTidy
/-!
# What becomes of a tag on a page without preformatted text
-/
set_option linter.unusedSimpArgs false
namespace Verif.Html
open Verif.Spec.Html

theorem letter_alpha (c : Char) : letter c = c.isAlpha := by
  rw [Bool.eq_iff_iff]
  simp only [letter, Char.isAlpha, Char.isUpper, Char.isLower, Bool.or_eq_true, Bool.and_eq_true, decide_eq_true_eq, Char.le_def,
    ge_iff_le, UInt32.le_iff_toNat_le]
  exact or_comm

theorem simple_plainSign (c : Char) : simple c = plainSign c := by
  have hd : (('0' ≤ c && c ≤ '9') : Bool) = c.isDigit := by
    rw [Bool.eq_iff_iff]
    simp only [Char.isDigit, Bool.and_eq_true, decide_eq_true_eq, Char.le_def, ge_iff_le, UInt32.le_iff_toNat_le]
  rw [simple, plainSign, letter_alpha, Char.isAlphanum, hd]

theorem quotes_unquotes (s : List Char) : Unquotes s (quotes s) := by
  induction s using cut_induct solid_quotesInTag with
  | nil => exact .nil
  | miss c s he ih =>
    rw [quotes_miss he]
    refine .skip ?_ ih
    rintro k v u ⟨⟨k1, k2⟩, v1, v2⟩ e
    exact ends_nil.1 he (k ++ '=' :: '"' :: (v ++ ['"'])) u (by rw [e]; simp)
      (lang_quotes.2 ⟨k, v, rfl, k1, fun c hc => by rw [letter_alpha]; exact k2 c hc, v1, fun c hc => by rw [simple_plainSign]; exact v2 c hc⟩)
  | hit s h hh he ih =>
    obtain ⟨k, v, k1, k2, v1, v2, ht, e, eq⟩ := quotes_hit he
    rw [eq, e]
    exact .attr ⟨⟨k1, fun c hc => by rw [← letter_alpha]; exact k2 c hc⟩, v1, fun c hc => by rw [← simple_plainSign]; exact v2 c hc⟩ ih

/-- There is one result. -/
theorem unquotes_det {s o o' : List Char} (h : Unquotes s o) (h' : Unquotes s o') : o = o' := by
  induction h generalizing o' with
  | nil =>
    generalize e : ([] : List Char) = s at h'
    cases h' with
    | nil => rfl
    | skip _ _ => cases e
    | attr _ _ => exact absurd e (by simp)
  | @skip c s o hs _ ih =>
    generalize e : c :: s = s' at h'
    cases h' with
    | nil => cases e
    | skip _ h' => obtain ⟨rfl, rfl⟩ := List.cons.inj e; rw [ih h']
    | attr hq _ => exact absurd e (hs _ _ _ hq)
  | @attr k v s o hq _ ih =>
    generalize e : k ++ '=' :: '"' :: (v ++ '"' :: s) = s' at h'
    cases h' with
    | nil => exact absurd e (by simp)
    | skip hs _ => exact absurd e.symm (hs _ _ _ hq)
    | @attr k' v' s' o' hq' h' =>
      obtain ⟨rfl, -, e⟩ := class_split hq.1.2 hq'.1.2 (by decide) (by decide) e
      obtain ⟨rfl, -, rfl⟩ := class_split hq.2.2 hq'.2.2 (by decide +kernel) (by decide +kernel) (List.cons.inj e).2
      rw [ih h']

/-- The last passes over a start tag without two white space characters side by side. -/
theorem tidyTag_open {T : Tables} (hT : T.Ok) {s : List Char} (hx : '>' ∉ s) (h : Apart (s ++ ['>']))
    (hc : (startsWith "<!".toList (s ++ ['>']) || contains "</".toList (s ++ ['>'])) = false) :
    tidyTag T (s ++ ['>']) = some (quotes (shut '\'' (shut '"' (s ++ ['>'])))) := by
  unfold tidyTag
  rw [if_neg (by rw [hc]; simp)]
  simp only
  have e1 : replaceAll (spacesBeforeClose '"') (fun _ => "\">".toList) (s ++ ['>']) = shut '"' (s ++ ['>']) := rfl
  obtain ⟨y, f1, hy, -, hc⟩ := shut_spec (.inl rfl) hx
  have e2 : replaceAll (spacesBeforeClose '\'') (fun _ => "'>".toList) (y ++ ['>']) = shut '\'' (y ++ ['>']) := rfl
  obtain ⟨z, f2, hz, -, hc2⟩ := shut_spec (.inr rfl) hy
  rw [e1, f1, e2, f2]
  have step : ∀ {q : Char} {x y : List Char}, isWhitespace q = false → Apart (x ++ ['>']) →
      (y = x ∨ ∃ a w, x = a ++ q :: w ∧ w ≠ [] ∧ (∀ c ∈ w, isWhitespace c = true) ∧ y = a ++ [q]) → Apart (y ++ ['>']) := by
    rintro q x y hq hx (rfl | ⟨a, w, rfl, -, -, rfl⟩)
    · exact hx
    · rw [List.append_assoc]
      refine apart_join hq ?_ ?_
      · exact apart_left (s := q :: w ++ ['>']) (by simpa using hx)
      · exact apart_cons apart_nil (by simp)
  have ay := step (by decide +kernel) h hc
  have az := step (by decide +kernel) ay hc2
  rw [spaceLoop_apart]
  · rw [names_apart az]; rfl
  · intro a ha
    obtain ⟨p, q, e⟩ := findIter_infix (solid_betweenWords T) ha
    have hl := findIter_lang (solid_betweenWords T) ha
    refine ⟨by rw [e] at az; exact apart_infix az, ?_⟩
    obtain ⟨a1, a2, rfl, -, a3, a4, rfl, -, c, rfl, hc⟩ := hl
    exact ⟨a1 ++ a3, c, by simp, hT.word_space c hc⟩
  · intro b hb
    obtain ⟨p, q, e⟩ := findIter_infix (solid_extraSpaces3 T) hb
    rw [e] at az; exact apart_infix az

theorem snug_at {a : List Char} {q x : Char} (hx : isWhitespace x = true) (hq : q = '"' ∨ q = '\'') : snug (a ++ [q, x]) = a ++ [q] := by
  have : (a ++ [q, x]).reverse = x :: q :: a.reverse := by simp
  unfold snug
  rw [this]
  simp [hq, hx]

theorem snug_not {x : List Char} (h1 : ¬ Open '"' x) (h2 : ¬ Open '\'' x) : snug x = x := by
  unfold snug
  split
  · rename_i y q r e
    split
    · rename_i hq
      exfalso
      have hx : x = r.reverse ++ q :: [y] := by rw [← List.reverse_reverse x, e]; simp
      obtain ⟨hy, rfl | rfl⟩ := hq
      · exact h1 ⟨_, [y], hx, by simp, by simp; exact hy⟩
      · exact h2 ⟨_, [y], hx, by simp, by simp; exact hy⟩
    · rfl
  · rfl

/-- The white space after a last quote goes. -/
theorem shut_snug {x : List Char} (hx : '>' ∉ x) (ha : Apart x) :
    shut '\'' (shut '"' (x ++ ['>'])) = snug x ++ ['>'] := by
  have one : ∀ {a w : List Char} {q : Char}, x = a ++ q :: w → w ≠ [] → (∀ c ∈ w, isWhitespace c = true) →
      ∃ y, isWhitespace y = true ∧ x = a ++ [q, y] := by
    intro a w q e h1 h2
    match w, h1, h2, e with
    | [c], _, h2, e => exact ⟨c, h2 c (by simp), e⟩
    | c :: d :: w, _, h2, e =>
      exact absurd ⟨h2 c (by simp), h2 d (by simp)⟩ (ha (a ++ [q]) c d w (by rw [e]; simp))
  obtain ⟨y, f1, hy, n1, hc⟩ := shut_spec (.inl rfl) hx
  obtain ⟨z, f2, -, n2, hc2⟩ := shut_spec (.inr rfl) hy
  rw [f1, f2]
  rcases hc with rfl | ⟨a, w, e, h1, h2, rfl⟩
  · rcases hc2 with rfl | ⟨a, w, e, h1, h2, rfl⟩
    · rw [snug_not n1 n2]
    · obtain ⟨u, hu, e⟩ := one e h1 h2
      rw [e, snug_at hu (.inr rfl)]
  · obtain ⟨u, hu, e⟩ := one e h1 h2
    rw [e, snug_at hu (.inl rfl)]
    rcases hc2 with rfl | ⟨a', w', e', h1', h2', -⟩
    · rfl
    · exfalso
      have := congrArg List.getLast? e'
      rw [List.getLast?_concat] at this
      obtain ⟨w'', d, rfl⟩ : ∃ w'' d, w' = w'' ++ [d] := ⟨_, _, (List.dropLast_concat_getLast h1').symm⟩
      have e2 : a' ++ '\'' :: (w'' ++ [d]) = (a' ++ '\'' :: w'') ++ [d] := by simp
      rw [e2, List.getLast?_concat] at this
      have hd := h2' d (by simp)
      rw [← Option.some.inj this] at hd
      exact absurd hd (by decide +kernel)

/-! ## White space -/

theorem soft_last {s o : List Char} (h : Soft s o) {y : Char} (hs : s.getLast? = some y) (hy : isWhitespace y = true) :
    ∃ z, o.getLast? = some z ∧ isWhitespace z = true := by
  induction h with
  | nil => cases hs
  | @char s o c h ih =>
    cases s with
    | nil =>
      rw [(soft_void h).1 rfl]
      exact ⟨c, rfl, by simp at hs; rw [hs]; exact hy⟩
    | cons d s =>
      obtain ⟨z, h1, h2⟩ := ih (by simpa [List.getLast?_cons_cons] using hs)
      cases o with
      | nil => cases h1
      | cons x o => exact ⟨z, by rw [List.getLast?_cons_cons]; exact h1, h2⟩
  | @gap w s o h1 h2 h ih =>
    cases s with
    | nil => rw [(soft_void h).1 rfl]; exact ⟨' ', rfl, ws_sp⟩
    | cons d s =>
      obtain ⟨z, h1, h2⟩ := ih (by simpa [List.getLast?_append] using hs)
      cases o with
      | nil => cases h1
      | cons x o => exact ⟨z, by rw [List.getLast?_cons_cons]; exact h1, h2⟩

theorem soft_first {s o : List Char} (h : Soft s o) {y : Char} (hs : s.head? = some y) (hy : isWhitespace y = true) :
    ∃ z, o.head? = some z ∧ isWhitespace z = true := by
  cases h with
  | nil => cases hs
  | char c h => exact ⟨c, rfl, by simp at hs; rw [hs]; exact hy⟩
  | gap h1 h2 h => exact ⟨' ', rfl, ws_sp⟩

/-- What is left of mingled white space is blanks. -/
theorem soft_blank {s o : List Char} (h : Soft s o) (ha : Apart o) (h1 : '\r' ∉ o) (h2 : '\n' ∉ o) (hm : Mingled s) :
    ∀ c ∈ o, isWhitespace c = true → c = ' ' := by
  intro x hx hw
  obtain ⟨a, b, rfl⟩ := List.append_of_mem hx
  obtain ⟨a', b', rfl, k1, k2⟩ := soft_back h rfl
  generalize e : x :: b = o at k2
  cases k2 with
  | nil => cases e
  | @char s o c k =>
    obtain ⟨rfl, rfl⟩ := List.cons.inj e
    rcases hm a' x s rfl hw with k' | k' | k' | ⟨y, k', hy⟩ | ⟨y, k', hy⟩
    · exact k'
    · subst k'; exact absurd hx h2
    · subst k'; exact absurd hx h1
    · exfalso
      obtain ⟨z, z1, z2⟩ := soft_last k1 k' hy
      obtain ⟨a2, rfl⟩ := List.getLast?_eq_some_iff.1 z1
      exact ha a2 z x b (by simp) ⟨z2, hw⟩
    · exfalso
      obtain ⟨z, z1, z2⟩ := soft_first k k' hy
      cases b with
      | nil => cases z1
      | cons d b => simp at z1; subst z1; exact ha a x d b rfl ⟨hw, z2⟩
  | gap _ _ _ => exact (List.cons.inj e).1

theorem collapse_blank {o : List Char} (ha : Apart o) (hb : ∀ c ∈ o, isWhitespace c = true → c = ' ') : collapse false o = o := by
  have key : ∀ p, (p = true → ∀ c, o.head? = some c → isWhitespace c = false) → collapse p o = o := by
    induction o with
    | nil => intro p _; rfl
    | cons c o ih =>
      intro p hp
      have ih := ih (apart_right (a := [c]) ha) (fun d hd => hb d (by simp [hd]))
      rw [collapse]
      split
      · rename_i hc
        cases p with
        | true => rw [hp rfl c rfl] at hc; cases hc
        | false =>
          rw [if_neg (by simp), ih true, hb c (by simp) hc]
          intro _ d hd
          cases o with
          | nil => cases hd
          | cons x o =>
            simp at hd; subst hd
            cases hx : isWhitespace x with
            | false => rfl
            | true => exact absurd ⟨hc, hx⟩ (ha [] c x o rfl)
      · rw [ih false (by simp)]
  exact key false (by simp)

/-- Mingled white space is determined. -/
theorem soft_mingled {s o : List Char} (h : Soft s o) (ha : Apart o) (h1 : '\r' ∉ o) (h2 : '\n' ∉ o) (hm : Mingled s) :
    o = collapse false s := by
  rw [← soft_collapse h, collapse_blank ha (soft_blank h ha h1 h2 hm)]

/-- A start tag. -/
theorem tidy_out {T : Tables} (hT : T.Ok) {t t2 : List Char} {h : Char} (hs : Soft t t2) (ha : Apart t2) (h2 : '\n' ∉ t2)
    (x4 : '<' ∉ t2) (x5 : '>' ∉ t2) (hh : t.head? = some h) (hw : T.word h = true) :
    tagOut T t2 = some (quotes (snug ('<' :: t2) ++ ['>'])) := by
  have hsp := hT.word_space h hw
  obtain ⟨r, rfl⟩ : ∃ r, t2 = h :: r := by
    cases t with
    | nil => cases hh
    | cons c t =>
      simp at hh; subst hh
      obtain ⟨o, rfl, -⟩ := soft_hard (x := [c]) (by simp; exact hsp) hs
      exact ⟨o, rfl⟩
  rw [tagOut_start x4 x5 hT rfl hw (by simp at h2; exact h2.2)]
  have a1 : Apart ('<' :: h :: r) := apart_cons ha (by rintro d - ⟨h, -⟩; rw [ws_lt] at h; cases h)
  have g1 : '>' ∉ '<' :: h :: r := by
    intro hx
    rcases List.mem_cons.1 hx with hx | hx
    · exact absurd hx (by decide)
    · exact x5 hx
  have hne : ∀ d, d.toNat < 128 → (d.isAlphanum || d == '_') = false → h ≠ d := by
    rintro d hd1 hd2 rfl
    rw [hT.word_ascii _ hd1, hd2] at hw; cases hw
  have := tidyTag_open hT (s := '<' :: h :: r) g1 (apart_join (b := []) ws_gt a1 apart_nil) (by
    rw [Bool.eq_false_iff]
    intro k
    rw [Bool.or_eq_true] at k
    rcases k with k | k
    · obtain ⟨u, k⟩ := startsWith_iff.1 k
      exact hne '!' (by decide) (by decide) (List.cons.inj (List.cons.inj k).2).1
    · obtain ⟨a, b, k⟩ := contains_iff.1 k
      cases a with
      | nil => exact hne '/' (by decide) (by decide) (List.cons.inj (List.cons.inj k).2).1
      | cons d a =>
        have k := (List.cons.inj k).2
        have : '<' ∈ (h :: r) ++ ['>'] := by
          rw [show (h :: r) ++ ['>'] = _ from k]; simp
        rcases List.mem_append.1 this with k | k
        · exact x4 k
        · exact absurd k (by decide))
  rw [shut_snug g1 a1] at this
  exact this

/-- Other tags. -/
theorem notStart_out {T : Tables} (hT : T.Ok) {t t2 : List Char} (hs : Soft t t2) (x4 : '<' ∉ t2) (hn : NotStart t) :
    tagOut T t2 = some ('<' :: (t2 ++ ['>'])) := by
  obtain ⟨c, u, rfl, hc⟩ := hn
  obtain ⟨o, rfl, -⟩ := soft_hard (x := [c]) (by
    intro d hd; simp at hd; subst hd
    rcases hc with rfl | rfl | rfl <;> decide +kernel) hs
  exact tagOut_notStart hT x4 ⟨c, o, rfl, hc⟩

theorem minify_tidy {T : Tables} (hT : T.Ok) {P : List Seg} (hP : Page P) (hn : ∀ t, Seg.tag t ∈ P → ¬ Pre t) :
    ∃ P' Q, minify T (render P) = some (trim (render Q)) ∧ (∀ x ∈ Q, Seg.Plain x) ∧ Rewritten (· = ·) P P' ∧
      Alike (fun t t' => ¬ Styled t → Mingled t →
        ((∃ h, t.head? = some h ∧ T.word h = true) → Unquotes (snug ('<' :: collapse false t) ++ ['>']) ('<' :: t' ++ ['>'])) ∧
        (NotStart t → t' = collapse false t)) P' Q := by
  obtain ⟨P', Q, h1, h2, h3, h4, h5⟩ := minify_apart hT hP hn
  refine ⟨P', Q, h1, h2, h3, h4, pairs_mono h5 ?_⟩
  intro t t' hr hst hm
  obtain ⟨t2, k1, k2, k3, k4, k5, k6, k7⟩ := hr hst
  refine ⟨?_, ?_⟩
  · rintro ⟨h, g1, g2⟩
    rw [tidy_out hT k1 k2 k4 k5 k6 g1 g2, soft_mingled k1 k2 k3 k4 hm] at k7
    rw [List.cons_append, ← Option.some.inj k7]
    exact quotes_unquotes _
  · intro hns
    rw [notStart_out hT k1 k5 hns, soft_mingled k1 k2 k3 k4 hm] at k7
    exact (List.append_inj_left' (List.cons.inj (Option.some.inj k7)).2 rfl).symm

end Verif.Html
