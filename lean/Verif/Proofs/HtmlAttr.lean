import Verif.Proofs.HtmlShrink
import Verif.Spec.HtmlTag
/-!
# What `unquote_attributes` does to a tag, as a browser reads it
-/
set_option linter.unusedSimpArgs false
namespace Verif.Html
open Verif.Spec.Html

theorem run_nil (r : Reader) : r.run [] = r := rfl
theorem run_cons (r : Reader) (c : Char) (s : List Char) : r.run (c :: s) = (r.step c).run s := rfl
theorem run_append (r : Reader) (a b : List Char) : r.run (a ++ b) = (r.run a).run b := by
  simp [Reader.run]

theorem tame_append {r : Reader} {a b : List Char} (h : Tame r (a ++ b)) : Tame (r.run a) b := by
  induction a generalizing r with
  | nil => exact h
  | cons c a ih => exact ih h.2

/-! ## White space -/

/-- Some gaps of two or more characters are one blank instead. -/
inductive Loose : List Char → List Char → Prop
  | nil : Loose [] []
  | char {s o : List Char} (c : Char) : Loose s o → Loose (c :: s) (c :: o)
  | gap {w s o : List Char} : 2 ≤ w.length → (∀ c ∈ w, isWhitespace c = true) → Loose s o → Loose (w ++ s) (' ' :: o)

theorem Loose.app {a b c d : List Char} (h : Loose a b) (h' : Loose c d) : Loose (a ++ c) (b ++ d) := by
  induction h with
  | nil => exact h'
  | char c _ ih => exact .char c ih
  | gap h1 h2 _ ih => rw [List.append_assoc]; exact .gap h1 h2 ih

theorem Loose.refl (s : List Char) : Loose s s := by
  induction s with
  | nil => exact .nil
  | cons c s ih => exact .char c ih

theorem loose_piecewise : Piecewise Loose := ⟨.nil, fun c => .char c .nil, fun _ _ _ _ h h' => h.app h'⟩

theorem loose_head {s o : List Char} (h : Loose s o) :
    s.head? = o.head? ∨ ∃ c, s.head? = some c ∧ isWhitespace c = true ∧ o.head? = some ' ' := by
  cases h with
  | nil => exact .inl rfl
  | char c _ => exact .inl rfl
  | @gap w s o h1 h2 _ =>
    cases w with
    | nil => simp at h1
    | cons c w => exact .inr ⟨c, rfl, h2 c (by simp), rfl⟩

theorem blank_sp : blank ' ' = true := by decide +kernel

theorem step_blank (r : Reader) {x y : Char} (hq : r.st.quoted = false) (hx : blank x = true) (hy : blank y = true) :
    r.step x = r.step y ∧ (r.step x).step y = r.step x ∧ (r.step x).st.quoted = false := by
  have n1 : ∀ {z : Char}, blank z = true → z ≠ '<' := by rintro z hz rfl; exact absurd hz (by decide +kernel)
  have n2 : ∀ {z : Char}, blank z = true → z ≠ '>' := by rintro z hz rfl; exact absurd hz (by decide +kernel)
  have n3 : ∀ {z : Char}, blank z = true → z.isAlpha = false := by
    intro z hz
    simp only [blank, Bool.or_eq_true, beq_iff_eq] at hz
    rcases hz with (((rfl | rfl) | rfl) | rfl) | rfl <;> decide +kernel
  obtain ⟨st, tag, attrs⟩ := r
  cases st <;> simp [Reader.step, Reader.begin, Reader.to, Reader.put, hx, hy, n1 hx, n1 hy, n2 hx, n2 hy, n3 hx, n3 hy, St.quoted]
    at hq ⊢

theorem run_blanks (r : Reader) {w : List Char} (hq : r.st.quoted = false) (hw : ∀ c ∈ w, blank c = true) (hne : w ≠ []) :
    r.run w = r.step ' ' := by
  induction w generalizing r with
  | nil => exact absurd rfl hne
  | cons c w ih =>
    have hc := hw c (by simp)
    have h := step_blank r hq hc blank_sp
    by_cases h0 : w = []
    · subst h0; exact h.1
    · rw [run_cons, ih (r.step c) h.2.2 (fun x hx => hw x (by simp [hx])) h0, h.2.1, h.1]

/-- A tame tag stays tame and reads the same if gaps of two and more are replaced by one blank. -/
theorem loose_tame {s o : List Char} (h : Loose s o) {r : Reader} (ht : Tame r s) : Tame r o ∧ r.run o = r.run s := by
  induction h generalizing r with
  | nil => exact ⟨trivial, rfl⟩
  | @char s o c h ih =>
    obtain ⟨h1, h2⟩ := ih ht.2
    refine ⟨⟨?_, h1⟩, by rw [run_cons, run_cons, h2]⟩
    have hd := loose_head h
    refine ⟨?_, ?_⟩
    · intro hc
      rcases ht.1.1 hc with h3 | ⟨n, v, h3, d, h4, h5⟩
      · exact .inl h3
      · refine .inr ⟨n, v, h3, ?_⟩
        rcases hd with hd | ⟨x, -, -, hd⟩
        · exact ⟨d, by rw [← hd]; exact h4, h5⟩
        · exact ⟨' ', hd, .inl blank_sp⟩
    · intro hc
      have h3 := ht.1.2 hc
      split
      · rename_i hq
        rw [if_pos hq] at h3
        intro d hd'
        rcases hd with hd | ⟨x, hx, hw, -⟩
        · exact h3 d (by rw [hd]; exact hd')
        · rw [h3 x hx] at hw; exact absurd hw (by decide)
      · rename_i hq
        rw [if_neg hq] at h3
        exact h3
  | @gap w s o h1 h2 h ih =>
    have hq : r.st.quoted = false := by
      match w, h1, h2, ht with
      | x :: y :: w, _, h2, ht =>
        cases hq : r.st.quoted with
        | false => rfl
        | true =>
          have := ht.1.2 (h2 x (by simp))
          rw [if_pos hq] at this
          have := this y rfl
          rw [h2 y (by simp)] at this; exact absurd this (by decide)
    have hb : ∀ (w : List Char) (r : Reader), r.st.quoted = false → (∀ c ∈ w, isWhitespace c = true) → Tame r (w ++ s) →
        ∀ c ∈ w, blank c = true := by
      intro w
      induction w with
      | nil => intro r _ _ _ c hc; simp at hc
      | cons x w ihw =>
        intro r hq hw ht c hc
        have hx := ht.1.2 (hw x (by simp))
        rw [if_neg (by rw [hq]; decide)] at hx
        rcases List.mem_cons.1 hc with rfl | hc
        · exact hx
        · exact ihw (r.step x) (step_blank r hq hx blank_sp).2.2 (fun z hz => hw z (by simp [hz])) ht.2 c hc
    have hb := hb w r hq h2 ht
    have hr := run_blanks r hq hb (by intro e; rw [e] at h1; simp at h1)
    have ht2 := tame_append ht
    rw [hr] at ht2
    obtain ⟨h3, h4⟩ := ih ht2
    refine ⟨⟨⟨by intro e; exact absurd e (by decide), ?_⟩, h3⟩, ?_⟩
    · intro _
      rw [if_neg (by rw [hq]; decide)]; exact blank_sp
    · rw [run_cons, run_append, hr, h4]

theorem lang_extraSpaces {t : List Char} (h : lang extraSpaces t) : 2 ≤ t.length ∧ ∀ c ∈ t, isWhitespace c = true := by
  have hsp : ∀ c : Char, (c == ' ') = true → isWhitespace c = true := by
    intro c hc; rw [beq_iff_eq.1 hc]; exact ws_sp
  rcases h with ⟨u, v, rfl, h1, h2⟩ | ⟨u, v, rfl, ⟨c, rfl, hc⟩, h2⟩
  · rw [lang_c.1 h1]
    obtain ⟨h3, h4⟩ := lang_plus.1 h2
    have := List.length_pos_iff.2 h3
    refine ⟨by simp; omega, ?_⟩
    intro c hc
    rcases List.mem_append.1 hc with hc | hc
    · rw [List.mem_singleton.1 hc]; exact ws_sp
    · exact h4 c hc
  · obtain ⟨h3, h4⟩ := lang_plus.1 h2
    have := List.length_pos_iff.2 h3
    refine ⟨by simp; omega, ?_⟩
    intro d hd
    rcases List.mem_append.1 hd with hd | hd
    · rw [List.mem_singleton.1 hd]; exact hc
    · exact hsp d (h4 d hd)

theorem loose_oneSpace (s : List Char) : Loose s (oneSpace s) := by
  refine replaceAll_rel loose_piecewise solid_extraSpaces s ?_
  intro u h hm
  obtain ⟨h1, h2⟩ := lang_extraSpaces (ends_sound hm).2
  have := Loose.gap h1 h2 .nil
  rwa [List.append_nil] at this

theorem spaceLoop_tame (as bs : List (List Char)) (tag : List Char) {r : Reader} (h : Tame r tag) :
    Tame r (spaceLoop as bs tag) ∧ r.run (spaceLoop as bs tag) = r.run tag := by
  unfold spaceLoop
  induction replacements as bs generalizing tag with
  | nil => exact ⟨h, rfl⟩
  | cons x xs ih =>
    obtain ⟨h1, h2⟩ := loose_tame (replaceStr_rel loose_piecewise tag (loose_oneSpace x)) h
    obtain ⟨h3, h4⟩ := ih _ h1
    exact ⟨h3, by rw [List.foldl_cons, h4, h2]⟩

theorem nameLoop_tame {T : Tables} (ms : List (List Char)) (hms : ∀ m ∈ ms, lang (extraSpaces2 T) m) {s o : List Char}
    (ho : nameLoop ms s = some o) {r : Reader} (h : Tame r s) : Tame r o ∧ r.run o = r.run s := by
  induction ms generalizing s with
  | nil =>
    rw [nameLoop] at ho
    rw [← Option.some.inj ho]
    exact ⟨h, rfl⟩
  | cons m ms ih =>
    obtain ⟨q, a, b, x, -, rfl, ha, hb⟩ := lang_extraSpaces2 (hms m (by simp))
    rw [nameLoop] at ho
    cases hf : from1 (q :: a :: b :: x) with
    | none => rw [hf] at ho; simp at ho
    | some y =>
      rw [hf] at ho
      have hy : y = a :: b :: x := by
        rw [from1] at hf
        split at hf
        · exact (Option.some.inj hf).symm
        · simp at hf
      subst hy
      have hl : Loose (q :: a :: b :: x) ((q :: a :: b :: x).take 1 ++ ' ' :: trimStart (a :: b :: x)) := by
        obtain ⟨w, h1, h2, h3⟩ := dropWhile_split space (a :: b :: x)
        refine Loose.char q ?_
        show Loose (a :: b :: x) (' ' :: (a :: b :: x).dropWhile space)
        have hlen : 2 ≤ w.length := by
          match w, h1 with
          | [], h1 =>
            have := h3 a (by rw [← (show a :: b :: x = (a :: b :: x).dropWhile space from h1)]; rfl)
            rw [show space a = true from ha] at this; exact absurd this (by decide)
          | [z], h1 =>
            have h4 : b :: x = (a :: b :: x).dropWhile space := (List.cons.inj h1).2
            have := h3 b (by rw [← h4]; rfl)
            rw [show space b = true from hb] at this; exact absurd this (by decide)
          | _ :: _ :: _, _ => simp
        have := Loose.gap hlen h2 (.refl ((a :: b :: x).dropWhile space))
        rwa [← h1] at this
      obtain ⟨h1, h2⟩ := loose_tame (replaceStr_rel loose_piecewise s hl) h
      obtain ⟨h3, h4⟩ := ih (fun m hm => hms m (by simp [hm])) ho h1
      exact ⟨h3, by rw [h4, h2]⟩

/-! ## The end of the tag -/

theorem replaceAll_close {q : Char} {x : List Char} (hx : '>' ∉ x) :
    replaceAll (spacesBeforeClose q) (fun _ => [q, '>']) (x ++ ['>']) = x ++ ['>'] ∨
    ∃ a w, x = a ++ q :: w ∧ w ≠ [] ∧ (∀ c ∈ w, isWhitespace c = true) ∧
      replaceAll (spacesBeforeClose q) (fun _ => [q, '>']) (x ++ ['>']) = a ++ [q, '>'] := by
  induction x with
  | nil =>
    left
    refine replaceAll_none (solid_spacesBeforeClose q) ?_
    intro a t b e hl
    obtain ⟨w, rfl, hw, -⟩ := lang_spacesBeforeClose.1 hl
    have h1 := congrArg List.length e
    have h2 := List.length_pos_iff.2 hw
    simp at h1; omega
  | cons c x ih =>
    simp only [List.mem_cons, not_or] at hx
    cases he : ends (spacesBeforeClose q) (c :: x ++ ['>']) with
    | nil =>
      have he' : ends (spacesBeforeClose q) (c :: (x ++ ['>'])) = [] := he
      have e1 := replaceAll_miss (fun _ => [q, '>']) he'
      rcases ih hx.2 with h | ⟨a, w, h1, h2, h3, h4⟩
      · left; rw [List.cons_append, e1, h]
      · right
        exact ⟨c :: a, w, by rw [h1]; rfl, h2, h3, by rw [List.cons_append, e1, h4]; rfl⟩
    | cons k kk =>
      right
      have hk : k ∈ ends (spacesBeforeClose q) (c :: x ++ ['>']) := by rw [he]; simp
      obtain ⟨h1, h2⟩ := ends_sound hk
      obtain ⟨w, h3, h4, h5⟩ := lang_spacesBeforeClose.1 h2
      rw [h3] at h1
      have hw : '>' ∉ w := by
        intro hc
        have := h5 _ hc
        rw [ws_gt] at this; exact absurd this (by decide)
      have e : c :: x ++ '>' :: [] = (q :: w) ++ '>' :: k.rest := by rw [h1]; simp
      have key : ∀ (a b : List Char) {u v : List Char}, '>' ∉ a → '>' ∉ b → a ++ '>' :: u = b ++ '>' :: v → a = b ∧ u = v := by
        intro a
        induction a with
        | nil =>
          intro b u v _ hb e
          cases b with
          | nil => exact ⟨rfl, (List.cons.inj e).2⟩
          | cons z b => simp only [List.mem_cons, not_or] at hb; exact absurd (List.cons.inj e).1 hb.1
        | cons y a iha =>
          intro b u v ha hb e
          simp only [List.mem_cons, not_or] at ha
          cases b with
          | nil => exact absurd (List.cons.inj e).1.symm ha.1
          | cons z b =>
            simp only [List.mem_cons, not_or] at hb
            obtain ⟨h1, h2⟩ := iha b ha.2 hb.2 (List.cons.inj e).2
            exact ⟨by rw [(List.cons.inj e).1, h1], h2⟩
      have hq : '>' ∉ q :: w := by
        have hcq : c = q := by
          have := (List.cons.inj h1).1; exact this
        rw [List.mem_cons, not_or]; rw [← hcq]; exact ⟨hx.1, hw⟩
      obtain ⟨h6, h7⟩ := key (c :: x) (q :: w) (by simp [hx]) hq e
      refine ⟨[], w, h6, h4, h5, ?_⟩
      rw [replaceAll_hit (solid_spacesBeforeClose q) _ he, ← h7]
      rfl

theorem step_close (r : Reader) {c : Char} (hc : blank c = true) (hq : r.st.quoted = false) (h1 : r.st ≠ .slash)
    (h2 : r.st ≠ .data) (h3 : r.st ≠ .tagOpen) (h4 : ∀ b, r.st ≠ .closed b) : (r.step c).step '>' = r.step '>' := by
  have n2 : c ≠ '>' := by rintro rfl; exact absurd hc (by decide +kernel)
  have n3 : c ≠ '/' := by rintro rfl; exact absurd hc (by decide +kernel)
  have n4 : blank '>' = false := by decide +kernel
  obtain ⟨st, tag, attrs⟩ := r
  cases st <;> simp_all [Reader.step, Reader.begin, Reader.to, Reader.put, St.quoted]

theorem step_quote (r : Reader) {q : Char} (hq : q = '"' ∨ q = '\'') :
    (r.step q).st ≠ .slash ∧ (r.step q).st ≠ .data ∧ (r.step q).st ≠ .tagOpen ∧ ∀ b, (r.step q).st ≠ .closed b := by
  have b1 : blank '"' = false := by decide +kernel
  have b2 : blank '\'' = false := by decide +kernel
  have a1 : Char.isAlpha '"' = false := by decide +kernel
  have a2 : Char.isAlpha '\'' = false := by decide +kernel
  obtain ⟨st, tag, attrs⟩ := r
  rcases hq with rfl | rfl
  · cases st <;> simp [Reader.step, Reader.begin, Reader.to, Reader.put, b1, a1]
    all_goals (split <;> simp)
  · cases st <;> simp [Reader.step, Reader.begin, Reader.to, Reader.put, b2, a2]
    all_goals (split <;> simp)

/-- What the reader has got at the end. -/
def result (r : Reader) : Option (List Char × List (List Char × List Char) × Bool) :=
  match r.st with
  | .closed b => some (r.tag, r.attrs, b)
  | _ => none

theorem readTag_eq (s : List Char) : readTag s = result (Reader.init.run s) := rfl

theorem quoted_stays (r : Reader) {w : List Char} (hq : r.st.quoted = true) (hw : ∀ c ∈ w, c ≠ '"' ∧ c ≠ '\'') :
    (r.run w).st.quoted = true := by
  induction w generalizing r with
  | nil => exact hq
  | cons c w ih =>
    refine ih (r.step c) ?_ (fun x hx => hw x (by simp [hx]))
    have h := hw c (by simp)
    obtain ⟨st, tag, attrs⟩ := r
    cases st <;> simp_all [Reader.step, Reader.to, St.quoted]

theorem result_quoted {r : Reader} (h : r.st.quoted = true) : result r = none := by
  obtain ⟨st, tag, attrs⟩ := r
  cases st <;> simp_all [result, St.quoted]

theorem ws_quote {c : Char} (h : isWhitespace c = true) : c ≠ '"' ∧ c ≠ '\'' := by
  constructor
  · rintro rfl; exact absurd h (by decide +kernel)
  · rintro rfl; exact absurd h (by decide +kernel)

theorem close_tame {q : Char} (hq : q = '"' ∨ q = '\'') {x : List Char} (hx : '>' ∉ x) {r : Reader} (h : Tame r (x ++ ['>'])) :
    ∃ y, replaceAll (spacesBeforeClose q) (fun _ => [q, '>']) (x ++ ['>']) = y ++ ['>'] ∧ '>' ∉ y ∧
      Tame r (y ++ ['>']) ∧ result (r.run (y ++ ['>'])) = result (r.run (x ++ ['>'])) := by
  rcases replaceAll_close (q := q) hx with e | ⟨a, w, rfl, h1, h2, e⟩
  · exact ⟨x, e, hx, h, rfl⟩
  · refine ⟨a ++ [q], by rw [e]; simp, ?_, ?_, ?_⟩
    · intro hc
      apply hx
      rcases List.mem_append.1 hc with hc | hc
      · exact List.mem_append_left _ hc
      · exact List.mem_append_right _ (by rw [List.mem_singleton.1 hc]; simp)
    · have key : ∀ (a : List Char) (r : Reader), Tame r (a ++ q :: w ++ ['>']) → Tame r (a ++ [q] ++ ['>']) := by
        intro a
        induction a with
        | nil =>
          intro r h
          refine ⟨⟨?_, ?_⟩, ⟨by intro e; exact absurd e (by decide), ?_⟩, trivial⟩
          · intro hc
            rcases h.1.1 hc with h3 | ⟨n, v, h3, -⟩
            · exact .inl h3
            · exact .inr ⟨n, v, h3, '>', rfl, .inr (.inl rfl)⟩
          · intro hc
            rcases hq with rfl | rfl
            · exact absurd hc (by decide +kernel)
            · exact absurd hc (by decide +kernel)
          · intro hc; rw [ws_gt] at hc; exact absurd hc (by decide)
        | cons c a ih =>
          intro r h
          refine ⟨?_, ih _ h.2⟩
          have h1 := h.1
          have hd : (a ++ [q] ++ ['>']).head? = (a ++ q :: w ++ ['>']).head? := by cases a <;> rfl
          have key : ∀ (u v : List Char), u.head? = v.head? → TameAt r.st c v → TameAt r.st c u := by
            intro u v e h; unfold TameAt at h ⊢; rw [e]; exact h
          exact key _ _ hd h1
      exact key a r h
    · have e1 : a ++ [q] ++ ['>'] = a ++ (q :: ['>']) := by simp
      have e2 : a ++ q :: w ++ ['>'] = a ++ (q :: (w ++ ['>'])) := by simp
      rw [e1, e2, run_append r a, run_append r a, run_cons, run_cons, run_nil, run_cons, run_append _ w, run_cons, run_nil]
      have ht := tame_append (a := a ++ [q]) (b := w ++ ['>']) (by simpa using h)
      rw [run_append, run_cons, run_nil] at ht
      obtain ⟨k1, k2, k3, k4⟩ := step_quote (r.run a) hq
      generalize (r.run a).step q = p at *
      cases hp : p.st.quoted with
      | true =>
        rw [result_quoted, result_quoted]
        · have := quoted_stays p (w := w ++ ['>']) hp (by
            intro c hc
            rcases List.mem_append.1 hc with hc | hc
            · exact ws_quote (h2 c hc)
            · rw [List.mem_singleton.1 hc]; decide)
          rwa [run_append] at this
        · exact quoted_stays p (w := ['>']) hp (by simp)
      | false =>
        have hb : ∀ (w : List Char) (r : Reader), r.st.quoted = false → (∀ c ∈ w, isWhitespace c = true) →
            Tame r (w ++ ['>']) → ∀ c ∈ w, blank c = true := by
          intro w
          induction w with
          | nil => intro r _ _ _ c hc; simp at hc
          | cons x w ihw =>
            intro r hq hw ht c hc
            have hx := ht.1.2 (hw x (by simp))
            rw [if_neg (by rw [hq]; decide)] at hx
            rcases List.mem_cons.1 hc with rfl | hc
            · exact hx
            · exact ihw (r.step x) (step_blank r hq hx blank_sp).2.2 (fun z hz => hw z (by simp [hz])) ht.2 c hc
        rw [run_blanks p hp (hb w p hp h2 ht) h1, step_close p blank_sp hp k1 k2 k3 k4]

/-! ## Quotes -/

theorem simple_facts {c : Char} (h : simple c = true) :
    blank c = false ∧ c ≠ '"' ∧ c ≠ '\'' ∧ c ≠ '>' ∧ c ≠ '/' ∧ c ≠ '=' := by
  have hlt : c.toNat < 128 := by
    simp only [simple, letter, Bool.or_eq_true, Bool.and_eq_true, decide_eq_true_eq, beq_iff_eq] at h
    rcases h with ((((⟨-, h⟩ | ⟨-, h⟩) | ⟨-, h⟩) | h) | h) | h
    · have := UInt32.le_iff_toNat_le.1 h; exact Nat.lt_of_le_of_lt this (by decide)
    · have := UInt32.le_iff_toNat_le.1 h; exact Nat.lt_of_le_of_lt this (by decide)
    · have := UInt32.le_iff_toNat_le.1 h; exact Nat.lt_of_le_of_lt this (by decide)
    all_goals (subst h; decide)
  have : ∀ n : Fin 128, simple (Char.ofNat n.1) = true → blank (Char.ofNat n.1) = false ∧ Char.ofNat n.1 ≠ '"' ∧
      Char.ofNat n.1 ≠ '\'' ∧ Char.ofNat n.1 ≠ '>' ∧ Char.ofNat n.1 ≠ '/' ∧ Char.ofNat n.1 ≠ '=' := by decide +kernel
  have h2 := this ⟨c.toNat, hlt⟩
  simp only [Char.ofNat_toNat] at h2
  exact h2 h

theorem run_dq (r : Reader) {n v u : List Char} (hr : r.st = .dq n v) (hu : ∀ c ∈ u, c ≠ '"') :
    r.run u = r.to (.dq n (v ++ u)) := by
  induction u generalizing r v with
  | nil => obtain ⟨st, tag, attrs⟩ := r; simp at hr; simp [run_nil, Reader.to, hr]
  | cons c u ih =>
    have hc := hu c (by simp)
    have e : r.step c = r.to (.dq n (v ++ [c])) := by unfold Reader.step; rw [hr]; simp [hc]
    rw [run_cons, e, ih _ rfl (fun x hx => hu x (by simp [hx]))]
    simp [Reader.to]

theorem run_unq (r : Reader) {n v u : List Char} (hr : r.st = .unq n v) (hu : ∀ c ∈ u, simple c = true) :
    r.run u = r.to (.unq n (v ++ u)) := by
  induction u generalizing r v with
  | nil => obtain ⟨st, tag, attrs⟩ := r; simp at hr; simp [run_nil, Reader.to, hr]
  | cons c u ih =>
    obtain ⟨h1, h2, h3, h4, -⟩ := simple_facts (hu c (by simp))
    have e : r.step c = r.to (.unq n (v ++ [c])) := by unfold Reader.step; rw [hr]; simp [h1, h4]
    rw [run_cons, e, ih _ rfl (fun x hx => hu x (by simp [hx]))]
    simp [Reader.to]

theorem run_value (r : Reader) {n u : List Char} (hr : r.st = .beforeValue n) (hne : u ≠ []) (hu : ∀ c ∈ u, simple c = true) :
    r.run ('"' :: (u ++ ['"'])) = r.put n u .afterQuoted ∧ r.run u = r.to (.unq n u) := by
  have hbq : blank '"' = false := by decide +kernel
  constructor
  · have e : r.step '"' = r.to (.dq n []) := by unfold Reader.step; rw [hr]; simp [hbq]
    rw [run_cons, run_append, e, run_dq _ (u := u) rfl (fun c hc => (simple_facts (hu c hc)).2.1)]
    simp [run_cons, run_nil, Reader.step, Reader.to, Reader.put]
  · cases u with
    | nil => exact absurd rfl hne
    | cons c u =>
      obtain ⟨h1, h2, h3, h4, -⟩ := simple_facts (hu c (by simp))
      have e : r.step c = r.to (.unq n [c]) := by unfold Reader.step; rw [hr]; simp [h1, h2, h3, h4]
      rw [run_cons, e, run_unq _ (u := u) rfl (fun x hx => hu x (by simp [hx]))]
      simp [Reader.to]

theorem step_merge (r : Reader) (n v : List Char) {d : Char} (hd : blank d = true ∨ d = '>') :
    (r.put n v .afterQuoted).step d = (r.to (.unq n v)).step d := by
  rcases hd with hd | rfl
  · simp [Reader.step, Reader.put, Reader.to, Reader.begin, hd]
  · have : blank '>' = false := by decide +kernel
    simp [Reader.step, Reader.put, Reader.to, Reader.begin, this]

theorem letter_facts {c : Char} (h : letter c = true) : blank c = false ∧ c ≠ '>' ∧ c ≠ '/' ∧ c ≠ '=' := by
  have : simple c = true := by simp [simple, h]
  exact ⟨(simple_facts this).1, (simple_facts this).2.2.2.1, (simple_facts this).2.2.2.2.1, (simple_facts this).2.2.2.2.2⟩

theorem lang_quotes_head {c : Char} {s t u : List Char} (h : c :: s = t ++ u) (hl : lang quotesInTag t) : letter c = true := by
  obtain ⟨x, y, rfl, h1, -⟩ := hl
  obtain ⟨h2, h3⟩ := lang_plus.1 (show lang (.plus letter) x from h1)
  cases x with
  | nil => exact absurd rfl h2
  | cons d x =>
    have : c = d := (List.cons.inj h).1
    rw [this]; exact h3 d (by simp)

/-- A name that ends with these letters. -/
def namedBy (u : List Char) : St → Prop
  | .name n => u <:+ n
  | .tagName | .unq _ _ | .dq _ _ | .sq _ _ | .bad => True
  | _ => False

theorem run_letters (r : Reader) {u : List Char} (hne : u ≠ []) (hu : ∀ c ∈ u, letter c = true) : namedBy u (r.run u).st := by
  have h0 : ∀ (r : Reader) (c : Char), letter c = true → namedBy [c] (r.step c).st := by
    intro r c hc
    obtain ⟨h1, h2, h3, h4⟩ := letter_facts hc
    obtain ⟨x1, x2, x3, -⟩ := simple_facts (c := c) (by simp [simple, hc])
    have h5 : c ≠ '<' := by rintro rfl; exact absurd hc (by decide +kernel)
    obtain ⟨st, t, as⟩ := r
    rcases Bool.eq_false_or_eq_true c.isAlpha with ha | ha <;>
      cases st <;> simp [Reader.step, Reader.begin, Reader.to, Reader.put, h1, h2, h3, h4, h5, x2, x3, ha, namedBy]
  have h1 : ∀ (r : Reader) (u : List Char) (c : Char), letter c = true → namedBy u r.st → namedBy (u ++ [c]) (r.step c).st := by
    intro r u c hc h
    obtain ⟨h1, h2, h3, h4⟩ := letter_facts hc
    obtain ⟨x1, x2, x3, -⟩ := simple_facts (c := c) (by simp [simple, hc])
    obtain ⟨st, t, as⟩ := r
    cases st <;> simp [Reader.step, Reader.begin, Reader.to, Reader.put, h1, h2, h3, h4, x2, x3, namedBy] at h ⊢
    obtain ⟨z, rfl⟩ := h
    exact ⟨z, by simp⟩
  have h2 : ∀ (v u : List Char) (r : Reader), (∀ c ∈ v, letter c = true) → namedBy u r.st → namedBy (u ++ v) (r.run v).st := by
    intro v
    induction v with
    | nil => intro u r _ h; rw [List.append_nil]; exact h
    | cons c v ih =>
      intro u r hv h
      have := ih (u ++ [c]) (r.step c) (fun x hx => hv x (by simp [hx])) (h1 r u c (hv c (by simp)) h)
      rwa [List.append_assoc] at this
  cases u with
  | nil => exact absurd rfl hne
  | cons c u => exact h2 u [c] (r.step c) (fun x hx => hu x (by simp [hx])) (h0 r c (hu c (by simp)))

theorem run_name_eq (r : Reader) {u n : List Char} (hne : u ≠ []) (hu : ∀ c ∈ u, letter c = true)
    (h : (r.run (u ++ ['='])).st = .beforeValue n) : u <:+ n := by
  have h1 := run_letters r hne hu
  rw [run_append] at h
  generalize r.run u = q at *
  have hb : blank '=' = false := by decide +kernel
  obtain ⟨st, t, as⟩ := q
  cases st <;> simp [run_cons, run_nil, Reader.step, Reader.to, namedBy, hb] at h h1
  rw [← h]; exact h1

theorem quotes_tame {s : List Char} {r : Reader} (h : Tame r s) : r.run (replaceAll quotesInTag unquote s) = r.run s := by
  induction s using cut_induct solid_quotesInTag generalizing r with
  | nil => rfl
  | miss c s he ih =>
    rw [replaceAll_miss _ he, run_cons, run_cons, ih h.2]
  | hit s k kk he ih =>
    have hk : k ∈ ends quotesInTag s := by rw [he]; simp
    obtain ⟨hs, -⟩ := ends_sound hk
    obtain ⟨ht, m1, m2, v1, v2⟩ := quotes_caps hk
    rw [replaceAll_hit solid_quotesInTag _ he]
    have hrest := tame_append (r := r) (a := k.text) (b := k.rest) (by rw [← hs]; exact h)
    rw [run_append r (unquote k), unquote]
    split
    · -- the quotes go
      have h' := h
      rw [hs, ht] at h'
      have e1 : k.cap 1 ++ '=' :: '"' :: (k.cap 2 ++ ['"']) ++ k.rest =
          (k.cap 1 ++ ['=']) ++ ('"' :: (k.cap 2 ++ ('"' :: k.rest))) := by simp
      rw [e1] at h'
      have h2 := tame_append h'
      have hbv : ∃ n, (r.run (k.cap 1 ++ ['='])).st = .beforeValue n := by
        rcases h2.1.1 rfl with h3 | ⟨_, _, _, d, h4, h5⟩
        · exact h3
        · exfalso
          cases hv : k.cap 2 with
          | nil => exact v1 hv
          | cons x v =>
            rw [hv] at h4 v2
            have : x = d := by simpa using h4
            subst this
            have := simple_facts (v2 x (by simp))
            rcases h5 with h5 | h5 | ⟨h5, -⟩
            · rw [this.1] at h5; exact absurd h5 (by decide)
            · exact this.2.2.2.1 h5
            · exact this.2.2.2.2.1 h5
      obtain ⟨n, hn⟩ := hbv
      obtain ⟨q1, q2⟩ := run_value _ hn v1 v2
      -- the state after the closing quote, and what follows it
      have h3 : Tame (r.run (k.cap 1 ++ ['=']) |>.run ('"' :: k.cap 2)) ('"' :: k.rest) := by
        have := tame_append (r := r.run (k.cap 1 ++ ['='])) (a := '"' :: k.cap 2) (b := '"' :: k.rest) h2
        exact this
      have hdq : (r.run (k.cap 1 ++ ['=']) |>.run ('"' :: k.cap 2)).st = .dq n (k.cap 2) := by
        have hbq : blank '"' = false := by decide +kernel
        have e : (r.run (k.cap 1 ++ ['='])).step '"' = (r.run (k.cap 1 ++ ['='])).to (.dq n []) := by
          unfold Reader.step; rw [hn]; simp [hbq]
        rw [run_cons, e, run_dq _ (u := k.cap 2) rfl (fun c hc => (simple_facts (v2 c hc)).2.1)]
        rfl
      have hd : ∃ d rest, k.rest = d :: rest ∧ (blank d = true ∨ d = '>') := by
        rcases h3.1.1 rfl with ⟨m, h4⟩ | ⟨n', v', h0, d, h4, h5⟩
        · rw [hdq] at h4; exact absurd h4 (by simp)
        · rw [hdq] at h0
          obtain ⟨rfl, -⟩ := St.dq.inj h0
          have h5 : blank d = true ∨ d = '>' := by
            rcases h5 with h5 | h5 | ⟨-, h5⟩
            · exact .inl h5
            · exact .inr h5
            · have := run_name_eq r m1 m2 hn
              rename_i hw
              rw [Bool.or_eq_true, beq_iff_eq, beq_iff_eq] at hw
              rw [sized, Bool.or_eq_false_iff] at h5
              rcases hw with hw | hw
              · rw [hw, ← List.isSuffixOf_iff_suffix, h5.1] at this; cases this
              · rw [hw, ← List.isSuffixOf_iff_suffix, h5.2] at this; cases this
          cases hr : k.rest with
          | nil => rw [hr] at h4; simp at h4
          | cons x rest =>
            rw [hr] at h4
            have : x = d := by simpa using h4
            subst this
            exact ⟨x, rest, rfl, h5⟩
      obtain ⟨d, rest, hd, hd2⟩ := hd
      have hmiss : ends quotesInTag (d :: rest) = [] := by
        refine ends_nil.2 ?_
        intro t u e hl
        have := letter_facts (lang_quotes_head e hl)
        rcases hd2 with h5 | h5
        · rw [this.1] at h5; exact absurd h5 (by decide)
        · exact this.2.1 h5
      have e2 : r.run (k.cap 1 ++ '=' :: k.cap 2) = (r.run (k.cap 1 ++ ['='])).to (.unq n (k.cap 2)) := by
        rw [← q2, ← run_append]; simp
      have e3 : r.run k.text = (r.run (k.cap 1 ++ ['='])).put n (k.cap 2) .afterQuoted := by
        rw [← q1, ← run_append, ht]; simp
      have ih' := ih hrest
      rw [hs, run_append r k.text, ← ih', e2, e3, hd, replaceAll_miss _ hmiss, run_cons, run_cons, step_merge _ _ _ hd2]
    · rw [← ht, ih hrest, ← run_append, ← hs]

/-- The whole treatment of one tag. -/
theorem tidyTag_tame {T : Tables} {x o : List Char} (hx : '>' ∉ x) (h : Tame Reader.init (x ++ ['>']))
    (ho : tidyTag T (x ++ ['>']) = some o) : readTag o = readTag (x ++ ['>']) := by
  unfold tidyTag at ho
  split at ho
  · rw [← Option.some.inj ho]
  · simp only at ho
    obtain ⟨y, e1, hy, t1, r1⟩ := close_tame (q := '"') (.inl rfl) hx h
    have e1' : replaceAll (spacesBeforeClose '"') (fun _ => "\">".toList) (x ++ ['>']) = y ++ ['>'] := e1
    rw [e1'] at ho
    obtain ⟨z, e2, hz, t2, r2⟩ := close_tame (q := '\'') (.inr rfl) hy t1
    have e2' : replaceAll (spacesBeforeClose '\'') (fun _ => "'>".toList) (y ++ ['>']) = z ++ ['>'] := e2
    rw [e2'] at ho
    obtain ⟨t3, r3⟩ := spaceLoop_tame (findIter (betweenWords T) (z ++ ['>'])) (findIter (extraSpaces3 T) (z ++ ['>'])) (z ++ ['>']) t2
    generalize spaceLoop _ _ _ = tag at *
    cases hn : nameLoop (findIter (extraSpaces2 T) tag) tag with
    | none => rw [hn] at ho; simp at ho
    | some p =>
      rw [hn] at ho
      obtain ⟨t4, r4⟩ := nameLoop_tame _ (fun m hm => findIter_lang (solid_extraSpaces2 T) hm) hn t3
      have : replaceAll quotesInTag unquote p = o := Option.some.inj ho
      rw [readTag_eq, readTag_eq, ← this, quotes_tame t4, r4, r3, r2, r1]

end Verif.Html
