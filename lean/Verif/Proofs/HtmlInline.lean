import Verif.Spec.HtmlInline
import Verif.Proofs.HtmlAgain
import Verif.Proofs.EcmaSoft
import Verif.Proofs.CssSoft
/-!
# Scripts and style sheets inside of a page: proofs
-/
set_option linter.unusedSimpArgs false
namespace Verif.Html
open Verif.Spec.Html

/-- The tag is read the same. -/
def Steady (t t' : List Char) : Prop := rawName t' = rawName t ∧ ∀ nm, nm ∈ rawElements → closes nm t' = closes nm t

theorem rawName_mem {t nm : List Char} (h : rawName t = some nm) : nm ∈ rawElements := by
  unfold rawName at h
  split at h
  · split at h
    · rename_i hc
      rw [← Option.some.inj h]
      exact List.contains_iff_mem.mp hc
    · cases h
  · cases h

theorem listed_inner {t : List Char} (h : Listed ('<' :: t ++ ['>'])) : ∃ s ∈ listed, t = (s.toList.drop 1).dropLast := by
  obtain ⟨s, hs, e⟩ := h
  refine ⟨s, hs, ?_⟩
  rw [← e]
  simp

theorem listed_raw {t : List Char} (h : Listed ('<' :: t ++ ['>'])) : rawName t = none ∧ ∀ nm ∈ rawElements, closes nm t = false := by
  obtain ⟨s, hs, rfl⟩ := listed_inner h
  have h1 : ∀ s ∈ listed, rawName (s.toList.drop 1).dropLast = none := by decide +kernel
  have h2 : ∀ s ∈ listed, ∀ nm ∈ rawElements, closes nm (s.toList.drop 1).dropLast = false := by decide +kernel
  exact ⟨h1 s hs, h2 s hs⟩

theorem readTag_notStart {t : List Char} (h : NotStart t) : readTag ('<' :: t ++ ['>']) = none := by
  obtain ⟨c, u, rfl, hc⟩ := h
  have hb : ∀ (l : List Char) (r : Reader), r.st = .bad → (r.run l).st = .bad := by
    intro l
    induction l with
    | nil => intro r h; exact h
    | cons c l ih => intro r h; exact ih _ (by simp [Reader.step, h])
  have e : ((Reader.init.step '<').step c).st = .bad := by
    rcases hc with rfl | rfl | rfl <;> rfl
  have := hb (u ++ ['>']) _ e
  unfold readTag
  have e2 : Reader.init.run ('<' :: (c :: u) ++ ['>']) = ((Reader.init.step '<').step c).run (u ++ ['>']) := rfl
  rw [e2, this]

theorem closes_start {t nm : List Char} (h : (readTag ('<' :: t ++ ['>'])).isSome) : closes nm t = false := by
  cases t with
  | nil => simp [closes]
  | cons c u =>
    by_cases hc : c = '/'
    · rw [readTag_notStart ⟨c, u, rfl, .inl hc⟩] at h; cases h
    · have : c.toLower ≠ '/' := by
        intro e
        apply hc
        unfold Char.toLower at e
        split at e
        · rename_i hr
          exfalso
          have key : ∀ n : Fin 128, 65 ≤ n.val → n.val ≤ 90 → (Char.ofNat n.val).toLower ≠ '/' := by decide +kernel
          have hn : c.toNat < 128 := Nat.lt_of_le_of_lt (UInt32.le_iff_toNat_le.mp hr.2) (by decide)
          have h3 := key ⟨c.toNat, hn⟩ (UInt32.le_iff_toNat_le.mp hr.1) (UInt32.le_iff_toNat_le.mp hr.2)
          rw [Char.ofNat_toNat] at h3
          unfold Char.toLower at h3
          rw [dif_pos hr] at h3
          exact h3 e
        · exact e
      have e : (('/' :: nm).isPrefixOf ((c :: u).map Char.toLower)) = false := by
        rw [List.map_cons, List.isPrefixOf_cons_cons, Bool.and_eq_false_iff]
        left; simp [Ne.symm this]
      rw [closes, e, Bool.false_and]

theorem lower_ws {c : Char} (h : isWhitespace c = true) : c.toLower = c := by
  unfold Char.toLower
  split
  · rename_i hr
    exfalso
    have : ∀ n : Fin 128, 65 ≤ n.val → n.val ≤ 90 → isWhitespace (Char.ofNat n.val) = false := by decide +kernel
    have hn : c.toNat < 128 := by
      have := hr.2
      simp only [Char.toNat]
      have h2 := UInt32.le_iff_toNat_le.mp this
      exact Nat.lt_of_le_of_lt h2 (by decide)
    have h3 := this ⟨c.toNat, hn⟩ (UInt32.le_iff_toNat_le.mp hr.1) (UInt32.le_iff_toNat_le.mp hr.2)
    rw [Char.ofNat_toNat] at h3
    rw [h] at h3; cases h3
  · rfl

theorem soft_lower {s o : List Char} (h : Soft s o) : Soft (s.map Char.toLower) (o.map Char.toLower) := by
  induction h with
  | nil => exact .nil
  | char c _ ih => exact .char _ ih
  | @gap w s o h1 h2 _ ih =>
    rw [List.map_append, List.map_cons]
    have e : w.map Char.toLower = w := by
      rw [List.map_congr_left (f := Char.toLower) (g := id) fun c hc => lower_ws (h2 c hc)]; simp
    have e2 : Char.toLower ' ' = ' ' := by decide
    rw [e, e2]
    exact .gap h1 h2 ih

theorem lower_sep (c : Char) : (blank c.toLower || c.toLower == '/') = (blank c || c == '/') := by
  unfold Char.toLower
  split
  · rename_i hr
    have : ∀ n : Fin 128, 65 ≤ n.val → n.val ≤ 90 → ((blank (Char.ofNat n.val).toLower || (Char.ofNat n.val).toLower == '/') =
      (blank (Char.ofNat n.val) || Char.ofNat n.val == '/')) := by decide +kernel
    have hn : c.toNat < 128 := by
      have := hr.2
      simp only [Char.toNat]
      have h2 := UInt32.le_iff_toNat_le.mp this
      exact Nat.lt_of_le_of_lt h2 (by decide)
    have h3 := this ⟨c.toNat, hn⟩ (UInt32.le_iff_toNat_le.mp hr.1) (UInt32.le_iff_toNat_le.mp hr.2)
    rw [Char.ofNat_toNat] at h3
    unfold Char.toLower at h3
    rw [dif_pos hr] at h3
    exact h3
  · rfl

theorem closes_lower (nm t : List Char) : closes nm t = (('/' :: nm).isPrefixOf (t.map Char.toLower) &&
    !((t.map Char.toLower).drop (nm.length + 1)).head?.any fun c => !(blank c || c == '/')) := by
  rw [closes, ← List.map_drop]
  cases t.drop (nm.length + 1) with
  | nil => rfl
  | cons c r => simp only [List.map_cons, List.head?_cons, Option.any_some, lower_sep]

theorem raw_solid : ∀ nm ∈ rawElements, ∀ c ∈ '/' :: nm, isWhitespace c = false := by decide +kernel

theorem closes_soft {nm t t' : List Char} (hn : nm ∈ rawElements) (hb : ∀ c ∈ t, isWhitespace c = true → blank c = true) (h : Soft t t') :
    closes nm t' = closes nm t := by
  rw [closes_lower, closes_lower]
  obtain ⟨h1, h2⟩ := Verif.Spec.Ecma.soft_starts (raw_solid nm hn) (soft_lower h)
  rw [h1]
  cases hp : ('/' :: nm).isPrefixOf (t.map Char.toLower) with
  | false => rfl
  | true =>
    have h3 := h2 hp
    simp only [List.length_cons] at h3
    rw [Verif.Spec.Ecma.soft_headD h3 _ (fun c hc hm => ?_) (by decide)]
    have hm := List.mem_of_mem_drop hm
    obtain ⟨d, hd, rfl⟩ := List.mem_map.mp hm
    have : isWhitespace d = true := by
      by_cases hr : d.val ≥ 'A'.val ∧ d.val ≤ 'Z'.val
      · exfalso
        have key : ∀ n : Fin 128, 65 ≤ n.val → n.val ≤ 90 → isWhitespace (Char.ofNat n.val).toLower = false := by decide +kernel
        have hn : d.toNat < 128 := Nat.lt_of_le_of_lt (UInt32.le_iff_toNat_le.mp hr.2) (by decide)
        have h3 := key ⟨d.toNat, hn⟩ (UInt32.le_iff_toNat_le.mp hr.1) (UInt32.le_iff_toNat_le.mp hr.2)
        rw [Char.ofNat_toNat] at h3
        rw [hc] at h3; cases h3
      · have : d.toLower = d := by unfold Char.toLower; rw [dif_neg hr]
        rw [this] at hc; exact hc
    rw [lower_sep, hb d hd this]; rfl

/-- What happens to a sound tag does not matter. -/
theorem sound_steady {t t' : List Char} (hs : Sound t)
    (h : (Kept t → Tight Reader.init ('<' :: t ++ ['>']) → ReadsAs t t') ∧ (NotStart t → Soft t t')) : Steady t t' := by
  rcases hs with ⟨hn, hb⟩ | ⟨hk, ht, hr⟩
  · have hsoft := h.2 hn
    have hn' : NotStart t' := by
      obtain ⟨c, u, rfl, hc⟩ := hn
      obtain ⟨o', rfl, -⟩ := Verif.Spec.Ecma.soft_take hsoft (by rcases hc with rfl | rfl | rfl <;> decide +kernel)
      exact ⟨c, o', rfl, hc⟩
    refine ⟨?_, fun nm hnm => closes_soft hnm hb hsoft⟩
    rw [rawName, rawName, readTag_notStart hn, readTag_notStart hn']
  · obtain ⟨⟨n, as, b⟩, hx⟩ := Option.isSome_iff_exists.mp hr
    obtain ⟨bs, b', hy, -⟩ := (h.1 hk ht).2 n as b hx
    refine ⟨by rw [rawName, rawName, hx, hy], fun nm _ => ?_⟩
    rw [closes_start hr, closes_start (by rw [hy]; rfl)]

/-! ## The elements of a page, from its pieces -/

def fromPieces : Option (List Char × List Char) → List (List Char × List Char) → List (List Char × List Char)
  | _, [] => []
  | none, (t, x) :: l => fromPieces ((rawName t).map fun nm => (nm, x)) l
  | some (nm, y), (t, x) :: l =>
    if closes nm t then (nm, y) :: fromPieces none l else fromPieces (some (nm, y ++ (Seg.tag t).show ++ x)) l

theorem elements_pieces {P : List Seg} (hP : ∀ b, Seg.comment b ∉ P) : ∀ st, elements st P =
    fromPieces (st.map fun p => (p.1, p.2 ++ (pieces P).1)) (pieces P).2 := by
  induction P with
  | nil => intro st; cases st <;> rfl
  | cons x P ih =>
    have ih := ih fun b hb => hP b (List.mem_cons_of_mem _ hb)
    intro st
    cases x with
    | comment b => exact absurd List.mem_cons_self (hP b)
    | text s =>
      cases st with
      | none => simp only [elements, pieces, ih]; rfl
      | some p => simp only [elements, pieces, ih, Option.map_some, List.append_assoc]
    | tag t =>
      cases st with
      | none =>
        simp only [elements, pieces, ih, Option.map_none, fromPieces]
        cases rawName t <;> rfl
      | some p =>
        obtain ⟨nm, y⟩ := p
        simp only [elements, pieces, ih, Option.map_some, fromPieces, List.append_nil]
        rfl

theorem rewritten_plain {P P' : List Seg} (h : Rewritten (· = ·) P P') : ∀ b, Seg.comment b ∉ P' := by
  intro b
  induction h with
  | nil => simp
  | text _ ih => simp [ih]
  | comment _ ih => simp [ih]
  | drop _ _ ih => exact ih
  | tag _ _ _ ih => simp [ih]

/-- A beginning of a text in which no tag begins. -/
def Vague (x : List Char) : Prop := ∀ a b, x = a ++ '<' :: b → stray b = true ∨ ∀ c ∈ b, c = '<'

theorem vague_of {x : List Char} (h : Tagless x) : Vague x := fun a b e => .inl (h a b e).1

theorem vague_left {x t : List Char} (h : Vague (x ++ t)) : Vague x := by
  rintro a b rfl
  rcases h a (b ++ t) (by simp) with h1 | h
  · have : ∀ b : List Char, stray (b ++ t) = true → stray b = true ∨ ∀ c ∈ b, c = '<' := by
      intro b hb
      induction b with
      | nil => exact .inr (by simp)
      | cons c b ih =>
        rw [List.cons_append, stray] at hb
        by_cases hc : c = '<'
        · rw [if_pos hc] at hb
          rcases ih hb with h | h
          · left; rw [stray, if_pos hc]; exact h
          · right
            intro d hd
            rcases List.mem_cons.1 hd with rfl | hd
            · exact hc
            · exact h d hd
        · rw [if_neg hc] at hb
          left; rw [stray, if_neg hc]; exact hb
    exact this b h1
  · exact .inr fun c hc => h c (by simp [hc])

theorem vague_tag {x t : List Char} (h1 : '<' ∉ t) (h2 : Sharp t) : ¬ Vague (x ++ (Seg.tag t).show) := by
  intro h
  rcases h x (t ++ ['>']) rfl with h | h
  · rw [stray_sharp h1 h2] at h; exact absurd h (by decide)
  · exact absurd (h '>' (by simp)) (by decide)

/-- What is open on both sides. -/
inductive OpenAs (R : List Char → List Char → Prop) : Option (List Char × List Char) → Option (List Char × List Char) → Prop
  | none : OpenAs R none none
  | some {nm x y : List Char} : nm ∈ rawElements → (Vague x → R x y) → OpenAs R (some (nm, x)) (some (nm, y))

theorem elements_rewritten {P P' : List Seg} (h : Rewritten (· = ·) P P') : (∀ t, Seg.tag t ∈ P → '<' ∉ t ∧ Sharp t) →
    ∀ {st st'}, OpenAs (· = ·) st st' →
    Matched (fun a b => a.1 ∈ rawElements ∧ b.1 = a.1 ∧ (Vague a.2 → b.2 = a.2)) (elements st P) (elements st' P') := by
  induction h with
  | nil => intro _ st st' hs; cases hs <;> exact .nil
  | @text t P Q _ ih =>
    intro hp st st' hs
    have ih := @ih fun t ht => hp t (List.mem_cons_of_mem _ ht)
    cases hs with
    | none => exact ih .none
    | @some nm x y hn hr =>
      refine ih (.some hn fun hx => ?_)
      rw [hr (vague_left hx)]
  | @comment b P Q _ ih =>
    intro hp st st' hs
    have ih := @ih fun t ht => hp t (List.mem_cons_of_mem _ ht)
    cases hs with
    | none => exact ih .none
    | @some nm x y hn hr =>
      refine ih (.some hn fun hx => ?_)
      exfalso
      have e : (Seg.comment b).show = '<' :: ('!' :: ("--".toList ++ b ++ "-->".toList)) := by
        have e0 : "<!--".toList = '<' :: '!' :: "--".toList := by decide +kernel
        rw [Seg.show, e0]; rfl
      rcases hx x _ (by rw [e]) with h | h
      · rw [stray_bang] at h; exact absurd h (by decide)
      · exact absurd (h '!' (by simp)) (by decide)
  | @drop t P Q hl _ ih =>
    intro hp st st' hs
    have ih := @ih fun t ht => hp t (List.mem_cons_of_mem _ ht)
    obtain ⟨h1, h2⟩ := listed_raw hl
    obtain ⟨p1, p2⟩ := hp t List.mem_cons_self
    cases hs with
    | none => simp only [elements, h1, Option.map_none]; exact ih .none
    | @some nm x y hn hr =>
      simp only [elements, h2 nm hn]
      exact ih (.some hn fun hx => absurd hx (vague_tag p1 p2))
  | @tag t t' P Q hl hr _ ih =>
    subst hr
    intro hp st st' hs
    have ih := @ih fun t ht => hp t (List.mem_cons_of_mem _ ht)
    obtain ⟨p1, p2⟩ := hp t List.mem_cons_self
    cases hs with
    | none =>
      simp only [elements]
      cases hx : rawName t with
      | none => exact ih .none
      | some nm => exact ih (.some (rawName_mem hx) fun _ => rfl)
    | @some nm x y hn hr =>
      simp only [elements]
      split
      · exact .cons ⟨hn, rfl, fun h => (hr h).symm⟩ (ih .none)
      · exact ih (.some hn fun hx => absurd hx (vague_tag p1 p2))

theorem pieces_pairs {R : List Char → List Char → Prop} {l l' : List (List Char × List Char)} (h : Pairs R l l')
    (hp : ∀ p ∈ l, '<' ∉ p.1 ∧ Sharp p.1)
    (hR : ∀ t x t', (t, x) ∈ l → R t t' → Steady t t') : ∀ {st st'}, OpenAs Soft st st' →
    Matched (fun a b => b.1 = a.1 ∧ (Vague a.2 → Soft a.2 b.2)) (fromPieces st l) (fromPieces st' l') := by
  induction h with
  | nil => intro st st' hs; cases hs <;> exact .nil
  | @cons t t' x x' l l' hr hx _ ih =>
    have ih := @ih (fun p h => hp p (List.mem_cons_of_mem _ h)) fun t x t' hm => hR t x t' (List.mem_cons_of_mem _ hm)
    obtain ⟨h1, h2⟩ := hR _ _ _ List.mem_cons_self hr
    obtain ⟨p1, p2⟩ := hp _ List.mem_cons_self
    intro st st' hs
    cases hs with
    | none =>
      simp only [fromPieces, h1]
      cases hn : rawName t with
      | none => exact ih .none
      | some nm => exact ih (.some (rawName_mem hn) fun _ => hx)
    | @some nm a b hn hab =>
      simp only [fromPieces, h2 nm hn]
      split
      · exact .cons ⟨rfl, hab⟩ (ih .none)
      · exact ih (.some hn fun h => absurd (vague_left h) (vague_tag p1 p2))

theorem matched_trans {R1 R2 R : List Char × List Char → List Char × List Char → Prop} {l m n : List (List Char × List Char)}
    (h1 : Matched R1 l m) (h2 : Matched R2 m n) (hR : ∀ a b c, R1 a b → R2 b c → R a c) : Matched R l n := by
  induction h1 generalizing n with
  | nil => cases h2; exact .nil
  | cons h _ ih => cases h2 with
    | cons h' h2 => exact .cons (hR _ _ _ h h') (ih h2)

theorem matched_imp {R R' : List Char × List Char → List Char × List Char → Prop} {l m : List (List Char × List Char)} (h : Matched R l m)
    (hR : ∀ a b, R a b → R' a b) : Matched R' l m := by
  induction h with
  | nil => exact .nil
  | cons h _ ih => exact .cons (hR _ _ h) ih

theorem matched_mem {R R' : List Char × List Char → List Char × List Char → Prop} {l m : List (List Char × List Char)} (h : Matched R l m)
    (hR : ∀ a b, a ∈ l → R a b → R' a b) : Matched R' l m := by
  induction h with
  | nil => exact .nil
  | cons h _ ih => exact .cons (hR _ _ List.mem_cons_self h) (ih fun a b ha => hR a b (List.mem_cons_of_mem _ ha))

theorem first_cut {c : Char} : ∀ {a b x y : List Char}, c ∉ a → c ∉ b → a ++ c :: x = b ++ c :: y → a = b ∧ x = y
  | [], [], _, _, _, _, h => ⟨rfl, (List.cons.inj h).2⟩
  | [], d :: b, _, _, _, hb, h => absurd ((List.cons.inj h).1 ▸ List.mem_cons_self) hb
  | d :: a, [], _, _, ha, _, h => absurd ((List.cons.inj h).1 ▸ List.mem_cons_self) ha
  | d :: a, e :: b, _, _, ha, hb, h => by
    obtain ⟨h1, h2⟩ := List.cons.inj h
    obtain ⟨h3, h4⟩ := first_cut (fun h => ha (List.mem_cons_of_mem _ h)) (fun h => hb (List.mem_cons_of_mem _ h)) h2
    exact ⟨by rw [h1, h3], h4⟩

theorem tagless_cut : ∀ {a b x y : List Char}, Tagless a → Tagless b → stray x = false → stray y = false →
    a ++ '<' :: x = b ++ '<' :: y → a = b ∧ x = y
  | [], [], _, _, _, _, _, _, h => ⟨rfl, (List.cons.inj h).2⟩
  | [], d :: b, x, y, _, hb, hx, _, h => by
    obtain ⟨rfl, h2⟩ := List.cons.inj h
    have h3 := stray_append hb.head ('<' :: y)
    rw [show b ++ '<' :: y = x from h2.symm, hx] at h3
    exact absurd h3 (by decide)
  | d :: a, [], x, y, ha, _, _, hy, h => by
    obtain ⟨rfl, h2⟩ := List.cons.inj h
    have h3 := stray_append ha.head ('<' :: x)
    rw [show a ++ '<' :: x = y from h2, hy] at h3
    exact absurd h3 (by decide)
  | d :: a, e :: b, _, _, ha, hb, hx, hy, h => by
    obtain ⟨h1, h2⟩ := List.cons.inj h
    obtain ⟨h3, h4⟩ := tagless_cut ha.tail hb.tail hx hy h2
    exact ⟨by rw [h1, h3], h4⟩

theorem spell_inj : ∀ {l l' : List (List Char × List Char)} {a a' : List Char}, Tagless a → Tagless a' →
    (∀ p ∈ l, '<' ∉ p.1 ∧ '>' ∉ p.1 ∧ Sharp p.1 ∧ Tagless p.2) → (∀ p ∈ l', '<' ∉ p.1 ∧ '>' ∉ p.1 ∧ Sharp p.1 ∧ Tagless p.2) →
    spell (a, l) = spell (a', l') → a = a' ∧ l = l'
  | [], [], a, a', _, _, _, _, h => ⟨by simpa [spell] using h, rfl⟩
  | [], (t, x) :: l, a, a', ha, _, _, hl, h => by
    exfalso
    have k := hl _ List.mem_cons_self
    have e : a = a' ++ '<' :: (t ++ '>' :: spell (x, l)) := by
      have : spell (a, []) = a := by simp [spell]
      rw [← this, h]; simp [spell]
    have := (ha _ _ e).1
    rw [stray_sharp k.1 k.2.2.1] at this
    exact absurd this (by decide)
  | (t, x) :: l, [], a, a', _, ha, hl, _, h => by
    exfalso
    have k := hl _ List.mem_cons_self
    have e : a' = a ++ '<' :: (t ++ '>' :: spell (x, l)) := by
      have : spell (a', []) = a' := by simp [spell]
      rw [← this, ← h]; simp [spell]
    have := (ha _ _ e).1
    rw [stray_sharp k.1 k.2.2.1] at this
    exact absurd this (by decide)
  | (t, x) :: l, (t', x') :: l', a, a', ha, ha', hl, hl', h => by
    have e : ∀ (a t x : List Char) l, spell (a, (t, x) :: l) = a ++ '<' :: (t ++ '>' :: spell (x, l)) := by intros; simp [spell]
    rw [e, e] at h
    have k := hl _ List.mem_cons_self
    have k' := hl' _ List.mem_cons_self
    obtain ⟨h1, h2⟩ := tagless_cut ha ha' (stray_sharp k.1 k.2.2.1 _) (stray_sharp k'.1 k'.2.2.1 _) h
    obtain ⟨h3, h4⟩ := first_cut k.2.1 k'.2.1 h2
    obtain ⟨h5, h6⟩ := spell_inj k.2.2.2 k'.2.2.2 (fun p hp => hl p (List.mem_cons_of_mem _ hp))
      (fun p hp => hl' p (List.mem_cons_of_mem _ hp)) h4
    exact ⟨h1, by rw [show (t, x) = (t', x') from Prod.ext h3 h5, h6]⟩

/-- A page without comments can be read in one way only. -/
theorem render_pieces {P Q : List Seg} (hP : ∀ x ∈ P, Seg.Plain x) (hQ : ∀ x ∈ Q, Seg.Plain x) (h : render P = render Q) :
    pieces P = pieces Q := by
  rw [← spell_pieces hP, ← spell_pieces hQ] at h
  obtain ⟨a1, a2⟩ := plain_pieces hP
  obtain ⟨b1, b2⟩ := plain_pieces hQ
  obtain ⟨h1, h2⟩ := spell_inj a1 b1 a2 b2 h
  exact Prod.ext h1 h2

theorem elements_last (P : List Seg) (v : List Char) : ∀ st, elements st (P ++ [.text v]) = elements st P := by
  induction P with
  | nil => intro st; cases st <;> rfl
  | cons x P ih =>
    intro st
    cases x <;> cases st <;> simp only [List.cons_append, elements, ih]

theorem elements_trim {P Q : List Seg} (hP : ∀ x ∈ P, Seg.Plain x) (hQ : ∀ x ∈ Q, Seg.Plain x) (h : render Q = trim (render P)) :
    elements none Q = elements none P := by
  obtain ⟨u, v, h1, h2, h3, -⟩ := trim_spec (render P)
  rw [← h] at h1
  have lt : ∀ w : List Char, (∀ c ∈ w, space c = true) → '<' ∉ w := by
    intro w hw hm
    have := hw _ hm
    revert this; decide +kernel
  have hQ' : ∀ x ∈ [.text u] ++ Q ++ [.text v], Seg.Plain x := by
    intro x hx
    simp only [List.mem_append, List.mem_cons, List.not_mem_nil, or_false] at hx
    rcases hx with (rfl | hx) | rfl
    · exact .of (lt u h2)
    · exact hQ x hx
    · exact .of (lt v h3)
  have e : render P = render ([.text u] ++ Q ++ [.text v]) := by
    rw [h1]; simp [render, Seg.show]
  have e2 := render_pieces hP hQ' e
  have c1 : ∀ b, Seg.comment b ∉ P := fun b hb => hP _ hb
  have c2 : ∀ b, Seg.comment b ∉ [.text u] ++ Q ++ [.text v] := fun b hb => hQ' _ hb
  rw [elements_pieces c1, e2, ← elements_pieces c2 none, elements_last]
  rfl

/-- The elements of the result, one by one. -/
theorem minify_elements {T : Tables} (hT : T.Ok) {P : List Seg} (hP : Page P) (ht : ∀ t, Seg.tag t ∈ P → Sound t) :
    (∃ Q, (∀ x ∈ Q, Seg.Plain x) ∧ minify T (render P) = some (render Q)) ∧
    ∀ Q, (∀ x ∈ Q, Seg.Plain x) → minify T (render P) = some (render Q) →
      Matched (fun a b => b.1 = a.1 ∧ (Tagless a.2 → Soft a.2 b.2)) (elements none P) (elements none Q) := by
  obtain ⟨P', Q, e, hQ, hr, ha⟩ := minify_page hT hP
  refine ⟨?_, fun Q2 hQ2 e2 => ?_⟩
  · obtain ⟨a1, a2⟩ := plain_pieces hQ
    obtain ⟨a', l', h1, h2, h3, h4⟩ := spell_trim (pieces Q).1 (pieces Q).2
    have hp : ∀ x ∈ unpieces (a', l'), Seg.Plain x := by
      refine plain_unpieces (p := (a', l')) (h2 a1) fun p hp => ?_
      have hm : p.1 ∈ (pieces Q).2.map (·.1) := by rw [← h3]; exact List.mem_map_of_mem hp
      obtain ⟨q, hq, hq'⟩ := List.mem_map.mp hm
      obtain ⟨r, hr, hr'⟩ := h4 p hp
      exact ⟨hq' ▸ (a2 q hq).1, hq' ▸ (a2 q hq).2.1, hq' ▸ (a2 q hq).2.2.1, hr' (a2 r hr).2.2.2⟩
    refine ⟨_, hp, ?_⟩
    rw [e, ← spell_pieces hQ, ← spell_pieces hp, pieces_unpieces]
    exact congrArg some h1
  rw [e] at e2
  rw [elements_trim hQ hQ2 (Option.some.inj e2).symm]
  have hq : ∀ b, Seg.comment b ∉ Q := fun b hb => hQ _ hb
  have h1 := elements_rewritten hr (fun t ht => ⟨(page_tag hP ht).1, (page_tag hP ht).2.2⟩) (st := none) (st' := none) .none
  have h2 := pieces_pairs ha.2 (fun p hp => by
    have := page_tag hP (rewritten_mem hr (pieces_mem (t := p.1) (x := p.2) hp))
    exact ⟨this.1, this.2.2⟩) (fun t x t' hm h => sound_steady (ht t (rewritten_mem hr (pieces_mem hm))) h) (st := none) (st' := none) .none
  rw [elements_pieces (rewritten_plain hr)] at h1
  rw [elements_pieces hq none]
  refine matched_trans h1 h2 ?_
  rintro a b c ⟨-, k1, k2⟩ ⟨k3, k4⟩
  refine ⟨by rw [k3, k1], fun h => ?_⟩
  have h := vague_of h
  rw [k2 h] at k4
  exact k4 h

end Verif.Html
