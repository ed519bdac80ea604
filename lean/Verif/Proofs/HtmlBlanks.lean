import Verif.Proofs.HtmlSettle
import Verif.Proofs.HtmlPre
import Verif.Spec.HtmlBlanks
/-!
# The loop over the gaps of a tag

`\w\s+\w` finds the gaps between word characters one after the other, since words have two characters, and replacing the text
of one of them narrows all gaps of that width between these characters.
-/
set_option linter.unusedSimpArgs false
namespace Verif.Html
open Verif.Spec.Html

/-- A gap and the characters around it. -/
def gapText (x : Char × Nat × Char) : List Char := x.1 :: (blanks x.2.1 ++ [x.2.2])

def Solid (c : Char) : Prop := isWhitespace c = false

def Chunk.Tight (w : Chunk) : Prop := Solid w.first ∧ (∀ c ∈ w.mid, Solid c) ∧ Solid w.last

theorem blanks_ws {n : Nat} : ∀ c ∈ blanks n, isWhitespace c = true := by
  intro c hc
  rw [(List.mem_replicate.1 hc).2]; exact ws_sp

theorem blanks_inj {n m : Nat} (h : blanks n = blanks m) : n = m := by
  have := congrArg List.length h
  simp [blanks] at this; exact this

theorem gapText_ne (x : Char × Nat × Char) : gapText x ≠ [] := by simp [gapText]

/-- Where the text of a gap is met. -/
theorem gapText_at {c d a b : Char} {n i : Nat} {r u : List Char} (hd : Solid d) (hb : Solid b) :
    (c :: (blanks n ++ d :: r) = gapText (a, i, b) ++ u) ↔ c = a ∧ n = i ∧ d = b ∧ r = u := by
  constructor
  · intro e
    simp only [gapText, List.cons_append, List.append_assoc, List.nil_append, List.cons.injEq] at e
    obtain ⟨h1, h2, h3⟩ := gap_unique e.2 blanks_ws blanks_ws hd hb
    exact ⟨e.1, blanks_inj h1, h2, h3⟩
  · rintro ⟨rfl, rfl, rfl, rfl⟩
    simp [gapText]

/-- It is not met before a character that is no white space. -/
theorem gapText_solid {c d : Char} {x : Char × Nat × Char} {r u : List Char} (hd : Solid d) : c :: d :: r ≠ gapText x ++ u := by
  intro e
  simp only [gapText, blanks, List.replicate_succ, List.cons_append, List.cons.injEq] at e
  rw [e.2.1] at hd
  exact absurd ws_sp (by rw [hd]; simp)

/-- The extra blanks after the text of a gap is replaced. -/
def narrow (f : Char → Nat → Char → Nat) (x : Char × Nat × Char) (c : Char) (n : Nat) (d : Char) : Nat :=
  if c = x.1 ∧ f c n d = x.2.1 ∧ d = x.2.2 then 0 else f c n d

theorem replaceStr_blanks {x : Char × Nat × Char} (hx : Solid x.1) (n : Nat) (s : List Char) (to : List Char) :
    replaceStr (gapText x) to (blanks n ++ s) = blanks n ++ replaceStr (gapText x) to s := by
  unfold blanks
  induction n + 1 with
  | zero => rfl
  | succ k ih =>
    rw [List.replicate_succ, List.cons_append, replaceStr_miss _ (gapText_ne x), ih]; rfl
    rintro ⟨u, e⟩
    rw [gapText, List.cons_append, List.cons.injEq] at e
    rw [← e.1] at hx
    exact absurd ws_sp (by rw [hx]; simp)

theorem replaceStr_spread {x : Char × Nat × Char} (h1 : Solid x.1) (h2 : Solid x.2.2) (f : Char → Nat → Char → Nat)
    (e : Option Nat) (l : List Chunk) (hl : ∀ w ∈ l, Chunk.Tight w) : ∀ (m : List Char) (c : Char), (∀ d ∈ m, Solid d) → Solid c →
    replaceStr (gapText x) [x.1, ' ', x.2.2] (m ++ c :: spread f c e l) = m ++ c :: spread (narrow f x) c e l := by
  induction l with
  | nil =>
    intro m
    induction m with
    | nil =>
      intro c _ hc
      have hend : replaceStr (gapText x) [x.1, ' ', x.2.2] ['>'] = ['>'] := by
        rw [replaceStr_miss _ (gapText_ne x), replaceStr_nil]
        rintro ⟨u, e⟩
        have := congrArg List.length e
        simp [gapText, blanks] at this
      cases e with
      | none =>
        show replaceStr _ _ [c, '>'] = [c, '>']
        rw [replaceStr_miss _ (gapText_ne x), hend]
        rintro ⟨u, e⟩
        exact gapText_solid ws_gt e
      | some n =>
        show replaceStr _ _ (c :: (blanks (f c n '>') ++ ['>'])) = c :: (blanks (narrow f x c n '>') ++ ['>'])
        by_cases hx : c = x.1 ∧ f c n '>' = x.2.1 ∧ '>' = x.2.2
        · have := (gapText_at (r := []) (u := []) (c := c) (n := f c n '>') ws_gt h2).2 ⟨hx.1, hx.2.1, hx.2.2, rfl⟩
          rw [this, replaceStr_hit (gapText_ne _), replaceStr_nil, narrow, if_pos hx, hx.1, ← hx.2.2]; rfl
        · rw [replaceStr_miss _ (gapText_ne x), replaceStr_blanks h1, hend, narrow, if_neg hx]
          rintro ⟨u, e⟩
          have := (gapText_at (a := x.1) (i := x.2.1) (b := x.2.2) ws_gt h2).1 e
          exact hx ⟨this.1, this.2.1, this.2.2.1⟩
    | cons d m ih =>
      intro c hm hc
      rw [List.cons_append, replaceStr_miss _ (gapText_ne x), ih c (fun d hd => hm d (by simp [hd])) hc]; rfl
      rintro ⟨u, e⟩
      cases m with
      | nil => exact gapText_solid hc e
      | cons d' m => exact gapText_solid (hm d' (by simp)) e
  | cons w l ihl =>
    have hw := hl w (by simp)
    intro m
    induction m with
    | nil =>
      intro c _ hc
      show replaceStr _ _ (c :: (blanks (f c w.extra w.first) ++ w.first :: (w.mid ++ w.last :: spread f w.last e l))) =
        c :: (blanks (narrow f x c w.extra w.first) ++ w.first :: (w.mid ++ w.last :: spread (narrow f x) w.last e l))
      by_cases hx : c = x.1 ∧ f c w.extra w.first = x.2.1 ∧ w.first = x.2.2
      · have := (gapText_at (r := w.mid ++ w.last :: spread f w.last e l) (u := w.mid ++ w.last :: spread f w.last e l)
          (c := c) (n := f c w.extra w.first) hw.1 h2).2 ⟨hx.1, hx.2.1, hx.2.2, rfl⟩
        rw [this, replaceStr_hit (gapText_ne _), ihl (fun v hv => hl v (by simp [hv])) _ _ hw.2.1 hw.2.2, narrow, if_pos hx,
          hx.1, hx.2.2]; rfl
      · have hr := ihl (fun v hv => hl v (by simp [hv])) (w.first :: w.mid) w.last (by
          intro d hd
          rcases List.mem_cons.1 hd with rfl | hd
          · exact hw.1
          · exact hw.2.1 d hd) hw.2.2
        rw [List.cons_append, List.cons_append] at hr
        rw [replaceStr_miss _ (gapText_ne x), replaceStr_blanks h1, hr, narrow, if_neg hx]
        rintro ⟨u, e⟩
        have := (gapText_at (a := x.1) (i := x.2.1) (b := x.2.2) hw.1 h2).1 e
        exact hx ⟨this.1, this.2.1, this.2.2.1⟩
    | cons d m ih =>
      intro c hm hc
      rw [List.cons_append, replaceStr_miss _ (gapText_ne x), ih c (fun d hd => hm d (by simp [hd])) hc]; rfl
      rintro ⟨u, e⟩
      cases m with
      | nil => exact gapText_solid hc e
      | cons d' m => exact gapText_solid (hm d' (by simp)) e

/-! ## One blank for many -/

theorem oneSpace_gap {x : Char × Nat × Char} (h1 : Solid x.1) (h2 : Solid x.2.2) : oneSpace (gapText x) = [x.1, ' ', x.2.2] := by
  obtain ⟨a, n, b⟩ := x
  have hn : ∀ {c : Char} (s : List Char), Solid c → oneSpace (c :: s) = c :: oneSpace s := by
    intro c s hc
    refine replaceAll_miss _ (ends_nil.2 fun t u e hl => ?_)
    obtain ⟨k1, k2⟩ := lang_extraSpaces hl
    match t, k1 with
    | d :: t, _ =>
      have := k2 d (by simp)
      rw [← (List.cons.inj e).1] at this
      rw [hc] at this; cases this
  show oneSpace (a :: (blanks n ++ [b])) = _
  rw [hn _ h1]
  have hb : oneSpace [b] = [b] := by rw [hn _ h2]; rfl
  cases n with
  | zero =>
    show a :: oneSpace (' ' :: [b]) = _
    rw [show oneSpace (' ' :: [b]) = ' ' :: oneSpace [b] from ?_, hb]
    refine replaceAll_miss _ (ends_nil.2 fun t u e hl => ?_)
    obtain ⟨k1, k2⟩ := lang_extraSpaces hl
    match t, k1 with
    | c :: d :: t, _ =>
      have := k2 d (by simp)
      simp only [List.cons_append, List.cons.injEq] at e
      rw [← e.2.1, h2] at this; cases this
  | succ n =>
    obtain ⟨hh, g1⟩ := plus_head (p := space) (c := ' ') (s := List.replicate n ' ' ++ [b]) ws_sp
    obtain ⟨e1, e2⟩ := takeWhile_gap (w := List.replicate n ' ') (r := [b]) (fun x hx => by
      rw [(List.mem_replicate.1 hx).2]; exact ws_sp) (fun c hc => by
        simp only [List.head?_cons, Option.some.injEq] at hc
        subst hc; exact h2)
    rw [e1, e2] at g1
    have h0 : ∃ hh, ends extraSpaces (' ' :: ' ' :: (List.replicate n ' ' ++ [b])) =
        ⟨' ' :: ' ' :: List.replicate n ' ', [b], []⟩ :: hh := by
      rw [extraSpaces, ends, show Re.c ' ' = .ch (· == ' ') from rfl, ends_ch_seq, if_pos (by simp), g1, List.map_cons]
      exact ⟨_, List.cons_append⟩
    obtain ⟨hh, h0⟩ := h0
    show a :: oneSpace (' ' :: ' ' :: (List.replicate n ' ' ++ [b])) = _
    rw [show oneSpace (' ' :: ' ' :: (List.replicate n ' ' ++ [b])) = _ from replaceAll_hit solid_extraSpaces _ h0]
    show a :: ([' '] ++ oneSpace [b]) = _
    rw [hb]; rfl

/-! ## The gaps that are found -/

def gapRe (p q : Char → Bool) : Re := .seq (.ch p) (.seq (.plus space) (.ch q))

theorem solid_gapRe (p q : Char → Bool) : solid (gapRe p q) := solid_seq _ (solid_ch _)

theorem lang_gapRe {p q : Char → Bool} {t : List Char} (h : lang (gapRe p q) t) : ∃ a w b, t = a :: (w ++ [b]) ∧ p a = true ∧
    w ≠ [] ∧ (∀ c ∈ w, isWhitespace c = true) ∧ q b = true := by
  obtain ⟨t1, t2, rfl, ⟨a, rfl, ha⟩, w, t3, rfl, hw, b, rfl, hb⟩ := h
  obtain ⟨k1, k2⟩ := lang_plus.1 hw
  exact ⟨a, w, b, rfl, ha, k1, k2, hb⟩

/-- The gaps between characters of the given kinds. -/
def found (p q : Char → Bool) (c : Char) (e : Option Nat) : List Chunk → List (Char × Nat × Char)
  | [] => match e with
    | none => []
    | some n => if p c && q '>' then [(c, n, '>')] else []
  | w :: l => (if p c && q w.first then [(c, w.extra, w.first)] else []) ++ found p q w.last e l

section
variable {p q : Char → Bool} (hp : ∀ c, p c = true → Solid c) (hq : ∀ c, q c = true → Solid c)

include hp in
theorem find_blanks (n : Nat) (s : List Char) : findIter (gapRe p q) (blanks n ++ s) = findIter (gapRe p q) s := by
  unfold blanks
  induction n + 1 with
  | zero => rfl
  | succ k ih =>
    rw [List.replicate_succ, List.cons_append, findIter_miss, ih]
    refine ends_nil.2 fun t u e hl => ?_
    obtain ⟨a, w, b, rfl, ha, -⟩ := lang_gapRe hl
    have := hp a ha
    rw [← (List.cons.inj e).1] at this
    exact absurd ws_sp (by rw [this]; simp)

theorem find_solid {c d : Char} (s : List Char) (hd : Solid d) :
    findIter (gapRe p q) (c :: d :: s) = findIter (gapRe p q) (d :: s) := by
  rw [findIter_miss]
  refine ends_nil.2 fun t u e hl => ?_
  obtain ⟨a, w, b, rfl, -, hw, hws, -⟩ := lang_gapRe hl
  cases w with
  | nil => exact hw rfl
  | cons x w =>
    have := hws x (by simp)
    simp only [List.cons_append, List.cons.injEq] at e
    rw [← e.2.1, hd] at this; cases this

include hp hq in
theorem find_gap {c d : Char} (n : Nat) (r : List Char) (hd : Solid d) : findIter (gapRe p q) (c :: (blanks n ++ d :: r)) =
    if p c && q d then gapText (c, n, d) :: findIter (gapRe p q) r else findIter (gapRe p q) (d :: r) := by
  split
  · rename_i h
    rw [Bool.and_eq_true] at h
    have hl : lang (gapRe p q) (gapText (c, n, d)) := by
      refine ⟨[c], blanks n ++ [d], rfl, ⟨c, rfl, h.1⟩, blanks n, [d], rfl, lang_plus.2 ⟨by simp [blanks], blanks_ws⟩, d, rfl, h.2⟩
    have e0 : c :: (blanks n ++ d :: r) = gapText (c, n, d) ++ r := by simp [gapText]
    obtain ⟨x, hx, -⟩ := ends_complete (u := r) hl
    rw [← e0] at hx
    cases he : ends (gapRe p q) (c :: (blanks n ++ d :: r)) with
    | nil => rw [he] at hx; cases hx
    | cons y ys =>
      obtain ⟨e, hy⟩ := ends_sound (r := gapRe p q) (h := y) (by rw [he]; simp)
      obtain ⟨a, w, b, ht, ha, hw, hws, hb⟩ := lang_gapRe hy
      rw [ht] at e
      simp only [List.cons_append, List.append_assoc, List.nil_append, List.cons.injEq] at e
      obtain ⟨k1, k2, k3⟩ := gap_unique e.2 blanks_ws hws hd (hq b hb)
      rw [findIter_hit (solid_gapRe p q) he, ht, ← k1, ← k2, ← k3, ← e.1]; rfl
  · rename_i h
    rw [findIter_miss, find_blanks hp]
    refine ends_nil.2 fun t u e hl => ?_
    obtain ⟨a, w, b, rfl, ha, hw, hws, hb⟩ := lang_gapRe hl
    simp only [List.cons_append, List.append_assoc, List.nil_append, List.cons.injEq] at e
    obtain ⟨k1, k2, k3⟩ := gap_unique e.2 blanks_ws hws hd (hq b hb)
    rw [e.1, k2] at h
    exact h (by rw [ha, hb]; rfl)

theorem find_mid (m : List Char) {c : Char} (s : List Char) (hm : ∀ d ∈ m, Solid d) (hc : Solid c) :
    findIter (gapRe p q) (m ++ c :: s) = findIter (gapRe p q) (c :: s) := by
  induction m with
  | nil => rfl
  | cons d m ih =>
    rw [← ih fun d hd => hm d (by simp [hd])]
    cases m with
    | nil => exact find_solid _ hc
    | cons d' m => exact find_solid _ (hm d' (by simp))

include hp hq in
theorem find_spread (e : Option Nat) (l : List Chunk) (hl : ∀ w ∈ l, Chunk.Tight w) : ∀ c, Solid c →
    findIter (gapRe p q) (c :: spread asIs c e l) = (found p q c e l).map gapText := by
  have hend : findIter (gapRe p q) ['>'] = [] := by
    rw [findIter_miss, findIter_nil]
    refine ends_nil.2 fun t u e hl => ?_
    obtain ⟨a, w, b, rfl, -⟩ := lang_gapRe hl
    have := congrArg List.length e
    simp at this
  induction l with
  | nil =>
    intro c hc
    cases e with
    | none => show findIter _ [c, '>'] = []; rw [find_solid _ ws_gt, hend]
    | some n =>
      show findIter _ (c :: (blanks n ++ ['>'])) = List.map gapText (if p c && q '>' then [(c, n, '>')] else [])
      rw [find_gap hp hq n [] ws_gt, hend, findIter_nil]
      split <;> rfl
  | cons w l ih =>
    intro c hc
    have hw := hl w (by simp)
    show findIter _ (c :: (blanks w.extra ++ w.first :: (w.mid ++ w.last :: spread asIs w.last e l))) =
      List.map gapText ((if p c && q w.first then [(c, w.extra, w.first)] else []) ++ found p q w.last e l)
    rw [find_gap hp hq w.extra _ hw.1, List.map_append, ← ih (fun v hv => hl v (by simp [hv])) w.last hw.2.2]
    have e2 := find_mid (p := p) (q := q) (w.first :: w.mid) (spread asIs w.last e l) (by
      intro d hd
      rcases List.mem_cons.1 hd with rfl | hd
      · exact hw.1
      · exact hw.2.1 d hd) hw.2.2
    rw [List.cons_append] at e2
    rw [e2, find_mid w.mid _ hw.2.1 hw.2.2]
    split <;> rfl

end

/-! ## The loop -/

theorem loop_spread {m : List Char} {c : Char} (hm : ∀ d ∈ m, Solid d) (hc : Solid c) (e : Option Nat) (l : List Chunk)
    (hl : ∀ w ∈ l, Chunk.Tight w) (H : List (Char × Nat × Char)) (hH : ∀ x ∈ H, Solid x.1 ∧ Solid x.2.2)
    (f : Char → Nat → Char → Nat) :
    (H.map gapText).foldl (fun tag x => replaceStr x (oneSpace x) tag) (m ++ c :: spread f c e l) =
      m ++ c :: spread (H.foldl narrow f) c e l := by
  induction H generalizing f with
  | nil => rfl
  | cons x H ih =>
    have hx := hH x (by simp)
    rw [List.map_cons, List.foldl_cons, List.foldl_cons, oneSpace_gap hx.1 hx.2,
      replaceStr_spread hx.1 hx.2 f e l hl m c hm hc, ih fun y hy => hH y (by simp [hy])]

theorem narrow_fold (H : List (Char × Nat × Char)) (f : Char → Nat → Char → Nat) (D : List (Char × Nat × Char))
    (hf : ∀ c n d, f c n d = if (c, n, d) ∈ D then 0 else n) (c : Char) (n : Nat) (d : Char) :
    H.foldl narrow f c n d = if (c, n, d) ∈ D ++ H then 0 else n := by
  induction H generalizing f D with
  | nil => rw [List.append_nil]; exact hf c n d
  | cons x H ih =>
    rw [List.foldl_cons, ih (narrow f x) (D ++ [x]), List.append_assoc]; rfl
    intro c n d
    rw [narrow, hf]
    by_cases h : (c, n, d) ∈ D
    · simp [h]
    · by_cases hx : (c, n, d) = x
      · subst hx; simp [h]
      · rw [if_neg h, if_neg, if_neg]
        · simp [h, hx]
        · rintro ⟨h1, h2, h3⟩
          exact hx (by rw [h1, h2, h3])

theorem spread_congr {f g : Char → Nat → Char → Nat} (e : Option Nat) (l : List Chunk) (c : Char)
    (P : Char → Nat → Char → Prop) (hP : ∀ c n d, P c n d → f c n d = g c n d)
    (h : ∀ c', lastOf c l = c' → ∀ n, e = some n → P c' n '>') (hl : ∀ a w b, l = a ++ w :: b → P (lastOf c a) w.extra w.first) :
    spread f c e l = spread g c e l := by
  induction l generalizing c with
  | nil =>
    cases e with
    | none => rfl
    | some n => show blanks (f c n '>') ++ _ = blanks (g c n '>') ++ _; rw [hP _ _ _ (h c rfl n rfl)]
  | cons w l ih =>
    show blanks (f c w.extra w.first) ++ w.first :: (w.mid ++ w.last :: spread f w.last e l) =
      blanks (g c w.extra w.first) ++ w.first :: (w.mid ++ w.last :: spread g w.last e l)
    rw [hP c _ _ (hl [] w l rfl), ih w.last h fun a v b eq => hl (w :: a) v b (by rw [eq]; rfl)]

theorem mem_found {p q : Char → Bool} {e : Option Nat} {l : List Chunk} {c : Char} {x : Char × Nat × Char} (h : x ∈ found p q c e l) :
    p x.1 = true ∧ q x.2.2 = true := by
  induction l generalizing c with
  | nil =>
    cases e with
    | none => cases h
    | some n =>
      simp only [found] at h
      split at h
      · rename_i k
        rw [Bool.and_eq_true] at k
        rw [List.mem_singleton.1 h]; exact k
      · cases h
  | cons w l ih =>
    rw [found, List.mem_append] at h
    rcases h with h | h
    · split at h
      · rename_i k
        rw [Bool.and_eq_true] at k
        rw [List.mem_singleton.1 h]; exact k
      · cases h
    · exact ih h

theorem found_end {p q : Char → Bool} {n : Nat} {l : List Chunk} {c : Char} (h1 : p (lastOf c l) = true) (h2 : q '>' = true) :
    (lastOf c l, n, '>') ∈ found p q c (some n) l := by
  induction l generalizing c with
  | nil => simp [found, lastOf] at *; simp [h1, h2]
  | cons w l ih => rw [found, List.mem_append]; right; exact ih h1

theorem found_gap {p q : Char → Bool} {e : Option Nat} {a b : List Chunk} {w : Chunk} {c : Char} (h1 : p (lastOf c a) = true)
    (h2 : q w.first = true) : (lastOf c a, w.extra, w.first) ∈ found p q c e (a ++ w :: b) := by
  induction a generalizing c with
  | nil => simp [found, lastOf] at *; simp [h1, h2]
  | cons v a ih => rw [List.cons_append, found, List.mem_append]; right; exact ih h1

/-- The gaps that were found are narrow then, and the others are as they were. -/
theorem fold_found {p q : Char → Bool} (e : Option Nat) (l : List Chunk) (c : Char) :
    spread ((found p q c e l).foldl narrow asIs) c e l = spread (oneBetween p q) c e l := by
  have key : ∀ c' n d, (p c' = true → q d = true → (c', n, d) ∈ found p q c e l) →
      (found p q c e l).foldl narrow asIs c' n d = oneBetween p q c' n d := by
    intro c' n d h
    rw [narrow_fold _ asIs [] (by intro c n d; simp [asIs]), List.nil_append, oneBetween]
    by_cases hm : (c', n, d) ∈ found p q c e l
    · have := mem_found hm
      simp only at this
      rw [if_pos hm, this.1, this.2]; rfl
    · rw [if_neg hm, if_neg]
      intro k
      rw [Bool.and_eq_true] at k
      exact hm (h k.1 k.2)
  refine spread_congr e l c _ key ?_ ?_
  · rintro c' rfl n rfl h1 h2
    exact found_end h1 h2
  · rintro a w b rfl h1 h2
    exact found_gap h1 h2

/-! ## The tag -/

theorem dense_solid {c : Char} (h : dense c = true) : Solid c := by
  simp only [dense, Bool.and_eq_true, Bool.not_eq_true'] at h
  exact h.1.1.1.1

theorem chunk_tight {w : Chunk} (h : w.Ok) : Chunk.Tight w :=
  ⟨dense_solid h.1, fun c hc => dense_solid (h.2.1 c hc), dense_solid h.2.2⟩

theorem mem_spread {f : Char → Nat → Char → Nat} {e : Option Nat} {l : List Chunk} {c x : Char} (hl : ∀ w ∈ l, w.Ok)
    (h : x ∈ spread f c e l) : dense x = true ∨ x = ' ' ∨ x = '>' := by
  induction l generalizing c with
  | nil =>
    cases e with
    | none =>
      have h : x ∈ ['>'] := h
      exact .inr (.inr (List.mem_singleton.1 h))
    | some n =>
      have h : x ∈ blanks (f c n '>') ++ ['>'] := h
      rw [List.mem_append, List.mem_singleton] at h
      rcases h with h | h
      · exact .inr (.inl (List.mem_replicate.1 h).2)
      · exact .inr (.inr h)
  | cons w l ih =>
    have hw := hl w (by simp)
    rw [spread, List.mem_append, List.mem_cons, List.mem_append, List.mem_cons] at h
    rcases h with h | h | h | h | h
    · exact .inr (.inl (List.mem_replicate.1 h).2)
    · exact .inl (h ▸ hw.1)
    · exact .inl (hw.2.1 x h)
    · exact .inl (h ▸ hw.2.2)
    · exact ih (fun v hv => hl v (by simp [hv])) h

theorem mem_tag {f : Char → Nat → Char → Nat} {e : Option Nat} {l : List Chunk} {m : List Char} {c x : Char}
    (hm : ∀ d ∈ m, dense d = true) (hc : dense c = true) (hl : ∀ w ∈ l, w.Ok) (h : x ∈ m ++ c :: spread f c e l) :
    dense x = true ∨ x = ' ' ∨ x = '>' := by
  rw [List.mem_append, List.mem_cons] at h
  rcases h with h | h | h
  · exact .inl (hm x h)
  · exact .inl (h ▸ hc)
  · exact mem_spread hl h

theorem found_digit {p : Char → Bool} {e : Option Nat} {l : List Chunk} {c : Char} (hl : ∀ w ∈ l, w.Ok)
    (h : e = none ∨ p (lastOf c l) = false) : found p (· == '>') c e l = [] := by
  induction l generalizing c with
  | nil =>
    cases e with
    | none => rfl
    | some n =>
      rcases h with h | h
      · cases h
      · have h : p c = false := h
        simp [found, h]
  | cons w l ih =>
    have hw : (w.first == '>') = false := by
      have := (hl w (by simp)).1
      simp only [dense, Bool.and_eq_true, bne_iff_ne] at this
      simpa using this.2
    rw [found, hw, Bool.and_false, if_neg (by simp), List.nil_append]
    exact ih (fun v hv => hl v (by simp [hv])) h

theorem found_plain {p : Char → Bool} {l : List Chunk} {c : Char} (hl : ∀ w ∈ l, w.first ≠ '>') :
    found p (· == '>') c none l = [] := by
  induction l generalizing c with
  | nil => rfl
  | cons w l ih =>
    have hw : (w.first == '>') = false := by simpa using hl w (by simp)
    rw [found, hw, Bool.and_false, if_neg (by simp), List.nil_append]
    exact ih fun v hv => hl v (by simp [hv])

theorem found_word {p q : Char → Bool} {e : Option Nat} {l : List Chunk} {c : Char} (hq : q '>' = false) (h : NoGap p q c l) :
    found p q c e l = [] := by
  induction l generalizing c with
  | nil => cases e <;> simp [found, hq]
  | cons w l ih =>
    rw [found, if_neg (by rw [Bool.and_eq_true]; exact h.1), List.nil_append]
    exact ih h.2

theorem replacements_nil (a : List (List Char)) : replacements a [] = a := by cases a <;> rfl

theorem tidy_spread {T : Tables} (hT : T.Ok) {e : Option Nat} {l : List Chunk} {m : List Char} {c h : Char}
    (hm : ∀ d ∈ m, dense d = true) (hc : dense c = true) (hl : ∀ w ∈ l, w.Ok) (hh : (m ++ [c]).head? = some h)
    (hw : T.word h = true) (g : Char → Nat → Char → Nat)
    (hg : spaceLoop ((found T.word T.word c e l).map gapText) ((found T.digit (· == '>') c e l).map gapText)
      ('<' :: (m ++ c :: spread asIs c e l)) = '<' :: (m ++ c :: spread g c e l)) :
    tidyTag T ('<' :: (m ++ c :: spread asIs c e l)) = some ('<' :: (m ++ c :: spread g c e l)) := by
  have hs : ∀ d ∈ '<' :: m, Solid d := by
    intro d hd
    rcases List.mem_cons.1 hd with rfl | hd
    · exact ws_lt
    · exact dense_solid (hm d hd)
  have hl' : ∀ w ∈ l, Chunk.Tight w := fun w hw => chunk_tight (hl w hw)
  have quote : ∀ (f : Char → Nat → Char → Nat) (q : Char), q = '"' ∨ q = '\'' → q ∉ '<' :: (m ++ c :: spread f c e l) := by
    intro f q hq hx
    rcases List.mem_cons.1 hx with hx | hx
    · rcases hq with rfl | rfl <;> revert hx <;> decide
    · rcases mem_tag hm hc hl hx with hx | hx | hx
      · rcases hq with rfl | rfl <;> revert hx <;> decide
      · rcases hq with rfl | rfl <;> revert hx <;> decide
      · rcases hq with rfl | rfl <;> revert hx <;> decide
  have lt : '<' ∉ m ++ c :: spread asIs c e l := by
    intro hx
    rcases mem_tag hm hc hl hx with hx | hx | hx <;> revert hx <;> decide
  have second : ∃ r, m ++ c :: spread asIs c e l = h :: r := by
    cases m with
    | nil => simp at hh; subst hh; exact ⟨_, rfl⟩
    | cons d m => simp at hh; subst hh; exact ⟨_, rfl⟩
  obtain ⟨r, hr⟩ := second
  have hne : ∀ d, d.toNat < 128 → (d.isAlphanum || d == '_') = false → h ≠ d := by
    rintro d h1 h2 rfl
    rw [hT.word_ascii _ h1, h2] at hw; cases hw
  have none1 : ∀ (q : Char) (f : Hit → List Char), q = '"' ∨ q = '\'' → replaceAll (spacesBeforeClose q) f
      ('<' :: (m ++ c :: spread asIs c e l)) = '<' :: (m ++ c :: spread asIs c e l) := by
    intro q f hq
    refine replaceAll_none (solid_spacesBeforeClose _) fun a t b e hl => quote asIs q hq ?_
    obtain ⟨w, rfl, -⟩ := lang_spacesBeforeClose.1 hl
    rw [e]; simp
  have f1 : findIter (betweenWords T) ('<' :: (m ++ c :: spread asIs c e l)) = (found T.word T.word c e l).map gapText := by
    have := find_mid (p := T.word) (q := T.word) ('<' :: m) (spread asIs c e l) hs (dense_solid hc)
    rw [find_spread hT.word_space hT.word_space e l hl' c (dense_solid hc)] at this
    exact this
  have f3 : findIter (extraSpaces3 T) ('<' :: (m ++ c :: spread asIs c e l)) = (found T.digit (· == '>') c e l).map gapText := by
    have := find_mid (p := T.digit) (q := (· == '>')) ('<' :: m) (spread asIs c e l) hs (dense_solid hc)
    rw [find_spread (fun c hc => hT.word_space c (hT.digit_word c hc)) (fun c hc => by
      rw [beq_iff_eq] at hc; subst hc; exact ws_gt) e l hl' c (dense_solid hc)] at this
    exact this
  rw [tidyTag, if_neg]
  · simp only
    rw [none1 '"' _ (.inl rfl), none1 '\'' _ (.inr rfl), f1, f3, hg, findIter_nil_of (solid_extraSpaces2 T) fun a t b e hl => by
      obtain ⟨q, x, y, r, hq, ht, -⟩ := lang_extraSpaces2 hl
      exact quote g q hq (by rw [e, ht]; simp)]
    show some (replaceAll quotesInTag unquote _) = _
    rw [replaceAll_none solid_quotesInTag fun a t b e hl => by
      obtain ⟨k, v, ht, -⟩ := lang_quotes.1 hl
      exact quote g '"' (.inl rfl) (by rw [e, ht]; simp)]
  · rw [Bool.or_eq_true]
    rintro (k | k)
    · obtain ⟨u, k⟩ := startsWith_iff.1 k
      rw [hr] at k
      exact hne '!' (by decide) (by decide) (List.cons.inj (List.cons.inj k).2).1
    · obtain ⟨a, b, k⟩ := contains_iff.1 k
      cases a with
      | nil =>
        rw [hr] at k
        exact hne '/' (by decide) (by decide) (List.cons.inj (List.cons.inj k).2).1
      | cons d a =>
        have := (List.cons.inj k).2
        exact lt (by rw [this]; simp)

theorem tidy_words {T : Tables} (hT : T.Ok) {e : Option Nat} {l : List Chunk} {m : List Char} {c h : Char}
    (hm : ∀ d ∈ m, dense d = true) (hc : dense c = true) (hl : ∀ w ∈ l, w.Ok) (hh : (m ++ [c]).head? = some h)
    (hw : T.word h = true) (hd : e = none ∨ T.digit (lastOf c l) = false) :
    tidyTag T ('<' :: (m ++ c :: spread asIs c e l)) = some ('<' :: (m ++ c :: spread (oneBetween T.word T.word) c e l)) := by
  refine tidy_spread hT hm hc hl hh hw _ ?_
  rw [found_digit hl hd, List.map_nil, spaceLoop, replacements_nil]
  have := loop_spread (m := '<' :: m) (c := c) (by
    intro d hd
    rcases List.mem_cons.1 hd with rfl | hd
    · exact ws_lt
    · exact dense_solid (hm d hd)) (dense_solid hc) e l (fun w hw => chunk_tight (hl w hw)) (found T.word T.word c e l)
    (fun x hx => ⟨hT.word_space _ (mem_found hx).1, hT.word_space _ (mem_found hx).2⟩) asIs
  rw [fold_found] at this
  exact this

theorem tidy_close {T : Tables} (hT : T.Ok) {e : Option Nat} {l : List Chunk} {m : List Char} {c h : Char}
    (hm : ∀ d ∈ m, dense d = true) (hc : dense c = true) (hl : ∀ w ∈ l, w.Ok) (hh : (m ++ [c]).head? = some h)
    (hw : T.word h = true) (hd : NoGap T.word T.word c l) :
    tidyTag T ('<' :: (m ++ c :: spread asIs c e l)) = some ('<' :: (m ++ c :: spread (oneBetween T.digit (· == '>')) c e l)) := by
  have hgt : T.word '>' = false := by rw [hT.word_ascii _ (by decide)]; decide
  refine tidy_spread hT hm hc hl hh hw _ ?_
  rw [found_word hgt hd, List.map_nil, spaceLoop, replacements]
  have := loop_spread (m := '<' :: m) (c := c) (by
    intro d hd
    rcases List.mem_cons.1 hd with rfl | hd
    · exact ws_lt
    · exact dense_solid (hm d hd)) (dense_solid hc) e l (fun w hw => chunk_tight (hl w hw)) (found T.digit (· == '>') c e l)
    (fun x hx => ⟨hT.word_space _ (hT.digit_word _ (mem_found hx).1), by
      have := (mem_found hx).2
      rw [beq_iff_eq] at this
      rw [this]; exact ws_gt⟩) asIs
  rw [fold_found] at this
  exact this

/-- A start tag is one match. -/
theorem tagOut_start {T : Tables} {t : List Char} (h1 : '<' ∉ t) (h2 : '>' ∉ t) (hT : T.Ok) {h : Char} {r : List Char}
    (e : t = h :: r) (hw : T.word h = true) (hn : '\n' ∉ r) : tagOut T t = tidyTag T ('<' :: (t ++ ['>'])) := by
  rcases (anyTag_taglike hT).tag t h2 with hh | hh
  · obtain ⟨b, bb, f1, f2, f3⟩ := hh []
    rw [tagOut, replaceAllM_hit (solid_anyTag T) _ f1, f2, f3, replaceAllM_nil]
    cases tidyTag T ('<' :: (t ++ ['>'])) <;> simp
  · have := ends_nil.1 (hh []) ('<' :: (t ++ ['>'])) [] (by simp)
    refine absurd ?_ this
    subst e
    refine ⟨['<'], h :: r ++ ['>'], rfl, ⟨'<', rfl, by simp⟩, [h], r ++ ['>'], rfl, ⟨h, rfl, hw⟩, r, ['>'], rfl, ?_, '>', rfl, by simp⟩
    intro c hc
    simp only [notNl, bne_iff_ne, ne_eq]
    rintro rfl
    exact hn hc

end Verif.Html
