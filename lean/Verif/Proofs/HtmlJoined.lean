import Verif.Proofs.HtmlBlanks
import Verif.Proofs.HtmlTags
import Verif.Proofs.HtmlQuotes
/-!
# Tags with gaps between words and before the end

The texts of the first gap between words and of the gap before the end are joined, and the program looks for that.
-/
set_option linter.unusedSimpArgs false
namespace Verif.Html
open Verif.Spec.Html

theorem oneSpace_solid {c : Char} (s : List Char) (hc : Solid c) : oneSpace (c :: s) = c :: oneSpace s := by
  refine replaceAll_miss _ (ends_nil.2 fun t u e hl => ?_)
  obtain ⟨k1, k2⟩ := lang_extraSpaces hl
  match t, k1 with
  | d :: t, _ =>
    have := k2 d (by simp)
    rw [← (List.cons.inj e).1] at this
    rw [hc] at this; cases this

theorem oneSpace_gap_append {x : Char × Nat × Char} (h1 : Solid x.1) (h2 : Solid x.2.2) (r : List Char) :
    oneSpace (gapText x ++ r) = [x.1, ' ', x.2.2] ++ oneSpace r := by
  obtain ⟨a, n, b⟩ := x
  show oneSpace (a :: (blanks n ++ [b] ++ r)) = _
  rw [oneSpace_solid _ h1, List.append_assoc, List.singleton_append]
  have hb : oneSpace (b :: r) = b :: oneSpace r := oneSpace_solid _ h2
  cases n with
  | zero =>
    show a :: oneSpace (' ' :: b :: r) = _
    rw [show oneSpace (' ' :: b :: r) = ' ' :: oneSpace (b :: r) from ?_, hb]; rfl
    refine replaceAll_miss _ (ends_nil.2 fun t u e hl => ?_)
    obtain ⟨k1, k2⟩ := lang_extraSpaces hl
    match t, k1 with
    | c :: d :: t, _ =>
      have := k2 d (by simp)
      simp only [List.cons_append, List.cons.injEq] at e
      rw [← e.2.1, h2] at this; cases this
  | succ n =>
    obtain ⟨hh, g1⟩ := plus_head (p := space) (c := ' ') (s := List.replicate n ' ' ++ b :: r) ws_sp
    obtain ⟨e1, e2⟩ := takeWhile_gap (w := List.replicate n ' ') (r := b :: r) (fun x hx => by
      rw [(List.mem_replicate.1 hx).2]; exact ws_sp) (fun c hc => by
        simp only [List.head?_cons, Option.some.injEq] at hc
        subst hc; exact h2)
    rw [e1, e2] at g1
    have h0 : ∃ hh, ends extraSpaces (' ' :: ' ' :: (List.replicate n ' ' ++ b :: r)) =
        ⟨' ' :: ' ' :: List.replicate n ' ', b :: r, []⟩ :: hh := by
      rw [extraSpaces, ends, show Re.c ' ' = .ch (· == ' ') from rfl, ends_ch_seq, if_pos (by simp), g1, List.map_cons]
      exact ⟨_, List.cons_append⟩
    obtain ⟨hh, h0⟩ := h0
    show a :: oneSpace (' ' :: ' ' :: (List.replicate n ' ' ++ b :: r)) = _
    rw [show oneSpace (' ' :: ' ' :: (List.replicate n ' ' ++ b :: r)) = _ from replaceAll_hit solid_extraSpaces _ h0]
    show a :: ([' '] ++ oneSpace (b :: r)) = _
    rw [hb]; rfl

/-! ## The last gap -/

/-- All up to the last character before the last gap. -/
def front (f : Char → Nat → Char → Nat) (c : Char) : List Chunk → List Char
  | [] => []
  | v :: l => c :: (blanks (f c v.extra v.first) ++ v.first :: (v.mid ++ front f v.last l))

theorem spread_front (f : Char → Nat → Char → Nat) (c : Char) (e : Option Nat) (l b : List Chunk) :
    c :: spread f c e (l ++ b) = front f c l ++ lastOf c l :: spread f (lastOf c l) e b := by
  induction l generalizing c with
  | nil => rfl
  | cons v l ih =>
    show c :: (blanks (f c v.extra v.first) ++ v.first :: (v.mid ++ v.last :: spread f v.last e (l ++ b))) = _
    rw [ih]; simp [front, lastOf]

theorem front_congr {f g : Char → Nat → Char → Nat} (c : Char) (l : List Chunk)
    (h : ∀ a v b, l = a ++ v :: b → f (lastOf c a) v.extra v.first = g (lastOf c a) v.extra v.first) : front f c l = front g c l := by
  induction l generalizing c with
  | nil => rfl
  | cons v l ih =>
    rw [front, front, ih v.last fun a w b e => h (v :: a) w b (by rw [e]; rfl), show f c v.extra v.first = g c v.extra v.first from h [] v l rfl]

theorem lastOf_append (c : Char) (a b : List Chunk) : lastOf c (a ++ b) = lastOf (lastOf c a) b := by
  induction a generalizing c with
  | nil => rfl
  | cons v a ih => exact ih _

theorem gaps_append (p : Char → Bool) (c : Char) (a b : List Chunk) : gaps p c (a ++ b) = gaps p c a ++ gaps p (lastOf c a) b := by
  induction a generalizing c with
  | nil => rfl
  | cons v a ih => rw [List.cons_append, gaps, gaps, ih, List.append_assoc]; rfl

theorem found_gaps {p : Char → Bool} (hp : p '>' = false) (c : Char) (e : Option Nat) (l : List Chunk) : found p p c e l = gaps p c l := by
  induction l generalizing c with
  | nil => cases e <;> simp [found, gaps, hp]
  | cons w l ih => rw [found, gaps, ih]

theorem mem_gaps {p : Char → Bool} {c : Char} {l : List Chunk} {x : Char × Nat × Char} (h : x ∈ gaps p c l) :
    p x.1 = true ∧ p x.2.2 = true := by
  induction l generalizing c with
  | nil => cases h
  | cons w l ih =>
    rw [gaps, List.mem_append] at h
    rcases h with h | h
    · split at h
      · rename_i k
        rw [Bool.and_eq_true] at k
        rw [List.mem_singleton.1 h]; exact k
      · cases h
    · exact ih h

theorem noGap_iff {p : Char → Bool} {c : Char} {l : List Chunk} : NoGap p p c l ↔ gaps p c l = [] := by
  induction l generalizing c with
  | nil => simp [NoGap, gaps]
  | cons w l ih =>
    rw [NoGap, gaps, ih, List.append_eq_nil_iff]
    refine and_congr ?_ Iff.rfl
    by_cases h : (p c && p w.first) = true
    · simp only [h, if_true]; simp_all
    · simp only [h]; simp_all

theorem gaps_mem {p : Char → Bool} {c : Char} {a b : List Chunk} {w : Chunk} (h1 : p (lastOf c a) = true) (h2 : p w.first = true) :
    (lastOf c a, w.extra, w.first) ∈ gaps p c (a ++ w :: b) := by
  rw [gaps_append, gaps, h1, h2]; simp

theorem found_close {T : Tables} {n : Nat} {l : List Chunk} {c : Char} (hl : ∀ w ∈ l, w.Ok) (h : T.digit (lastOf c l) = true) :
    found T.digit (· == '>') c (some n) l = [(lastOf c l, n, '>')] := by
  induction l generalizing c with
  | nil => simp [found, lastOf] at *; exact h
  | cons w l ih =>
    have hw : (w.first == '>') = false := by
      rw [beq_eq_false_iff_ne]; intro hx
      have := (hl w (by simp)).1
      rw [hx] at this; revert this; decide
    rw [found, hw, Bool.and_false, ih (fun v hv => hl v (by simp [hv])) h]; rfl

/-- Blanks at the end. -/
theorem blanks_tail {u v : List Char} {a b : Char} {i k : Nat} (ha : Solid a) (hb : Solid b)
    (e : u ++ a :: blanks i = v ++ b :: blanks k) : a = b ∧ i = k := by
  have e := congrArg List.reverse e
  simp only [List.reverse_append, List.reverse_cons, List.append_assoc, blanks, List.reverse_replicate, List.singleton_append] at e
  have key : ∀ (i k : Nat) (x y : List Char), List.replicate i ' ' ++ a :: x = List.replicate k ' ' ++ b :: y → a = b ∧ i = k := by
    intro i
    induction i with
    | zero =>
      intro k x y e
      cases k with
      | zero => exact ⟨(List.cons.inj e).1, rfl⟩
      | succ k =>
        rw [List.replicate_succ] at e
        have := (List.cons.inj e).1
        rw [this] at ha; exact absurd ws_sp (by rw [ha]; simp)
    | succ i ih =>
      intro k x y e
      cases k with
      | zero =>
        rw [List.replicate_succ] at e
        have := (List.cons.inj e).1
        rw [← this] at hb; exact absurd ws_sp (by rw [hb]; simp)
      | succ k =>
        rw [List.replicate_succ, List.replicate_succ] at e
        obtain ⟨h1, h2⟩ := ih k x y (List.cons.inj e).2
        exact ⟨h1, by rw [h2]⟩
  obtain ⟨h1, h2⟩ := key _ _ _ _ e
  exact ⟨h1, by omega⟩

/-- `>` is at the end only. -/
theorem spread_stop {f : Char → Nat → Char → Nat} {e : Option Nat} {l : List Chunk} (hl : ∀ w ∈ l, w.Ok) (c : Char) :
    ∃ y, spread f c e l = y ++ ['>'] ∧ '>' ∉ y := by
  induction l generalizing c with
  | nil =>
    cases e with
    | none => exact ⟨[], rfl, by simp⟩
    | some n => exact ⟨blanks (f c n '>'), rfl, fun h => absurd (List.mem_replicate.1 h).2 (by decide)⟩
  | cons w l ih =>
    obtain ⟨y, h1, h2⟩ := ih (fun v hv => hl v (by simp [hv])) w.last
    have hw := hl w (by simp)
    have gt : ∀ d, dense d = true → '>' ≠ d := by
      rintro d hd rfl; revert hd; decide
    refine ⟨blanks (f c w.extra w.first) ++ w.first :: (w.mid ++ w.last :: y), by rw [spread, h1]; simp, ?_⟩
    simp only [List.mem_append, List.mem_cons, not_or]
    exact ⟨fun h => absurd (List.mem_replicate.1 h).2 (by decide), gt _ hw.1, fun h => gt _ (hw.2.1 _ h) rfl, gt _ hw.2.2, h2⟩

theorem tag_stop {f : Char → Nat → Char → Nat} {e : Option Nat} {l : List Chunk} {m : List Char} {c : Char}
    (hm : ∀ d ∈ m, dense d = true) (hc : dense c = true) (hl : ∀ w ∈ l, w.Ok) :
    ∃ y, '<' :: (m ++ c :: spread f c e l) = y ++ ['>'] ∧ '>' ∉ y := by
  obtain ⟨y, h1, h2⟩ := spread_stop (f := f) (e := e) hl c
  have gt : ∀ d, dense d = true → '>' ≠ d := by
    rintro d hd rfl; revert hd; decide
  refine ⟨'<' :: (m ++ c :: y), by rw [h1]; simp, ?_⟩
  simp only [List.mem_append, List.mem_cons, not_or]
  exact ⟨by decide, fun h => gt _ (hm _ h) rfl, gt _ hc, h2⟩

theorem spread_snoc (f : Char → Nat → Char → Nat) (m : List Char) (c : Char) (n : Nat) (a : List Chunk) (w : Chunk) :
    '<' :: (m ++ c :: spread f c (some n) (a ++ [w])) = ('<' :: m ++ front f c a) ++
      lastOf c a :: (blanks (f (lastOf c a) w.extra w.first) ++ w.first :: (w.mid ++ w.last :: (blanks (f w.last n '>') ++ ['>']))) := by
  rw [spread_front]
  show _ = _ ++ lastOf c a :: spread f (lastOf c a) (some n) [w]
  simp

/-- The joined text is found only at the end, and only there if the last gap looks like the first one. -/
theorem joined_twin {p : Char → Bool} {l : List Chunk} {m u v : List Char} {c : Char} {n : Nat} {x : Char × Nat × Char}
    {H : List (Char × Nat × Char)} (hp : ∀ c, p c = true → Solid c) (hm : ∀ d ∈ m, dense d = true) (hc : dense c = true)
    (hl : ∀ w ∈ l, w.Ok) (hx : gaps p c l = x :: H)
    (e : '<' :: (m ++ c :: spread asIs c (some n) l) = u ++ (gapText x ++ gapText (lastOf c l, n, '>')) ++ v) : Twin p c l := by
  obtain ⟨y, h1, h2⟩ := tag_stop (f := asIs) (e := some n) hm hc hl
  have hv : v = [] := by
    rcases List.eq_nil_or_concat v with hv | ⟨v, z, rfl⟩
    · exact hv
    · exfalso
      rw [h1, List.concat_eq_append, ← List.append_assoc] at e
      have := List.append_inj_left' e rfl
      exact h2 (by rw [this, gapText, gapText]; simp)
  subst hv
  rw [List.append_nil] at e
  rcases List.eq_nil_or_concat l with rfl | ⟨a, w, hl'⟩
  · cases hx
  · rw [List.concat_eq_append] at hl'
    subst hl'
    have hw := chunk_tight (hl w (by simp))
    have ha : Solid (lastOf c a) := by
      have : ∀ (a : List Chunk) (c : Char), Solid c → (∀ w ∈ a, w.Ok) → Solid (lastOf c a) := by
        intro a
        induction a with
        | nil => intro c hc _; exact hc
        | cons w a ih => intro c _ h; exact ih w.last (chunk_tight (h w (by simp))).2.2 fun v hv => h v (by simp [hv])
      exact this a c (dense_solid hc) fun w hw => hl w (by simp [hw])
    have hg := mem_gaps (x := x) (by rw [hx]; simp)
    rw [spread_snoc, lastOf_append] at e
    have e : ('<' :: m ++ front asIs c a ++ lastOf c a :: (blanks w.extra ++ w.first :: w.mid)) ++ w.last :: (blanks n ++ ['>']) =
        (u ++ x.1 :: (blanks x.2.1 ++ [x.2.2])) ++ w.last :: (blanks n ++ ['>']) := by
      rw [gapText, gapText] at e
      simpa [asIs, lastOf] using e
    have e := List.append_cancel_right e
    have hmid : w.mid = [] := by
      rcases List.eq_nil_or_concat w.mid with h | ⟨k, z, h⟩
      · exact h
      · exfalso
        rw [h, List.concat_eq_append] at e
        have e : ('<' :: m ++ front asIs c a ++ lastOf c a :: (blanks w.extra ++ w.first :: k)) ++ [z] = (u ++ x.1 :: blanks x.2.1) ++ [x.2.2] := by
          simpa using e
        have e := List.append_inj_left' e rfl
        have e := congrArg List.getLast? e
        have hr : (u ++ x.1 :: blanks x.2.1).getLast? = some ' ' := by
          rw [blanks, List.replicate_succ', show u ++ x.1 :: (List.replicate x.2.1 ' ' ++ [' ']) = (u ++ x.1 :: List.replicate x.2.1 ' ') ++ [' '] from by simp,
            List.getLast?_append]; rfl
        rw [hr] at e
        have hmem : ' ' ∈ w.first :: k := by
          have : ('<' :: m ++ front asIs c a ++ lastOf c a :: (blanks w.extra ++ w.first :: k)) =
            ('<' :: m ++ front asIs c a ++ lastOf c a :: blanks w.extra) ++ (w.first :: k) := by simp
          rw [this, List.getLast?_append, List.getLast?_eq_some_getLast (by simp), Option.some_or] at e
          have := Option.some.inj e
          rw [← this]; exact List.getLast_mem _
        have : Solid ' ' := by
          rcases List.mem_cons.1 hmem with h' | h'
          · rw [h']; exact hw.1
          · exact hw.2.1 _ (by rw [h, List.concat_eq_append]; simp [h'])
        exact absurd ws_sp (by rw [this]; simp)
    rw [hmid] at e
    have e : ('<' :: m ++ front asIs c a ++ lastOf c a :: blanks w.extra) ++ [w.first] = (u ++ x.1 :: blanks x.2.1) ++ [x.2.2] := by
      simpa using e
    obtain ⟨e1, e2⟩ := List.append_inj' e rfl
    obtain ⟨g1, g2⟩ := blanks_tail ha (hp _ hg.1) e1
    refine ⟨a, w, rfl, hmid, ?_⟩
    rw [hx, g1, g2, (List.cons.inj e2).1]; rfl

theorem replaceStr_end {k p : List Char} (hk : '>' ∉ k) (hp : '>' ∉ p) (to : List Char) :
    replaceStr (k ++ ['>']) to (p ++ (k ++ ['>'])) = p ++ to := by
  induction p with
  | nil =>
    have := replaceStr_hit (pat := k ++ ['>']) (to := to) (u := []) (by simp)
    rw [List.append_nil, replaceStr_nil, List.append_nil] at this
    exact this
  | cons d p ih =>
    rw [List.cons_append, replaceStr_miss _ (by simp), ih fun h => hp (by simp [h])]; rfl
    rintro ⟨u, e⟩
    have e : (d :: p ++ k) ++ '>' :: [] = k ++ '>' :: u := by simpa using e
    have := (class_split (p := (· != '>')) (fun c hc => bne_iff_ne.2 fun h => by
      rw [h, List.mem_append] at hc
      rcases hc with hc | hc
      · exact hp hc
      · exact hk hc) (fun c hc => bne_iff_ne.2 fun h => hk (h ▸ hc)) (by decide) (by decide) e).1
    have := congrArg List.length this
    simp at this; omega

theorem tidy_joined {T : Tables} (hT : T.Ok) {l : List Chunk} {m : List Char} {c h : Char} {n : Nat} {x : Char × Nat × Char}
    {H : List (Char × Nat × Char)} (hm : ∀ d ∈ m, dense d = true) (hc : dense c = true) (hl : ∀ w ∈ l, w.Ok)
    (hh : (m ++ [c]).head? = some h) (hw : T.word h = true) (hd : T.digit (lastOf c l) = true) (hx : gaps T.word c l = x :: H) :
    (¬ Twin T.word c l → tidyTag T ('<' :: (m ++ c :: spread asIs c (some n) l)) =
      some ('<' :: (m ++ c :: spread (oneFor H) c (some n) l))) ∧
    (Twin T.word c l → tidyTag T ('<' :: (m ++ c :: spread asIs c (some n) l)) =
      some ('<' :: (m ++ c :: spread (oneBoth T.word T.digit) c (some n) l))) := by
  have hgt : T.word '>' = false := by rw [hT.word_ascii _ (by decide)]; decide
  have hs : ∀ d ∈ '<' :: m, Solid d := by
    intro d hd
    rcases List.mem_cons.1 hd with rfl | hd
    · exact ws_lt
    · exact dense_solid (hm d hd)
  have hH : ∀ y ∈ x :: H, T.word y.1 = true ∧ T.word y.2.2 = true := fun y hy => mem_gaps (by rw [hx]; exact hy)
  have hHs : ∀ y ∈ H, Solid y.1 ∧ Solid y.2.2 := fun y hy =>
    ⟨hT.word_space _ (hH y (by simp [hy])).1, hT.word_space _ (hH y (by simp [hy])).2⟩
  have hf : H.foldl narrow asIs = oneFor H := by
    funext a n b
    rw [narrow_fold H asIs [] (by intro c n d; simp [asIs]), List.nil_append]; rfl
  have start : ∀ g, (H.map gapText).foldl (fun tag x => replaceStr x (oneSpace x) tag)
      (replaceStr (gapText x ++ gapText (lastOf c l, n, '>')) (oneSpace (gapText x ++ gapText (lastOf c l, n, '>')))
        ('<' :: (m ++ c :: spread asIs c (some n) l))) = '<' :: (m ++ c :: spread g c (some n) l) →
      tidyTag T ('<' :: (m ++ c :: spread asIs c (some n) l)) = some ('<' :: (m ++ c :: spread g c (some n) l)) := by
    intro g hg
    refine tidy_spread hT hm hc hl hh hw _ ?_
    rw [found_gaps hgt, hx, found_close hl hd, List.map_cons, List.map_cons, List.map_nil, spaceLoop, replacements, replacements_nil]
    exact hg
  constructor
  · intro ht
    refine start _ ?_
    rw [replaceStr_absent (fun u v e => ht (joined_twin hT.word_space hm hc hl hx e)) (by simp [gapText])]
    have := loop_spread (m := '<' :: m) hs (dense_solid hc) (some n) l (fun w hw => chunk_tight (hl w hw)) H hHs asIs
    rw [hf] at this
    exact this
  · rintro ⟨a, w, rfl, hmid, ht⟩
    rw [hx] at ht
    have ht : x = (lastOf c a, w.extra, w.first) := Option.some.inj ht
    have hlw : lastOf c (a ++ [w]) = w.last := by rw [lastOf_append]; rfl
    rw [hlw] at hd start
    have hx1 := hH x (by simp)
    refine start _ ?_
    have htag : '<' :: (m ++ c :: spread asIs c (some n) (a ++ [w])) = ('<' :: m ++ front asIs c a) ++
        ((gapText x ++ w.last :: blanks n) ++ ['>']) := by
      rw [spread_snoc, ht, hmid, gapText]; simp [asIs]
    have hJ : gapText x ++ gapText (w.last, n, '>') = (gapText x ++ w.last :: blanks n) ++ ['>'] := by
      rw [gapText, gapText]; simp
    obtain ⟨y, s1, s2⟩ := tag_stop (f := asIs) (e := some n) hm hc hl
    have hy : y = ('<' :: m ++ front asIs c a) ++ (gapText x ++ w.last :: blanks n) := by
      rw [htag, ← List.append_assoc] at s1
      exact (List.append_inj_left' s1 rfl).symm
    have hone : oneSpace (gapText x ++ gapText (w.last, n, '>')) = [x.1, ' ', x.2.2, w.last, ' ', '>'] := by
      rw [oneSpace_gap_append (hT.word_space _ hx1.1) (hT.word_space _ hx1.2),
        oneSpace_gap (x := (w.last, n, '>')) (hT.word_space _ (hT.digit_word _ hd)) ws_gt]; rfl
    rw [hone, hJ, htag, replaceStr_end (fun h => s2 (by rw [hy]; exact List.mem_append.2 (.inr h)))
      (fun h => s2 (by rw [hy]; exact List.mem_append.2 (.inl h)))]
    have hnew : '<' :: m ++ front asIs c a ++ [x.1, ' ', x.2.2, w.last, ' ', '>'] =
        '<' :: (m ++ c :: spread asIs c (some 0) (a ++ [{ w with extra := 0 }])) := by
      rw [spread_snoc, ht, hmid]; simp [asIs, blanks]
    have hl0 : ∀ v ∈ a ++ [{ w with extra := 0 }], Chunk.Tight v := by
      intro v hv
      rcases List.mem_append.1 hv with hv | hv
      · exact chunk_tight (hl v (by simp [hv]))
      · rw [List.mem_singleton.1 hv]
        exact chunk_tight (w := w) (hl w (by simp))
    have := loop_spread (m := '<' :: m) hs (dense_solid hc) (some 0) _ hl0 H hHs asIs
    rw [hf] at this
    rw [hnew]
    refine this.trans ?_
    show '<' :: (m ++ c :: spread (oneFor H) c (some 0) (a ++ [{ w with extra := 0 }])) = _
    rw [spread_snoc, spread_snoc]
    have g1 : gaps T.word c a ++ [x] = x :: H := by
      rw [← hx, gaps_append, gaps, gaps, List.append_nil, ht]
      rw [ht] at hx1
      simp only at hx1
      rw [hx1.1, hx1.2]; rfl
    have sub : ∀ y ∈ gaps T.word c a, y ∈ H := by
      intro q hq
      cases hga : gaps T.word c a with
      | nil => rw [hga] at hq; cases hq
      | cons z R =>
        rw [hga, List.cons_append] at g1
        obtain ⟨g0, g1⟩ := List.cons.inj g1
        rw [hga] at hq
        rw [← g1]
        rcases List.mem_cons.1 hq with e | hq
        · rw [e, g0]; simp
        · simp [hq]
    have hfront : front (oneFor H) c a = front (oneBoth T.word T.digit) c a := by
      refine front_congr c a fun b v d e => ?_
      have hv : (v.first == '>') = false := by
        rw [beq_eq_false_iff_ne]; intro hx
        have := (hl v (by rw [e]; simp)).1
        rw [hx] at this; revert this; decide
      rw [oneFor, oneBoth, hv, Bool.and_false, Bool.or_false]
      by_cases hb : T.word (lastOf c b) = true ∧ T.word v.first = true
      · rw [if_pos, if_pos (by rw [hb.1, hb.2]; rfl)]
        exact sub _ (by rw [e]; exact gaps_mem hb.1 hb.2)
      · rw [if_neg, if_neg (by rw [Bool.and_eq_true]; exact hb)]
        exact fun hm => hb (hH _ (List.mem_cons_of_mem _ hm))
    have z1 : ∀ a b, oneFor H a 0 b = 0 := by intro a b; rw [oneFor]; split <;> rfl
    have z2 : oneBoth T.word T.digit (lastOf c a) w.extra w.first = 0 := by
      rw [ht] at hx1
      simp only at hx1
      rw [oneBoth, hx1.1, hx1.2]; rfl
    have z3 : oneBoth T.word T.digit w.last n '>' = 0 := by rw [oneBoth, hd]; simp
    rw [hfront, z1, z1, z2, z3]

end Verif.Html
