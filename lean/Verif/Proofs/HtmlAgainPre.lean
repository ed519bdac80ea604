import Verif.Proofs.HtmlAgain
import Verif.Proofs.HtmlClose
/-!
# Tags with wide gaps, a second time
-/
set_option linter.unusedSimpArgs false
namespace Verif.Html
open Verif.Spec.Html

theorem sized_shape {word : Char → Bool} {w : Chunk} (hf : w.Fair word) (hs : w.sized = true) :
    ∃ k v, (k = "width".toList ∨ k = "height".toList) ∧ v ≠ [] ∧ (∀ c ∈ v, plainSign c = true) ∧
      w.text = k ++ '=' :: '"' :: (v ++ ['"']) := by
  have ew : "width=\"".toList = "width".toList ++ ['=', '"'] := by decide +kernel
  have eh : "height=\"".toList = "height".toList ++ ['=', '"'] := by decide +kernel
  have : ∃ k b, (k = "width".toList ∨ k = "height".toList) ∧ w.text = k ++ '=' :: '"' :: b := by
    rw [Chunk.sized, Bool.or_eq_true] at hs
    rcases hs with h | h
    · obtain ⟨b, h⟩ := isPrefix_iff.1 h
      exact ⟨_, b, .inl rfl, by rw [h, ew]; simp⟩
    · obtain ⟨b, h⟩ := isPrefix_iff.1 h
      exact ⟨_, b, .inr rfl, by rw [h, eh]; simp⟩
  obtain ⟨k, b, hk, e⟩ := this
  obtain ⟨-, v, v1, v2, rfl⟩ := hf.2.2 k hk [] b e
  exact ⟨k, v, hk, v1, v2, e⟩

theorem size_chars {k : List Char} (hk : k = "width".toList ∨ k = "height".toList) :
    ∃ a k', k = a :: k' ∧ ∀ c ∈ k, c ≠ '"' ∧ c ≠ '=' ∧ c.toNat < 128 ∧ (c.isAlphanum || c == '_') = true := by
  rcases hk with rfl | rfl
  · exact ⟨'w', "idth".toList, by decide +kernel, by decide +kernel⟩
  · exact ⟨'h', "eight".toList, by decide +kernel, by decide +kernel⟩

theorem bare_shape {word : Char → Bool} {w : Chunk} (hf : w.Fair word) (hs : w.sized = true) :
    ∃ k v z, (k = "width".toList ∨ k = "height".toList) ∧ (∀ c ∈ v ++ [z], plainSign c = true) ∧ w.last = '"' ∧
      w.text = k ++ '=' :: '"' :: (v ++ [z] ++ ['"']) ∧ w.bare.text = k ++ '=' :: (v ++ [z]) ∧ w.bare.last = z := by
  obtain ⟨k, v, hk, v1, v2, e⟩ := sized_shape hf hs
  obtain ⟨a, k', rfl, hc⟩ := size_chars hk
  have hv : v = v.dropLast ++ [v.getLast v1] := (List.dropLast_concat_getLast v1).symm
  generalize v.dropLast = v' at hv
  generalize v.getLast v1 = z at hv
  subst hv
  have e' : w.first :: (w.mid ++ [w.last]) = a :: ((k' ++ '=' :: '"' :: (v' ++ [z])) ++ ['"']) := by
    have := e; rw [Chunk.text] at this; rw [this]; simp
  obtain ⟨e1, e2⟩ := List.cons.inj e'
  have e3 := List.append_inj_left' e2 rfl
  have e4 := (List.cons.inj (List.append_inj_right' e2 rfl)).1
  have hk' : k'.filter (· != '"') = k' := by
    rw [List.filter_eq_self]
    intro c hc'
    rw [bne_iff_ne]; exact (hc c (by simp [hc'])).1
  have hv' : (v' ++ [z]).filter (· != '"') = v' ++ [z] := filter_signs fun c hc => plainSign_simple (v2 c hc)
  have hm : w.mid.filter (· != '"') = (k' ++ '=' :: v') ++ [z] := by
    rw [e3, List.filter_append, hk', List.filter_cons_of_pos (by decide), List.filter_cons_of_neg (by decide), hv']
    simp
  refine ⟨a :: k', v', z, hk, v2, e4, e, ?_, ?_⟩
  · rw [Chunk.bare, if_pos hs, Chunk.text]
    simp only [hm, e1, List.dropLast_concat, List.getLast?_concat]
    simp
  · rw [Chunk.bare, if_pos hs]
    simp only [hm, List.getLast?_concat, Option.getD_some]

theorem bare_attr {T : Tables} (hT : T.Ok) {w : Chunk} (hf : w.Fair T.word) (hs : w.sized = true) : w.attr T.word = true := by
  obtain ⟨k, v, z, hk, -, -, e, -⟩ := bare_shape hf hs
  obtain ⟨a, k', h1, hc⟩ := size_chars hk
  have hw : ∀ c ∈ k, T.word c = true := by
    intro c h
    rw [hT.word_ascii _ (hc c h).2.2.1]; exact (hc c h).2.2.2
  have he : T.word '=' = false := by rw [hT.word_ascii _ (by decide)]; decide
  rw [Chunk.attr, e, List.takeWhile_append_of_pos hw, List.dropWhile_append_of_pos hw, List.takeWhile_cons_of_neg (by simp [he]),
    List.dropWhile_cons_of_neg (by simp [he]), h1]
  rfl

theorem bare_fair {T : Tables} (hT : T.Ok) {w : Chunk} (hf : w.Fair T.word) : w.bare.Fair T.word ∧ unquoted w.text = w.bare.text ∧
    unquoted w.bare.text = w.bare.text := by
  by_cases hs : w.sized = true
  · obtain ⟨k, v, z, hk, hv, -, e, eb, -⟩ := bare_shape hf hs
    obtain ⟨a, k', h1, hc⟩ := size_chars hk
    have hne : ∀ d, plainSign d = false → d ∉ v ++ [z] := by
      intro d hd hm
      rw [hv d hm] at hd; cases hd
    have hq : '"' ∉ w.bare.text := by
      rw [eb]
      intro h
      rcases List.mem_append.1 h with h | h
      · exact (hc _ h).1 rfl
      · rcases List.mem_cons.1 h with h | h
        · exact absurd h (by decide)
        · exact hne _ (by decide +kernel) h
    have hfil : w.bare.text.filter (· != '"') = w.bare.text := by
      rw [List.filter_eq_self]
      intro c hc'
      rw [bne_iff_ne]; rintro rfl; exact hq hc'
    refine ⟨⟨?_, ?_, ?_⟩, ?_, ?_⟩
    · intro c h
      refine hf.1 c ?_
      rw [eb] at h; rw [e]
      rcases List.mem_append.1 h with h | h
      · simp [h]
      · rcases List.mem_cons.1 h with h | h
        · simp [h]
        · refine List.mem_append.2 (.inr ?_)
          exact List.mem_cons_of_mem _ (List.mem_cons_of_mem _ (List.mem_append.2 (.inl h)))
    · intro n r hn h
      rw [eb] at h
      have := class_split (p := fun c => c != '=') (fun c h => by simpa using (hc c h).2.1) (fun c h => by
        rw [bne_iff_ne]; rintro rfl
        have := hn _ h
        rw [hT.word_ascii _ (by decide)] at this; exact absurd this (by decide)) (by decide) (by decide) h
      rw [← this.2.2]
      refine ⟨by simp, ?_, ?_⟩
      · intro h; exact hne '"' (by decide +kernel) (by rw [h]; simp)
      · intro h; exact hne '\'' (by decide +kernel) (by rw [h]; simp)
    · intro k _ a b h
      exact absurd (by rw [h]; simp) hq
    · rw [unquoted, ← Chunk.sized, if_pos hs, e, eb]
      have hk' : k.filter (· != '"') = k := by
        rw [List.filter_eq_self]
        intro c hc'
        rw [bne_iff_ne]; exact (hc c hc').1
      have hv' : (v ++ [z]).filter (· != '"') = v ++ [z] := filter_signs fun c hc => plainSign_simple (hv c hc)
      rw [List.filter_append, hk', List.filter_cons_of_pos (by decide), List.filter_cons_of_neg (by decide), List.filter_append, hv']
      simp
    · rw [unquoted, hfil]; split <;> rfl
  · have eb : w.bare = w := by rw [Chunk.bare, if_neg hs]
    have : unquoted w.text = w.text := by rw [unquoted, ← Chunk.sized, if_neg hs]
    rw [eb]; exact ⟨hf, this, this⟩

/-- Words that are steady are settled after one run. -/
theorem settled_bare {T : Tables} (hT : T.Ok) {l : List Chunk} (hf : ∀ w ∈ l, w.Fair T.word) {c c' : Char}
    (h : (c' = c ∧ Steady T.word none l) ∨ (c' ≠ '"' ∧ c' ≠ '\'' ∧ c = '"' ∧ Steady T.word (some c') l)) :
    settled T.word c' ((settled T.word c l).map Chunk.bare) = (settled T.word c l).map Chunk.bare := by
  induction l generalizing c c' with
  | nil => rfl
  | cons w l ih =>
    have hw := hf w (by simp)
    rw [settled, List.map_cons, settled]
    generalize hx : (if (T.word c && T.word w.first) || ((c == '"' || c == '\'') && w.attr T.word) then 0 else w.extra) = x
    have e1 : ({ w with extra := x } : Chunk).bare = { w.bare with extra := x } := by
      by_cases hs : w.sized = true
      · rw [Chunk.bare, if_pos (show ({ w with extra := x } : Chunk).sized = true from hs), Chunk.bare, if_pos hs]
      · rw [Chunk.bare, if_neg (show ¬ ({ w with extra := x } : Chunk).sized = true from hs), Chunk.bare, if_neg hs]
    have e2 : w.bare.first = w.first := by rw [Chunk.bare]; split <;> rfl
    rw [e1]
    have e3 : ({ w.bare with extra := x } : Chunk).attr T.word = w.bare.attr T.word := rfl
    have ha : w.bare.attr T.word = true → w.attr T.word = true := by
      intro h
      by_cases hs : w.sized = true
      · exact bare_attr hT hw hs
      · rwa [Chunk.bare, if_neg hs] at h
    rw [e3]
    congr 1
    · have : (if (T.word c' && T.word w.first) || ((c' == '"' || c' == '\'') && w.bare.attr T.word) then 0 else x) = x := by
        split
        · next hc =>
          rw [← hx]
          rcases h with ⟨rfl, -⟩ | ⟨n1, n2, rfl, hS⟩
          · rw [if_pos]
            simp only [Bool.or_eq_true, Bool.and_eq_true] at hc ⊢
            rcases hc with hc | hc
            · exact .inl hc
            · exact .inr ⟨hc.1, ha hc.2⟩
          · have hc : T.word c' = true ∧ T.word w.first = true := by
              simp only [Bool.or_eq_true, Bool.and_eq_true, beq_iff_eq] at hc
              rcases hc with hc | ⟨hc | hc, -⟩
              · exact hc
              · exact absurd hc n1
              · exact absurd hc n2
            rcases hS.1 c' rfl hc.1 hc.2 with k | k
            · rw [k]; split <;> rfl
            · rw [if_pos]; simp [k]
        · rfl
      simp only [e2, this]
    · refine ih (fun v hv => hf v (by simp [hv])) ?_
      have hS : Steady T.word (if w.sized then some w.bare.last else none) l := by
        rcases h with ⟨-, h⟩ | ⟨-, -, -, h⟩
        · exact h.2
        · exact h.2
      by_cases hs : w.sized = true
      · rw [if_pos hs] at hS
        obtain ⟨k, v, z, hk, hv, e, -, -, ez⟩ := bare_shape hw hs
        rw [ez] at hS
        refine .inr ⟨?_, ?_, e, by show Steady T.word (some w.bare.last) l; rw [ez]; exact hS⟩
        · show w.bare.last ≠ '"'
          rw [ez]; rintro rfl; exact absurd (hv '"' (by simp)) (by decide +kernel)
        · show w.bare.last ≠ '\''
          rw [ez]; rintro rfl; exact absurd (hv '\'' (by simp)) (by decide +kernel)
      · rw [if_neg hs] at hS
        refine .inl ⟨?_, hS⟩
        show w.bare.last = w.last
        rw [Chunk.bare, if_neg hs]

theorem written_plain {l : List Chunk} (h : ∀ w ∈ l, unquoted w.text = w.text) (c : Char) : written l = spread asIs c none l := by
  induction l generalizing c with
  | nil => rfl
  | cons w l ih =>
    have := ih (fun v hv => h v (by simp [hv])) w.last
    rw [written] at this ⊢
    rw [List.flatMap_cons, List.append_assoc, this, h w (by simp), spread, Chunk.text, asIs]
    simp

/-- A word without blanks and `>` at the beginning is in the name. -/
theorem prefix_name {k x z u : List Char} {d : Char} (hk : ∀ c ∈ k, c ≠ ' ' ∧ c ≠ '>') (hd : d = ' ' ∨ d = '>')
    (e : x ++ d :: z = k ++ u) : ∃ v, x = k ++ v := by
  induction k generalizing x with
  | nil => exact ⟨x, rfl⟩
  | cons a k ih =>
    cases x with
    | nil =>
      have := (List.cons.inj e).1
      have h := hk a (by simp)
      rw [← this] at h
      rcases hd with hd | hd
      · exact absurd hd h.1
      · exact absurd hd h.2
    | cons b x =>
      obtain ⟨h1, h2⟩ := List.cons.inj e
      obtain ⟨v, hv⟩ := ih (fun c hc => hk c (by simp [hc])) h2
      exact ⟨v, by rw [h1, hv]; rfl⟩

theorem spread_first (f : Char → Nat → Char → Nat) (c : Char) (e : Option Nat) (l : List Chunk) :
    ∃ d z, spread f c e l = d :: z ∧ (d = ' ' ∨ d = '>') := by
  cases l with
  | nil =>
    cases e with
    | none => exact ⟨'>', [], rfl, .inr rfl⟩
    | some n => exact ⟨' ', _, rfl, .inl rfl⟩
  | cons w l => exact ⟨' ', _, rfl, .inl rfl⟩

theorem attrs_out {T : Tables} (hT : T.Ok) {s m : List Char} {c : Char} {e : Option Nat} {l : List Chunk} (x4 : '<' ∉ s)
    (x5 : '>' ∉ s) (ha : AttrsOf T.word s m c e l) :
    tagOut T s = some ('<' :: (m ++ c :: written (settled T.word c l))) := by
  obtain ⟨x1, w2, w3, x2, ⟨h, w5, w6⟩, x3⟩ := ha
  have nlws : isWhitespace '\n' = true := by decide +kernel
  have hd : ∃ r, s = h :: r := by
    cases s with
    | nil =>
      cases m with
      | nil => exact absurd (congrArg List.length x1) (by obtain ⟨d, z, y, -⟩ := spread_first asIs c e l; rw [y]; simp)
      | cons b m => exact absurd (congrArg List.length x1) (by simp)
    | cons b s =>
      refine ⟨s, ?_⟩
      cases m with
      | nil => simp at w5; rw [← w5]; exact congrArg (· :: s) (List.cons.inj x1).1
      | cons b' m => simp at w5; rw [← w5]; exact congrArg (· :: s) (List.cons.inj x1).1
  obtain ⟨r, hr⟩ := hd
  have hn : '\n' ∉ s := by
    intro hx
    have hx : '\n' ∈ m ++ c :: spread asIs c e l := by rw [← x1]; simp [hx]
    rw [List.mem_append, List.mem_cons] at hx
    rcases hx with hx | hx | hx
    · exact absurd (w2 _ hx) (by decide +kernel)
    · rw [← hx] at w3; exact absurd w3 (by decide +kernel)
    · rcases mem_fair x2 hx with hx | hx | ⟨w, hw, hx⟩
      · exact absurd hx (by decide)
      · exact absurd hx (by decide)
      · have := ((x2 w hw).1 _ hx).1
        rw [nlws] at this; cases this
  rw [tagOut_start x4 x5 hT hr w6 (by rw [hr] at hn; simp at hn; exact hn.2), x1]
  exact tidy_quoted_close hT w2 w3 x2 w5 w6 x3

theorem written_bare {T : Tables} (hT : T.Ok) {l : List Chunk} {c : Char} (w4 : ∀ w ∈ l, w.Fair T.word) :
    (∀ w ∈ (settled T.word c l).map Chunk.bare, w.Fair T.word ∧ unquoted w.text = w.text) ∧
      written (settled T.word c l) = spread asIs c none ((settled T.word c l).map Chunk.bare) := by
  have fair' : ∀ w ∈ settled T.word c l, w.Fair T.word := by
    intro w hw'
    obtain ⟨v, hv, e⟩ := settled_text hw'
    have := w4 v hv
    rw [Chunk.Fair, e]; exact this
  have hwr : written (settled T.word c l) = written ((settled T.word c l).map Chunk.bare) := by
    rw [written, written]
    congr 1
    generalize settled T.word c l = L at fair'
    induction L with
    | nil => rfl
    | cons w l ih =>
      obtain ⟨-, y1, y2⟩ := bare_fair hT (fair' w (by simp))
      have y3 : w.bare.extra = w.extra := by rw [Chunk.bare]; split <;> rfl
      rw [List.flatMap_cons, List.map_cons, List.flatMap_cons, ih fun v hv => fair' v (by simp [hv]), y1, y2, y3]
  have fair : ∀ w ∈ (settled T.word c l).map Chunk.bare, w.Fair T.word ∧ unquoted w.text = w.text := by
    intro w hw'
    obtain ⟨v, hv, rfl⟩ := List.mem_map.1 hw'
    obtain ⟨y1, -, y2⟩ := bare_fair hT (fair' v hv)
    exact ⟨y1, y2⟩
  exact ⟨fair, by rw [hwr, written_plain fun w hw => (fair w hw).2]⟩

/-- A tag that only the last pass may change. -/
structure Quiet (T : Tables) (t : List Char) : Prop where
  lt : '<' ∉ t
  gt : '>' ∉ t
  sharp : Sharp t
  dash : Opens t
  cond : condTag T t = '<' :: (t ++ ['>'])
  kept : ¬ Listed ('<' :: t ++ ['>'])

/-- A tag of words after one run. -/
theorem attrs_quiet {T : Tables} (hT : T.Ok) {t m : List Char} {c : Char} {e : Option Nat} {l : List Chunk} (h1 : '<' ∉ t)
    (h2 : '>' ∉ t) (h3 : Sharp t) (hs : ¬ Styled t) (ha : AttrsOf T.word t m c e l)
    (hl : ¬ Listed ('<' :: t ++ ['>'])) {t' : List Char} (ho : tagOut T t = some ('<' :: (t' ++ ['>']))) :
    Quiet T t' ∧ ¬ Styled t' ∧ (Pre t → Pre t') ∧ AttrsOf T.word t' m c none ((settled T.word c l).map Chunk.bare) := by
  have o1 := attrs_out hT h1 h2 ha
  obtain ⟨w1, w2, w3, w4, ⟨h, w5, w6⟩, w7⟩ := ha
  have cancel : ∀ {a b : List Char}, '<' :: (a ++ ['>']) = '<' :: (b ++ ['>']) → a = b := by
    intro a b e
    exact List.append_inj_left' (List.cons.inj e).2 rfl
  rw [ho, Option.some.injEq, List.cons.injEq] at o1
  obtain ⟨fair, hwr⟩ := written_bare hT (c := c) w4
  have hlen : ((settled T.word c l).map Chunk.bare) = [] → l = [] := by
    cases l with
    | nil => exact id
    | cons w l => intro h; cases h
  rw [hwr] at o1
  generalize (settled T.word c l).map Chunk.bare = L at fair hlen o1 ⊢
  have eq : t' ++ ['>'] = m ++ c :: spread asIs c none L := by
    rw [o1.2]
  obtain ⟨y, g1, g2, g3, g4⟩ := tagOut_shape hT h1 h2
  have : t' = y := cancel (by rw [ho] at g1; exact Option.some.inj g1)
  subst this
  -- names
  have name : ∀ k : List Char, (∀ c ∈ k, c ≠ ' ' ∧ c ≠ '>') → ∀ s s' e e' l l', s ++ ['>'] = m ++ c :: spread asIs c e l →
      s' ++ ['>'] = m ++ c :: spread asIs c e' l' → (∃ u, s = k ++ u) → ∃ u, s' = k ++ u := by
    rintro k hk s s' e e' l l' x1 x2 ⟨u, rfl⟩
    obtain ⟨d, z, y1, y2⟩ := spread_first asIs c e l
    obtain ⟨d', z', y1', y2'⟩ := spread_first asIs c e' l'
    rw [y1] at x1
    obtain ⟨v, hv⟩ := prefix_name (x := m ++ [c]) (z := z) (u := u ++ ['>']) hk y2 (by simpa using x1.symm)
    have x2 : s' ++ ['>'] = (m ++ [c]) ++ spread asIs c e' l' := by rw [x2]; simp
    rw [hv] at x2
    obtain ⟨v', hv'⟩ := prefix_name (k := k) (x := s') (d := '>') (z := []) (u := v ++ spread asIs c e' l') hk (.inr rfl) (by
      rw [x2]; simp)
    exact ⟨v', hv'⟩
  have styled : ¬ Styled t' := by
    rintro ⟨u, hu | hu⟩
    · obtain ⟨u', h⟩ := name _ (by decide +kernel) _ _ _ _ _ _ eq w1 ⟨u, hu⟩
      exact hs ⟨u', .inl h⟩
    · obtain ⟨u', h⟩ := name _ (by decide +kernel) _ _ _ _ _ _ eq w1 ⟨u, hu⟩
      exact hs ⟨u', .inr h⟩
  refine ⟨⟨g2, g3, g4 h3, ?_, ?_, ?_⟩, styled, ?_, eq, w2, w3, fun w hw => (fair w hw).1, ⟨h, w5, w6⟩, .inl rfl⟩
  · rintro u rfl
    obtain ⟨u', h'⟩ := name "!--".toList (by decide +kernel) _ _ _ _ _ _ eq eq ⟨u, rfl⟩
    have : h = '!' := by
      have e3 : "!--".toList = ['!', '-', '-'] := by decide +kernel
      rw [e3] at eq
      cases m with
      | nil => simp at w5; rw [← w5]; exact (List.cons.inj eq).1.symm
      | cons b m => simp at w5; rw [← w5]; exact (List.cons.inj eq).1.symm
    rw [this, hT.word_ascii _ (by decide)] at w6
    exact absurd w6 (by decide)
  · rcases condTag_cases hT g2 g3 with k | ⟨k, -⟩
    · exact k
    · exact absurd k styled
  · cases L with
    | nil =>
      have := hlen rfl
      subst this
      rcases w7 with rfl | w7 | w7
      · have : t = t' := List.append_inj_left' (t₁ := ['>']) (t₂ := ['>']) (by rw [w1, eq]) rfl
        rw [← this]; exact hl
      · rw [show lastOf c [] = c from rfl] at w7
        rw [w7] at w3; exact absurd w3 (by decide)
      · rw [show lastOf c [] = c from rfl] at w7
        rw [w7] at w3; exact absurd w3 (by decide)
    | cons w l =>
      rintro ⟨s, hs', e'⟩
      have hb : ' ' ∈ '<' :: t' ++ ['>'] := by
        have : ' ' ∈ t' ++ ['>'] := by rw [eq, spread, blanks]; simp [List.replicate_succ]
        simp at this ⊢; exact this
      rw [e'] at hb
      exact (show ∀ s ∈ listed, ' ' ∉ s.toList by decide +kernel) s hs' hb
  · rintro ⟨n, k, u, hn, e', hk⟩
    obtain ⟨u', h'⟩ := name k (by
      intro d hd
      have hd' : d.toLower ∈ n := by rw [← hk]; exact List.mem_map_of_mem hd
      constructor
      · rintro rfl
        rcases hn with rfl | rfl <;> exact absurd hd' (by decide +kernel)
      · rintro rfl
        rcases hn with rfl | rfl <;> exact absurd hd' (by decide +kernel)) _ _ _ _ _ _ w1 eq ⟨u, e'⟩
    exact ⟨n, k, u', hn, h', hk⟩

/-- A tag of steady words is done with after one run. -/
theorem attrs_fixes {T : Tables} (hT : T.Ok) {t m : List Char} {c : Char} {e : Option Nat} {l : List Chunk} (h1 : '<' ∉ t)
    (h2 : '>' ∉ t) (h3 : Sharp t) (hs : ¬ Styled t) (ha : AttrsOf T.word t m c e l) (hq : Steady T.word none l) :
    Fixes T t := by
  refine ⟨hs, fun hl t' ho => ?_⟩
  obtain ⟨q, -, hp, ha'⟩ := attrs_quiet hT h1 h2 h3 hs ha hl ho
  obtain ⟨fair, -⟩ := written_bare hT (c := c) ha.2.2.2.1
  refine ⟨⟨q.lt, q.gt, q.sharp, q.dash, q.cond, ?_, q.kept⟩, hp⟩
  rw [attrs_out hT q.lt q.gt ha', settled_bare hT ha.2.2.2.1 (c := c) (.inl ⟨rfl, hq⟩), ha'.1,
    written_plain (fun w hw => (fair w hw).2)]

end Verif.Html
