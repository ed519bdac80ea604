import Verif.Proofs.HtmlBlanks
import Verif.Proofs.HtmlMinimal
/-!
# The loop over the attributes that come after a quote
-/
set_option linter.unusedSimpArgs false
namespace Verif.Html
open Verif.Spec.Html

/-- A gap of more than one blank after a quote and the beginning of the word behind it. -/
structure NameGap where
  quote : Char
  more : Nat
  head : List Char

def NameGap.text (x : NameGap) : List Char := x.quote :: (blanks (x.more + 1) ++ x.head)

/-- A name and `=`, and perhaps a quote. -/
def NameGap.Ok (T : Tables) (x : NameGap) : Prop := (x.quote = '"' ∨ x.quote = '\'') ∧
  ∃ n, n ≠ [] ∧ (∀ c ∈ n, T.word c = true) ∧ (x.head = n ++ ['='] ∨ x.head = n ++ ['=', '"'] ∨ x.head = n ++ ['=', '\''])

def NameGap.At (x : NameGap) (c : Char) (w : Chunk) : Prop := c = x.quote ∧ w.extra = x.more + 1 ∧ x.head <+: w.text

open Classical in
/-- The words after the text of `x` is replaced. -/
noncomputable def cutBy (x : NameGap) (c : Char) : List Chunk → List Chunk
  | [] => []
  | w :: l => { w with extra := if x.At c w then 0 else w.extra } :: cutBy x w.last l

theorem lang_names {T : Tables} {t : List Char} (h : lang (extraSpaces2 T) t) : ∃ q a w n e, t = q :: a :: (w ++ (n ++ e)) ∧
    (q = '"' ∨ q = '\'') ∧ isWhitespace a = true ∧ w ≠ [] ∧ (∀ c ∈ w, isWhitespace c = true) ∧ n ≠ [] ∧
    (∀ c ∈ n, T.word c = true) ∧ (e = ['='] ∨ e = ['=', '"'] ∨ e = ['=', '\'']) := by
  have key : ∀ (q : Char) (r : Re), lang (spacedName T q r) t → ∃ a w n e, t = q :: a :: (w ++ (n ++ e)) ∧
      isWhitespace a = true ∧ w ≠ [] ∧ (∀ c ∈ w, isWhitespace c = true) ∧ n ≠ [] ∧ (∀ c ∈ n, T.word c = true) ∧ lang r e := by
    rintro q r ⟨u, v, rfl, hu, x, y, rfl, ⟨a, rfl, ha⟩, w, z', rfl, hw, n, e, rfl, hn, he⟩
    rw [lang_c.1 hu]
    obtain ⟨h1, h2⟩ := lang_plus.1 hw
    obtain ⟨h3, h4⟩ := lang_plus.1 hn
    exact ⟨a, w, n, e, rfl, ha, h1, h2, h3, h4, he⟩
  rcases h with h | h | h | h
  · obtain ⟨a, w, n, e, h1, h2, h3, h4, h5, h6, h7⟩ := key _ _ h
    exact ⟨_, a, w, n, e, h1, .inl rfl, h2, h3, h4, h5, h6, .inr (.inl ((lang_str (by simp)).1 h7))⟩
  · obtain ⟨a, w, n, e, h1, h2, h3, h4, h5, h6, h7⟩ := key _ _ h
    exact ⟨_, a, w, n, e, h1, .inr rfl, h2, h3, h4, h5, h6, .inr (.inr ((lang_str (by simp)).1 h7))⟩
  · obtain ⟨a, w, n, e, h1, h2, h3, h4, h5, h6, h7⟩ := key _ _ h
    exact ⟨_, a, w, n, e, h1, .inl rfl, h2, h3, h4, h5, h6, .inl (lang_c.1 h7)⟩
  · obtain ⟨a, w, n, e, h1, h2, h3, h4, h5, h6, h7⟩ := key _ _ h
    exact ⟨_, a, w, n, e, h1, .inr rfl, h2, h3, h4, h5, h6, .inl (lang_c.1 h7)⟩

section
variable {T : Tables} (hT : T.Ok)

/-- A character of a word. -/
def Inside (c : Char) : Prop := isWhitespace c = false ∧ c ≠ '>'

include hT in
theorem NameGap.Ok.inside {x : NameGap} (h : x.Ok T) : x.head ≠ [] ∧ ∀ c ∈ x.head, Inside c := by
  obtain ⟨-, n, h1, h2, h3⟩ := h
  have hw : ∀ c ∈ n, Inside c := by
    intro c hc
    refine ⟨hT.word_space c (h2 c hc), ?_⟩
    rintro rfl
    have := h2 _ hc
    rw [hT.word_ascii _ (by decide)] at this
    exact absurd this (by decide)
  have e1 : Inside '=' := ⟨by decide +kernel, by decide⟩
  have e2 : Inside '"' := ⟨by decide +kernel, by decide⟩
  have e3 : Inside '\'' := ⟨by decide +kernel, by decide⟩
  rcases h3 with h | h | h <;> rw [h] <;> refine ⟨by simp, ?_⟩ <;> intro c hc <;>
    simp only [List.mem_append, List.mem_cons, List.not_mem_nil, or_false] at hc
  · rcases hc with hc | rfl
    · exact hw c hc
    · exact e1
  · rcases hc with hc | rfl | rfl
    · exact hw c hc
    · exact e1
    · exact e2
  · rcases hc with hc | rfl | rfl
    · exact hw c hc
    · exact e1
    · exact e3

theorem spread_head (c : Char) (l : List Chunk) : ∃ d s, spread asIs c none l = d :: s ∧ ¬ Inside d := by
  cases l with
  | nil => exact ⟨'>', [], rfl, fun h => h.2 rfl⟩
  | cons w l => exact ⟨' ', _, rfl, fun h => by have := h.1; rw [ws_sp] at this; cases this⟩

/-- What begins like a word and what follows it begins like the word. -/
theorem prefix_word {k v u : List Char} {d : Char} {s : List Char} (hk : ∀ c ∈ k, Inside c) (hd : ¬ Inside d)
    (e : v ++ d :: s = k ++ u) : ∃ r, v = k ++ r ∧ u = r ++ d :: s := by
  rcases List.append_eq_append_iff.1 e with ⟨a, h1, h2⟩ | ⟨a, h1, h2⟩
  · cases a with
    | nil => exact ⟨[], by simpa using h1.symm, by simpa using h2.symm⟩
    | cons y a =>
      have : y = d := (List.cons.inj h2).1.symm
      subst this
      exact absurd (hk y (by rw [h1]; simp)) hd
  · exact ⟨a, h1, h2⟩

theorem Fair.inside {w : Chunk} (h : w.Fair T.word) : ∀ c ∈ w.text, Inside c := fun c hc => ⟨(h.1 c hc).1, (h.1 c hc).2.2⟩

theorem Fair.tight {w : Chunk} (h : w.Fair T.word) : Chunk.Tight w :=
  ⟨(h.1 _ (by simp [Chunk.text])).1, fun c hc => (h.1 c (by simp [Chunk.text, hc])).1, (h.1 _ (by simp [Chunk.text])).1⟩

/-- The beginning of an attribute is not the whole word. -/
theorem proper {w : Chunk} (h : w.Fair T.word) {x : NameGap} (hx : x.Ok T) {r : List Char} (e : w.text = x.head ++ r) : r ≠ [] := by
  rintro rfl
  obtain ⟨-, n, -, h2, h3⟩ := hx
  rw [List.append_nil] at e
  rcases h3 with k | k | k <;> rw [k] at e
  · exact (h.2.1 n [] h2 e).1 rfl
  · exact (h.2.1 n _ h2 e).2.1 rfl
  · exact (h.2.1 n _ h2 e).2.2 rfl

theorem spread_text (c : Char) (w : Chunk) (l : List Chunk) :
    spread asIs c none (w :: l) = blanks w.extra ++ (w.text ++ spread asIs w.last none l) := by
  simp [spread, asIs, Chunk.text]

/-- The word without its beginning still ends with its last character. -/
theorem rest_last {w : Chunk} {k r : List Char} (e : w.text = k ++ r) (hr : r ≠ []) : ∃ u, r = u ++ [w.last] := by
  have e : (w.first :: w.mid) ++ [w.last] = k ++ r := e
  rcases List.eq_nil_or_concat r with h | ⟨u, d, h⟩
  · exact absurd h hr
  · rw [List.concat_eq_append] at h
    subst h
    rw [← List.append_assoc] at e
    have := List.append_inj_right' e rfl
    exact ⟨u, by rw [(List.cons.inj this).1]⟩

include hT in
theorem nameText_at {x : NameGap} (hx : x.Ok T) {c : Char} {w : Chunk} {l : List Chunk} {u : List Char} (hw : w.Fair T.word) :
    (c :: spread asIs c none (w :: l) = x.text ++ u) ↔
      c = x.quote ∧ w.extra = x.more + 1 ∧ ∃ r, w.text = x.head ++ r ∧ u = r ++ spread asIs w.last none l := by
  obtain ⟨h1, h2⟩ := hx.inside hT
  obtain ⟨d, s, hs, hd⟩ := spread_head w.last l
  rw [spread_text]
  constructor
  · intro e
    cases hk : x.head with
    | nil => exact absurd hk h1
    | cons k ks =>
      simp only [NameGap.text, hk, List.cons_append, List.append_assoc, List.cons.injEq] at e
      have e2 : blanks w.extra ++ w.first :: ((w.mid ++ [w.last]) ++ spread asIs w.last none l) =
          blanks (x.more + 1) ++ k :: (ks ++ u) := by
        have := e.2
        simpa [Chunk.text] using this
      obtain ⟨g1, g2, g3⟩ := gap_unique e2 blanks_ws blanks_ws (Fair.tight hw).1 (h2 k (by rw [hk]; simp)).1
      have g4 : w.text ++ d :: s = (k :: ks) ++ u := by
        rw [← hs, Chunk.text, List.cons_append, List.cons_append, g2, g3]
      obtain ⟨r, g5, g6⟩ := prefix_word (by rw [← hk]; exact h2) hd g4
      exact ⟨e.1, blanks_inj g1, r, g5, by rw [g6, hs]⟩
  · rintro ⟨rfl, e2, r, e3, rfl⟩
    rw [e3, e2]
    simp [NameGap.text]

theorem nameText_solid {x : NameGap} {c d : Char} {r u : List Char} (hd : Solid d) : c :: d :: r ≠ x.text ++ u := by
  intro e
  simp only [NameGap.text, blanks, List.replicate_succ, List.cons_append, List.cons.injEq] at e
  rw [e.2.1] at hd
  exact absurd ws_sp (by rw [hd]; simp)

theorem NameGap.ne (x : NameGap) : x.text ≠ [] := by simp [NameGap.text]

theorem replaceName_blanks {x : NameGap} (hx : x.Ok T) (n : Nat) (s to : List Char) :
    replaceStr x.text to (blanks n ++ s) = blanks n ++ replaceStr x.text to s := by
  unfold blanks
  induction n + 1 with
  | zero => rfl
  | succ k ih =>
    rw [List.replicate_succ, List.cons_append, replaceStr_miss _ x.ne, ih]; rfl
    rintro ⟨u, e⟩
    rw [NameGap.text, List.cons_append, List.cons.injEq] at e
    rcases hx.1 with h | h <;> rw [h] at e <;> exact absurd e.1 (by decide)

include hT in
theorem replaceStr_names {x : NameGap} (hx : x.Ok T) (l : List Chunk) (hl : ∀ w ∈ l, w.Fair T.word) :
    ∀ (m : List Char) (c : Char), (∀ d ∈ m, Solid d) → Solid c →
    replaceStr x.text (x.quote :: ' ' :: x.head) (m ++ c :: spread asIs c none l) = m ++ c :: spread asIs c none (cutBy x c l) := by
  induction l with
  | nil =>
    intro m
    induction m with
    | nil =>
      intro c _ hc
      show replaceStr _ _ [c, '>'] = [c, '>']
      rw [replaceStr_miss _ x.ne, replaceStr_miss _ x.ne, replaceStr_nil]
      · rintro ⟨u, e⟩
        have := congrArg List.length e
        simp [NameGap.text, blanks] at this
      · rintro ⟨u, e⟩
        exact nameText_solid ws_gt e
    | cons d m ih =>
      intro c hm hc
      rw [List.cons_append, replaceStr_miss _ x.ne, ih c (fun d hd => hm d (by simp [hd])) hc]; rfl
      rintro ⟨u, e⟩
      cases m with
      | nil => exact nameText_solid hc e
      | cons d' m => exact nameText_solid (hm d' (by simp)) e
  | cons w l ihl =>
    have hw := hl w (by simp)
    have ht := Fair.tight hw
    intro m
    induction m with
    | nil =>
      intro c _ hc
      rw [List.nil_append, List.nil_append]
      by_cases hx' : x.At c w
      · obtain ⟨e1, e2, r, e3⟩ := hx'
        have hr := proper hw hx e3.symm
        obtain ⟨u, hu⟩ := rest_last e3.symm hr
        have hat := (nameText_at hT hx (c := c) (l := l) (u := r ++ spread asIs w.last none l) hw).2 ⟨e1, e2, r, e3.symm, rfl⟩
        rw [hat, replaceStr_hit x.ne, hu, List.append_assoc, List.singleton_append,
          ihl (fun v hv => hl v (by simp [hv])) u w.last (fun d hd => (hw.1 d (by rw [← e3, hu]; simp [hd])).1) ht.2.2]
        have hc' : cutBy x c (w :: l) = { w with extra := 0 } :: cutBy x w.last l := by
          rw [cutBy, if_pos ⟨e1, e2, r, e3⟩]
        rw [hc', spread_text]
        show _ = c :: (blanks 0 ++ (w.text ++ spread asIs w.last none (cutBy x w.last l)))
        rw [← e3, hu, e1]
        simp [blanks]
      · have hr := ihl (fun v hv => hl v (by simp [hv])) (w.first :: w.mid) w.last (by
          intro d hd
          rcases List.mem_cons.1 hd with rfl | hd
          · exact ht.1
          · exact ht.2.1 d hd) ht.2.2
        rw [List.cons_append, List.cons_append] at hr
        have hc' : cutBy x c (w :: l) = w :: cutBy x w.last l := by
          rw [cutBy, if_neg hx']
        rw [hc', replaceStr_miss _ x.ne]
        · show c :: replaceStr _ _ (blanks w.extra ++ w.first :: (w.mid ++ w.last :: spread asIs w.last none l)) = _
          rw [replaceName_blanks hx, hr]; rfl
        · rintro ⟨u, e⟩
          obtain ⟨k1, k2, r, k3, -⟩ := (nameText_at hT hx hw).1 e
          exact hx' ⟨k1, k2, r, k3.symm⟩
    | cons d m ih =>
      intro c hm hc
      rw [List.cons_append, replaceStr_miss _ x.ne, ih c (fun d hd => hm d (by simp [hd])) hc]; rfl
      rintro ⟨u, e⟩
      cases m with
      | nil => exact nameText_solid hc e
      | cons d' m => exact nameText_solid (hm d' (by simp)) e

/-! ## What is found -/

theorem attr_iff {w : Chunk} (hT : T.Ok) : w.attr T.word = true ↔ ∃ n r, n ≠ [] ∧ (∀ c ∈ n, T.word c = true) ∧ w.text = n ++ '=' :: r := by
  have heq : T.word '=' = false := by rw [hT.word_ascii _ (by decide)]; decide
  rw [Chunk.attr, Bool.and_eq_true, Bool.not_eq_true', beq_iff_eq]
  constructor
  · rintro ⟨h1, h2⟩
    cases hd : w.text.dropWhile T.word with
    | nil => rw [hd] at h2; cases h2
    | cons d r =>
      rw [hd] at h2
      simp only [List.head?_cons, Option.some.injEq] at h2
      subst h2
      refine ⟨w.text.takeWhile T.word, r, ?_, ?_, ?_⟩
      · intro e; rw [e] at h1; cases h1
      · intro c hc
        exact List.all_eq_true.1 (List.all_takeWhile (p := T.word) (l := w.text)) c hc
      · rw [← hd]; exact List.takeWhile_append_dropWhile.symm
  · rintro ⟨n, r, h1, h2, h3⟩
    rw [h3, List.takeWhile_append_of_pos h2, List.dropWhile_append_of_pos h2, List.takeWhile_cons_of_neg (by simp [heq]),
      List.dropWhile_cons_of_neg (by simp [heq]), List.append_nil]
    exact ⟨by simpa using h1, rfl⟩

/-- Every gap that is to be narrowed is among `H`. -/
def Covers (T : Tables) (H : List NameGap) (c : Char) : List Chunk → Prop
  | [] => True
  | w :: l => ((c = '"' ∨ c = '\'') → 1 ≤ w.extra → w.attr T.word = true → ∃ x ∈ H, x.At c w) ∧ Covers T H w.last l

theorem Covers.more {H : List NameGap} {c : Char} {l : List Chunk} (x : NameGap) (h : Covers T H c l) : Covers T (x :: H) c l := by
  induction l generalizing c with
  | nil => trivial
  | cons w l ih =>
    refine ⟨fun h1 h2 h3 => ?_, ih h.2⟩
    obtain ⟨y, hy, h4⟩ := h.1 h1 h2 h3
    exact ⟨y, by simp [hy], h4⟩

theorem names_solid {c d : Char} (s : List Char) (hd : Solid d) :
    findIter (extraSpaces2 T) (c :: d :: s) = findIter (extraSpaces2 T) (d :: s) := by
  rw [findIter_miss]
  refine ends_nil.2 fun t u e hl => ?_
  obtain ⟨q, a, b, r, -, rfl, ha, -⟩ := lang_extraSpaces2 hl
  simp only [List.cons_append, List.cons.injEq] at e
  rw [← e.2.1, hd] at ha; cases ha

theorem names_blanks (n : Nat) (s : List Char) : findIter (extraSpaces2 T) (blanks n ++ s) = findIter (extraSpaces2 T) s := by
  unfold blanks
  induction n + 1 with
  | zero => rfl
  | succ k ih =>
    rw [List.replicate_succ, List.cons_append, findIter_miss, ih]
    refine ends_nil.2 fun t u e hl => ?_
    obtain ⟨q, a, b, r, hq, rfl, -⟩ := lang_extraSpaces2 hl
    have := (List.cons.inj e).1
    rcases hq with rfl | rfl <;> exact absurd this (by decide)

theorem names_mid (m : List Char) {c : Char} (s : List Char) (hm : ∀ d ∈ m, Solid d) (hc : Solid c) :
    findIter (extraSpaces2 T) (m ++ c :: s) = findIter (extraSpaces2 T) (c :: s) := by
  induction m with
  | nil => rfl
  | cons d m ih =>
    rw [← ih fun d hd => hm d (by simp [hd])]
    cases m with
    | nil => exact names_solid _ hc
    | cons d' m => exact names_solid _ (hm d' (by simp))

include hT in
theorem find_names (l : List Chunk) (hl : ∀ w ∈ l, w.Fair T.word) : ∀ c, Solid c →
    ∃ H : List NameGap, findIter (extraSpaces2 T) (c :: spread asIs c none l) = H.map NameGap.text ∧ (∀ x ∈ H, x.Ok T) ∧
      Covers T H c l := by
  induction l with
  | nil =>
    intro c hc
    refine ⟨[], ?_, by simp, trivial⟩
    show findIter _ [c, '>'] = []
    rw [names_solid _ ws_gt, findIter_miss, findIter_nil]
    refine ends_nil.2 fun t u e hl => ?_
    obtain ⟨q, a, b, r, -, rfl, -⟩ := lang_extraSpaces2 hl
    have := congrArg List.length e
    simp at this
  | cons w l ih =>
    intro c hc
    have hw := hl w (by simp)
    have ht := Fair.tight hw
    obtain ⟨H, i1, i2, i3⟩ := ih (fun v hv => hl v (by simp [hv])) w.last ht.2.2
    cases he : ends (extraSpaces2 T) (c :: spread asIs c none (w :: l)) with
    | nil =>
      refine ⟨H, ?_, i2, ?_, i3⟩
      · rw [findIter_miss he]
        show findIter _ (blanks w.extra ++ (w.first :: w.mid ++ w.last :: spread asIs w.last none l)) = _
        rw [names_blanks, names_mid _ _ _ ht.2.2, i1]
        intro d hd
        rcases List.mem_cons.1 hd with rfl | hd
        · exact ht.1
        · exact ht.2.1 d hd
      · intro h1 h2 h3
        exfalso
        obtain ⟨n, r, n1, n2, n3⟩ := (attr_iff hT).1 h3
        obtain ⟨k, hk⟩ : ∃ k, w.extra = k + 1 := ⟨w.extra - 1, by omega⟩
        have e : c :: spread asIs c none (w :: l) = (c :: ' ' :: (blanks k ++ (n ++ ['=']))) ++ (r ++ spread asIs w.last none l) := by
          rw [spread_text, n3, hk]
          simp [blanks, List.replicate_succ]
        refine ends_nil.1 he _ _ e ?_
        have hn : lang (spacedName T c (.c '=')) (c :: ' ' :: (blanks k ++ (n ++ ['=']))) :=
          ⟨[c], _, rfl, ⟨c, rfl, by simp⟩, [' '], _, rfl, ⟨' ', rfl, ws_sp⟩, blanks k, _, rfl, lang_plus.2 ⟨by simp [blanks], blanks_ws⟩,
            n, ['='], rfl, lang_plus.2 ⟨n1, n2⟩, lang_c.2 rfl⟩
        rcases h1 with rfl | rfl
        · exact .inr (.inr (.inl hn))
        · exact .inr (.inr (.inr hn))
    | cons y ys =>
      obtain ⟨e, hy⟩ := ends_sound (r := extraSpaces2 T) (h := y) (by rw [he]; simp)
      obtain ⟨q, a, v, n, z, e1, hq, ha, hv, hvs, hn, hnw, hz⟩ := lang_names hy
      obtain ⟨n0, n', rfl⟩ : ∃ n0 n', n = n0 :: n' := by
        cases n with
        | nil => exact absurd rfl hn
        | cons n0 n' => exact ⟨n0, n', rfl⟩
      have e2 := e
      rw [e1, spread_text] at e2
      have e3 : blanks w.extra ++ w.first :: ((w.mid ++ [w.last]) ++ spread asIs w.last none l) =
          (a :: v) ++ n0 :: (n' ++ z ++ y.rest) := by
        have := (List.cons.inj e2).2
        simpa [Chunk.text] using this
      obtain ⟨g1, -, -⟩ := gap_unique e3 blanks_ws (by
        intro x hx
        rcases List.mem_cons.1 hx with rfl | hx
        · exact ha
        · exact hvs x hx) ht.1 (hT.word_space n0 (hnw n0 (by simp)))
      have hlen := congrArg List.length g1
      have hvl : 1 ≤ v.length := by
        cases v with
        | nil => exact absurd rfl hv
        | cons => simp
      have hlen : w.extra = v.length := by simpa [blanks] using hlen
      obtain ⟨k, hk⟩ : ∃ k, w.extra = k + 1 := ⟨w.extra - 1, by omega⟩
      have hx : NameGap.Ok T ⟨q, k, (n0 :: n') ++ z⟩ := by
        refine ⟨hq, n0 :: n', by simp, hnw, ?_⟩
        rcases hz with rfl | rfl | rfl
        · exact .inl rfl
        · exact .inr (.inl rfl)
        · exact .inr (.inr rfl)
      have hxt : y.text = NameGap.text ⟨q, k, (n0 :: n') ++ z⟩ := by
        rw [e1, NameGap.text, ← hk, g1]; simp
      rw [hxt] at e
      obtain ⟨f1, f2, r, f3, f4⟩ := (nameText_at hT hx hw).1 e
      obtain ⟨u, hu⟩ := rest_last f3 (proper hw hx f3)
      refine ⟨⟨q, k, (n0 :: n') ++ z⟩ :: H, ?_, ?_, ?_, i3.more _⟩
      · rw [findIter_hit (solid_extraSpaces2 T) he, hxt, f4, hu, List.append_assoc, List.singleton_append, names_mid u _ _ ht.2.2, i1]
        · rfl
        · intro d hd
          exact (hw.1 d (by rw [f3, hu]; simp [hd])).1
      · intro x hx'
        rcases List.mem_cons.1 hx' with rfl | hx'
        · exact hx
        · exact i2 x hx'
      · intro _ _ _
        exact ⟨_, List.mem_cons_self .., f1, f2, r, f3.symm⟩

/-! ## The loop -/

/-- The same words, with gaps narrowed. -/
def narrowed (f : Char → Chunk → Nat) (c : Char) : List Chunk → List Chunk
  | [] => []
  | w :: l => { w with extra := f c w } :: narrowed f w.last l

open Classical in
theorem cutBy_narrowed {x : NameGap} {D : List NameGap} {c : Char} {l : List Chunk} :
    cutBy x c (narrowed (fun c w => if ∃ y ∈ D, y.At c w then 0 else w.extra) c l) =
      narrowed (fun c w => if ∃ y ∈ D ++ [x], y.At c w then 0 else w.extra) c l := by
  induction l generalizing c with
  | nil => rfl
  | cons w l ih =>
    rw [narrowed, cutBy, narrowed, ih]
    congr 1
    by_cases h : ∃ y ∈ D, y.At c w
    · have h' : ∃ y ∈ D ++ [x], y.At c w := by
        obtain ⟨y, hy, h⟩ := h
        exact ⟨y, by simp [hy], h⟩
      simp only [if_pos h, if_pos h', ite_self]
    · by_cases hx : x.At c w
      · have h' : ∃ y ∈ D ++ [x], y.At c w := ⟨x, by simp, hx⟩
        have hx' : x.At c { w with extra := w.extra } := hx
        simp only [if_neg h, if_pos h', if_pos hx']
      · have h' : ¬ ∃ y ∈ D ++ [x], y.At c w := by
          rintro ⟨y, hy, k⟩
          rcases List.mem_append.1 hy with hy | hy
          · exact h ⟨y, hy, k⟩
          · rw [List.mem_singleton.1 hy] at k; exact hx k
        have hx' : ¬ x.At c { w with extra := w.extra } := hx
        simp only [if_neg h, if_neg h', if_neg hx']

theorem narrowed_fair {f : Char → Chunk → Nat} {c : Char} {l : List Chunk} (hl : ∀ w ∈ l, w.Fair T.word) :
    ∀ w ∈ narrowed f c l, w.Fair T.word := by
  induction l generalizing c with
  | nil => intro w hw; cases hw
  | cons v l ih =>
    intro w hw
    rcases List.mem_cons.1 hw with rfl | hw
    · exact hl v (by simp)
    · exact ih (fun v hv => hl v (by simp [hv])) w hw

open Classical in
include hT in
theorem nameLoop_names {m : List Char} {c : Char} (hm : ∀ d ∈ m, Solid d) (hc : Solid c) {l : List Chunk}
    (hl : ∀ w ∈ l, w.Fair T.word) (H : List NameGap) (hH : ∀ x ∈ H, x.Ok T) (D : List NameGap) :
    nameLoop (H.map NameGap.text) (m ++ c :: spread asIs c none (narrowed (fun c w => if ∃ y ∈ D, y.At c w then 0 else w.extra) c l)) =
      some (m ++ c :: spread asIs c none (narrowed (fun c w => if ∃ y ∈ D ++ H, y.At c w then 0 else w.extra) c l)) := by
  induction H generalizing D with
  | nil => rw [List.append_nil]; rfl
  | cons x H ih =>
    have hx := hH x (by simp)
    have hf : from1 x.text = some (blanks (x.more + 1) ++ x.head) := by
      rw [NameGap.text, from1, if_pos]
      rcases hx.1 with h | h <;> rw [h] <;> decide +kernel
    obtain ⟨i1, i2⟩ := hx.inside hT
    have htrim : trimStart (blanks (x.more + 1) ++ x.head) = x.head := by
      rw [trimStart, List.dropWhile_append_of_pos (p := space) (fun a ha => blanks_ws a ha)]
      cases hk : x.head with
      | nil => rfl
      | cons k ks =>
        have h0 : space k = false := (i2 k (by rw [hk]; simp)).1
        rw [List.dropWhile_cons_of_neg (by rw [h0]; simp)]
    have hto : x.text.take 1 ++ ' ' :: trimStart (blanks (x.more + 1) ++ x.head) = x.quote :: ' ' :: x.head := by
      rw [htrim]; rfl
    rw [List.map_cons, nameLoop, hf]
    simp only
    rw [hto, replaceStr_names hT hx _ (narrowed_fair hl) m c hm hc, cutBy_narrowed, ih (fun y hy => hH y (by simp [hy])),
      List.append_assoc]
    rfl

open Classical in
include hT in
theorem narrowed_covers {H : List NameGap} (hH : ∀ x ∈ H, x.Ok T) {c : Char} {l : List Chunk} (h : Covers T H c l) :
    narrowed (fun c w => if ∃ y ∈ H, y.At c w then 0 else w.extra) c l =
      narrowed (fun c w => if (c == '"' || c == '\'') && w.attr T.word then 0 else w.extra) c l := by
  induction l generalizing c with
  | nil => rfl
  | cons w l ih =>
    rw [narrowed, narrowed, ih h.2]
    congr 2
    by_cases hx : ∃ y ∈ H, y.At c w
    · rw [if_pos hx, if_pos]
      obtain ⟨y, hy, h1, h2, r, h3⟩ := hx
      obtain ⟨q, n, n1, n2, n3⟩ := hH y hy
      rw [Bool.and_eq_true, Bool.or_eq_true, beq_iff_eq, beq_iff_eq, h1]
      refine ⟨q, (attr_iff hT).2 ?_⟩
      rcases n3 with n3 | n3 | n3 <;> rw [n3] at h3
      · exact ⟨n, r, n1, n2, by rw [← h3]; simp⟩
      · exact ⟨n, '"' :: r, n1, n2, by rw [← h3]; simp⟩
      · exact ⟨n, '\'' :: r, n1, n2, by rw [← h3]; simp⟩
    · rw [if_neg hx]
      split
      · rename_i hq
        rw [Bool.and_eq_true, Bool.or_eq_true, beq_iff_eq, beq_iff_eq] at hq
        cases hn : w.extra with
        | zero => rfl
        | succ k => exact absurd (h.1 hq.1 (by omega) hq.2) hx
      · rfl

end

/-! ## The tag -/

theorem narrowed_none (D : Char → Chunk → Prop) [∀ c w, Decidable (D c w)] (hD : ∀ c w, ¬ D c w) (c : Char) (l : List Chunk) :
    narrowed (fun c w => if D c w then 0 else w.extra) c l = l := by
  induction l generalizing c with
  | nil => rfl
  | cons w l ih => rw [narrowed, ih, if_neg (hD c w)]

theorem spread_narrowed (f : Char → Nat → Char → Nat) (c : Char) (l : List Chunk) :
    spread f c none l = spread asIs c none (narrowed (fun c w => f c w.extra w.first) c l) := by
  induction l generalizing c with
  | nil => rfl
  | cons w l ih =>
    show blanks (f c w.extra w.first) ++ w.first :: (w.mid ++ w.last :: spread f w.last none l) =
      blanks (f c w.extra w.first) ++ w.first :: (w.mid ++ w.last :: spread asIs w.last none (narrowed _ w.last l))
    rw [ih]

theorem narrowed_settled (word : Char → Bool) (c : Char) (l : List Chunk) :
    narrowed (fun c w => if (c == '"' || c == '\'') && w.attr word then 0 else w.extra) c
      (narrowed (fun c w => oneBetween word word c w.extra w.first) c l) = settled word c l := by
  induction l generalizing c with
  | nil => rfl
  | cons w l ih =>
    rw [narrowed, narrowed, settled, ih]
    congr 2
    show (if (c == '"' || c == '\'') && w.attr word then 0 else if word c && word w.first then 0 else w.extra) =
      if (word c && word w.first) || ((c == '"' || c == '\'') && w.attr word) then 0 else w.extra
    cases (word c && word w.first) <;> cases ((c == '"' || c == '\'') && w.attr word) <;> rfl

theorem spread_end {c : Char} {l : List Chunk} (hc : Inside c) (hl : ∀ w ∈ l, ∀ d ∈ w.text, Inside d) :
    ∃ y r, c :: spread asIs c none l = y ++ [r] ++ ['>'] ∧ Solid r ∧ '>' ∉ y ++ [r] := by
  induction l generalizing c with
  | nil => exact ⟨[], c, rfl, hc.1, by simpa using hc.2.symm⟩
  | cons w l ih =>
    have hw := hl w (by simp)
    obtain ⟨y, r, h1, h2, h3⟩ := ih (c := w.last) (hw _ (by simp [Chunk.text])) fun v hv => hl v (by simp [hv])
    refine ⟨c :: (blanks w.extra ++ w.first :: (w.mid ++ y)), r, ?_, h2, ?_⟩
    · show c :: (blanks w.extra ++ w.first :: (w.mid ++ w.last :: spread asIs w.last none l)) = _
      rw [h1]; simp
    · simp only [List.cons_append, List.append_assoc, List.mem_cons, List.mem_append, not_or] at h3 ⊢
      refine ⟨hc.2.symm, fun h => ?_, fun h => ?_, fun h => ?_, h3⟩
      · exact absurd (List.mem_replicate.1 h).2 (by decide)
      · exact (hw '>' (by rw [h]; simp [Chunk.text])).2 rfl
      · exact (hw '>' (by simp [Chunk.text, h])).2 rfl

/-- A part of a text lies on one side of a character it does not have. -/
theorem side {a k b x y : List Char} {d : Char} (hd : d ∉ k) (e : a ++ k ++ b = x ++ d :: y) :
    (∃ b', x = a ++ k ++ b') ∨ ∃ a', y = a' ++ k ++ b := by
  rcases List.append_eq_append_iff.1 e with ⟨z, h1, h2⟩ | ⟨z, h1, h2⟩
  · exact .inl ⟨z, h1⟩
  · cases z with
    | nil => exact .inl ⟨[], by simpa using h1.symm⟩
    | cons t z =>
      have ht : t = d := (List.cons.inj h2).1.symm
      have hb : y = z ++ b := (List.cons.inj h2).2
      subst ht
      rcases List.append_eq_append_iff.1 h1 with ⟨v, g1, g2⟩ | ⟨v, g1, g2⟩
      · exact absurd (by rw [g2]; simp) hd
      · cases v with
        | nil =>
          rw [List.nil_append] at g2
          exact absurd (by rw [← g2]; simp) hd
        | cons t' v =>
          refine .inr ⟨v, ?_⟩
          rw [hb, (List.cons.inj g2).2]; rfl

/-- A part without blanks and `>` lies in a word. -/
theorem in_word {k a b : List Char} (h1 : ' ' ∉ k) (h2 : '>' ∉ k) (h3 : k ≠ []) {l : List Chunk} {m : List Char} {c : Char}
    (e : a ++ k ++ b = m ++ c :: spread asIs c none l) :
    (∃ a b, m ++ [c] = a ++ k ++ b) ∨ ∃ w ∈ l, ∃ a b, w.text = a ++ k ++ b := by
  induction l generalizing a m c with
  | nil =>
    have e : a ++ k ++ b = (m ++ [c]) ++ '>' :: [] := by rw [e]; simp [spread]
    rcases side h2 e with ⟨b', h⟩ | ⟨a', h⟩
    · exact .inl ⟨a, b', h⟩
    · have := congrArg List.length h
      simp only [List.length_nil, List.length_append] at this
      cases k with
      | nil => exact absurd rfl h3
      | cons => simp at this; omega
  | cons w l ih =>
    have skip : ∀ (n : Nat) (a : List Char), a ++ k ++ b = List.replicate n ' ' ++ (w.first :: w.mid ++ w.last :: spread asIs w.last none l) →
        ∃ a', a' ++ k ++ b = w.first :: w.mid ++ w.last :: spread asIs w.last none l := by
      intro n
      induction n with
      | zero => intro a e; exact ⟨a, e⟩
      | succ n ihn =>
        intro a e
        rcases side (x := []) h1 e with ⟨b', h⟩ | ⟨a', h⟩
        · have := congrArg List.length h
          simp only [List.length_nil, List.length_append] at this
          cases k with
          | nil => exact absurd rfl h3
          | cons => simp at this; omega
        · exact ihn a' h.symm
    have e : a ++ k ++ b = (m ++ [c]) ++ ' ' :: (List.replicate w.extra ' ' ++ (w.first :: w.mid ++ w.last :: spread asIs w.last none l)) := by
      rw [e]; simp [spread, asIs, blanks, List.replicate_succ]
    rcases side h1 e with ⟨b', h⟩ | ⟨a', h⟩
    · exact .inl ⟨a, b', h⟩
    · obtain ⟨a2, h⟩ := skip _ _ h.symm
      rcases ih h with ⟨x, y, h⟩ | ⟨v, hv, h⟩
      · exact .inr ⟨w, by simp, x, y, h⟩
      · exact .inr ⟨v, by simp [hv], h⟩

theorem quotes_blank (n : Nat) (s : List Char) : quotes (blanks n ++ s) = blanks n ++ quotes s := by
  have step : ∀ s, quotes (' ' :: s) = ' ' :: quotes s := fun s => quotes_miss (ends_nil.2 fun t u e hl => by
    have := lang_quotes_head e hl
    rw [show letter ' ' = false from by decide +kernel] at this; cases this)
  induction n with
  | zero => exact step s
  | succ n ih =>
    show quotes (' ' :: (blanks n ++ s)) = ' ' :: (blanks n ++ quotes s)
    rw [step, ih]

/-- A text without `width="` and `height="` stays, up to a character that is not part of an attribute. -/
theorem quotes_plain {d : Char} (z : List Char) (hd : letter d = false) (he : d ≠ '=') (hq : d ≠ '"') (hs : simple d = false) :
    ∀ (n : Nat) (s : List Char), s.length = n →
    (∀ k, k = "width".toList ∨ k = "height".toList → ∀ a b, s ≠ a ++ (k ++ '=' :: '"' :: b)) →
    quotes (s ++ d :: z) = s ++ quotes (d :: z) := by
  intro n
  induction n using Nat.strongRecOn with
  | ind n ih =>
    intro s hn h
    cases s with
    | nil => rfl
    | cons c s =>
      cases hx : ends quotesInTag (c :: s ++ d :: z) with
      | nil =>
        have := ih s.length (by rw [← hn]; simp) s rfl (fun k hk a b e => h k hk (c :: a) b (by rw [e]; rfl))
        rw [List.cons_append] at hx ⊢
        rw [quotes_miss hx, this]; rfl
      | cons x xs =>
        obtain ⟨k, v, k1, k2, v1, v2, -, e, eq⟩ := quotes_hit hx
        have hmem : d ∉ k ++ '=' :: '"' :: (v ++ ['"']) := by
          intro hm
          simp only [List.mem_append, List.mem_cons, List.not_mem_nil, or_false] at hm
          rcases hm with hm | hm | hm | hm | hm
          · rw [k2 d hm] at hd; cases hd
          · exact he hm
          · exact hq hm
          · rw [v2 d hm] at hs; cases hs
          · exact hq hm
        have e' : (k ++ '=' :: '"' :: (v ++ ['"'])) ++ x.rest = (c :: s) ++ d :: z := by rw [e]; simp
        have hb : ∃ b, c :: s = k ++ '=' :: '"' :: (v ++ ['"']) ++ b ∧ x.rest = b ++ d :: z := by
          rcases List.append_eq_append_iff.1 e' with ⟨y, h1, h2⟩ | ⟨y, h1, h2⟩
          · exact ⟨y, h1, h2⟩
          · cases y with
            | nil => exact ⟨[], by simpa using h1.symm, by simpa using h2.symm⟩
            | cons t y =>
              have : t = d := (List.cons.inj h2).1.symm
              subst this
              exact absurd (by rw [h1]; simp) hmem
        obtain ⟨b, h1, h2⟩ := hb
        have hk : ¬ (k = "width".toList ∨ k = "height".toList) := fun hk =>
          h k hk [] (v ++ ['"'] ++ b) (by rw [h1]; simp)
        rw [eq, if_neg hk, h2, ih b.length (by rw [← hn, h1]; simp; omega) b rfl fun k' hk' a' b' e2 =>
          h k' hk' (k ++ '=' :: '"' :: (v ++ ['"']) ++ a') b' (by rw [h1, e2]; simp), h1]
        simp

theorem isPrefix_iff {a b : List Char} : a.isPrefixOf b = true ↔ ∃ c, b = a ++ c := by
  rw [List.isPrefixOf_iff_prefix]
  exact ⟨fun ⟨c, h⟩ => ⟨c, h.symm⟩, fun ⟨c, h⟩ => ⟨c, h.symm⟩⟩

theorem filter_signs {v : List Char} (h : ∀ c ∈ v, simple c = true) : v.filter (· != '"') = v := by
  rw [List.filter_eq_self]
  intro c hc
  rw [bne_iff_ne]
  rintro rfl
  have := h _ hc
  rw [simple_dq] at this; cases this

/-- The quotes of one word. -/
theorem quotes_word {word : Char → Bool} {w : Chunk} (hw : w.Fair word) {d : Char} (z : List Char) (hd : letter d = false) (he : d ≠ '=')
    (hq : d ≠ '"') (hs : simple d = false) : quotes (w.text ++ d :: z) = unquoted w.text ++ quotes (d :: z) := by
  have ew : "width=\"".toList = "width".toList ++ ['=', '"'] := by decide +kernel
  have eh : "height=\"".toList = "height".toList ++ ['=', '"'] := by decide +kernel
  by_cases hk : ∃ k b, (k = "width".toList ∨ k = "height".toList) ∧ w.text = k ++ '=' :: '"' :: b
  · obtain ⟨k, b, hk, e⟩ := hk
    obtain ⟨-, v, v1, v2, rfl⟩ := hw.2.2 k hk [] b e
    have v3 : ∀ c ∈ v, simple c = true := fun c hc => plainSign_simple (v2 c hc)
    have k1 : k ≠ [] ∧ ∀ c ∈ k, letter c = true := by
      rcases hk with rfl | rfl <;> exact ⟨by decide +kernel, by decide +kernel⟩
    have hb : unquoted w.text = k ++ '=' :: v := by
      rw [unquoted, if_pos, e, List.filter_append, List.filter_cons_of_pos (by decide), List.filter_cons_of_neg (by decide),
        List.filter_append, filter_signs v3, filter_signs fun c hc => letter_simple (k1.2 c hc)]
      · simp
      · rw [Bool.or_eq_true, isPrefix_iff, isPrefix_iff, ew, eh, e]
        rcases hk with rfl | rfl
        · exact .inl ⟨v ++ ['"'], by simp⟩
        · exact .inr ⟨v ++ ['"'], by simp⟩
    have := quotes_at k1.1 k1.2 v1 v3 (d :: z)
    rw [if_pos hk] at this
    rw [hb, ← this, e]; simp
  · have hb : unquoted w.text = w.text := by
      rw [unquoted, if_neg]
      rw [Bool.or_eq_true, isPrefix_iff, isPrefix_iff, ew, eh]
      rintro (⟨c, e⟩ | ⟨c, e⟩)
      · exact hk ⟨_, c, .inl rfl, by rw [e]; simp⟩
      · exact hk ⟨_, c, .inr rfl, by rw [e]; simp⟩
    rw [hb]
    refine quotes_plain z hd he hq hs _ _ rfl ?_
    intro k h1 a b e
    obtain ⟨rfl, -⟩ := hw.2.2 k h1 a b e
    exact hk ⟨k, b, h1, e⟩

/-- The quotes of all words. -/
theorem quotes_spread {word : Char → Bool} {l : List Chunk} (hl : ∀ w ∈ l, w.Fair word) (c : Char) :
    quotes (spread asIs c none l) = written l := by
  induction l generalizing c with
  | nil =>
    show quotes ['>'] = ['>']
    rw [quotes_miss (ends_nil.2 fun t u e hl => by
      have := lang_quotes_head e hl
      rw [letter_gt] at this; cases this)]; rfl
  | cons w l ih =>
    have ih := ih (fun v hv => hl v (by simp [hv])) w.last
    rw [spread_text, quotes_blank]
    have : ∃ d z, spread asIs w.last none l = d :: z ∧ (d = ' ' ∨ d = '>') := by
      cases l with
      | nil => exact ⟨'>', [], rfl, .inr rfl⟩
      | cons v l => exact ⟨' ', _, rfl, .inl rfl⟩
    obtain ⟨d, z, e, hd⟩ := this
    rw [e] at ih ⊢
    rw [quotes_word (hl w (by simp)) z, ih]
    · simp [written]
    all_goals rcases hd with rfl | rfl <;> decide +kernel

theorem settled_text {word : Char → Bool} {c : Char} {l : List Chunk} {w : Chunk} (h : w ∈ settled word c l) :
    ∃ v ∈ l, w.text = v.text := by
  induction l generalizing c with
  | nil => cases h
  | cons v l ih =>
    rcases List.mem_cons.1 h with rfl | h
    · exact ⟨v, by simp, rfl⟩
    · obtain ⟨u, hu, e⟩ := ih h
      exact ⟨u, by simp [hu], e⟩

open Classical in
theorem tidy_quoted {T : Tables} (hT : T.Ok) {l : List Chunk} {m : List Char} {c h : Char}
    (hm : ∀ d ∈ m, dense d = true) (hc : dense c = true) (hl : ∀ w ∈ l, w.Fair T.word) (hh : (m ++ [c]).head? = some h)
    (hw : T.word h = true) :
    tidyTag T ('<' :: (m ++ c :: spread asIs c none l)) = some ('<' :: (m ++ c :: written (settled T.word c l))) := by
  have hs : ∀ d ∈ '<' :: m, Solid d := by
    intro d hd
    rcases List.mem_cons.1 hd with rfl | hd
    · exact ws_lt
    · exact dense_solid (hm d hd)
  have hcs := dense_solid hc
  have hl' : ∀ w ∈ l, Chunk.Tight w := fun w hw => Fair.tight (hl w hw)
  have gt : ∀ d, dense d = true → d ≠ '>' := by
    rintro d hd rfl; revert hd; decide
  have dq : ∀ d, dense d = true → d ≠ '"' := by
    rintro d hd rfl; revert hd; decide
  have dlt : ∀ d, dense d = true → d ≠ '<' := by
    rintro d hd rfl; revert hd; decide
  have second : ∃ r, m ++ c :: spread asIs c none l = h :: r := by
    cases m with
    | nil => simp at hh; subst hh; exact ⟨_, rfl⟩
    | cons d m => simp at hh; subst hh; exact ⟨_, rfl⟩
  obtain ⟨r, hr⟩ := second
  have hne : ∀ d, d.toNat < 128 → (d.isAlphanum || d == '_') = false → h ≠ d := by
    rintro d h1 h2 rfl
    rw [hT.word_ascii _ h1, h2] at hw; cases hw
  have lt : '<' ∉ m ++ c :: spread asIs c none l := by
    intro hx
    have : (∃ a b, m ++ [c] = a ++ ['<'] ++ b) ∨ ∃ w ∈ l, ∃ a b, w.text = a ++ ['<'] ++ b := by
      obtain ⟨a, b, e⟩ := List.append_of_mem hx
      exact in_word (a := a) (b := b) (by simp) (by simp) (by simp) (by rw [e]; simp)
    rcases this with ⟨a, b, e⟩ | ⟨w, hw', a, b, e⟩
    · have hx : '<' ∈ m ++ [c] := by rw [e]; simp
      rcases List.mem_append.1 hx with hx | hx
      · exact dlt _ (hm _ hx) rfl
      · exact dlt _ hc (List.mem_singleton.1 hx).symm
    · exact ((hl w hw').1 '<' (by rw [e]; simp)).2.1 rfl
  have close : ∀ q, shut q ('<' :: (m ++ c :: spread asIs c none l)) = '<' :: (m ++ c :: spread asIs c none l) := by
    intro q
    obtain ⟨y, z, h1, h2, h3⟩ := spread_end (c := c) (l := l) ⟨hcs, gt c hc⟩ fun w hw => Fair.inside (hl w hw)
    have e : '<' :: (m ++ c :: spread asIs c none l) = ('<' :: m ++ y) ++ [z] ++ ['>'] := by rw [h1]; simp
    rw [e]
    refine shut_closed ?_ (not_open h2)
    intro hx
    rw [List.append_assoc, List.mem_append] at hx
    rcases hx with hx | hx
    · rcases List.mem_cons.1 hx with hx | hx
      · exact absurd hx (by decide)
      · exact gt _ (hm _ hx) rfl
    · exact h3 hx
  have f1 : findIter (betweenWords T) ('<' :: (m ++ c :: spread asIs c none l)) = (found T.word T.word c none l).map gapText := by
    have := find_mid (p := T.word) (q := T.word) ('<' :: m) (spread asIs c none l) hs hcs
    rw [find_spread hT.word_space hT.word_space none l hl' c hcs] at this
    exact this
  have f3 : findIter (extraSpaces3 T) ('<' :: (m ++ c :: spread asIs c none l)) = [] := by
    have := find_mid (p := T.digit) (q := (· == '>')) ('<' :: m) (spread asIs c none l) hs hcs
    rw [find_spread (fun c hc => hT.word_space c (hT.digit_word c hc)) (fun c hc => by
      rw [beq_iff_eq] at hc; subst hc; exact ws_gt) none l hl' c hcs, found_plain fun w hw' =>
        ((hl w hw').1 w.first (by simp [Chunk.text])).2.2] at this
    exact this
  have f2 := loop_spread (m := '<' :: m) hs hcs none l hl' (found T.word T.word c none l)
    (fun x hx => ⟨hT.word_space _ (mem_found hx).1, hT.word_space _ (mem_found hx).2⟩) asIs
  rw [fold_found, spread_narrowed (oneBetween T.word T.word)] at f2
  have hl1 := narrowed_fair (f := fun c w => oneBetween T.word T.word c w.extra w.first) (c := c) hl
  obtain ⟨H, g1, g2, g3⟩ := find_names hT _ hl1 c hcs
  have g4 := nameLoop_names hT (m := '<' :: m) hs hcs hl1 H g2 []
  rw [List.nil_append, narrowed_covers hT g2 g3, narrowed_settled,
    narrowed_none (fun c w => ∃ y ∈ ([] : List NameGap), y.At c w) (by simp)] at g4
  have g5 := names_mid (T := T) ('<' :: m) (spread asIs c none (narrowed (fun c w => oneBetween T.word T.word c w.extra w.first) c l)) hs hcs
  rw [g1] at g5
  have hq : quotes ('<' :: (m ++ c :: spread asIs c none (settled T.word c l))) = '<' :: (m ++ c :: written (settled T.word c l)) := by
    have hfair : ∀ w ∈ settled T.word c l, w.Fair T.word := by
      intro w hw'
      obtain ⟨v, hv, e⟩ := settled_text hw'
      have := hl v hv
      rw [Chunk.Fair, e]; exact this
    have hq := quotes_spread hfair c
    have : ∃ d z, spread asIs c none (settled T.word c l) = d :: z ∧ (d = ' ' ∨ d = '>') := by
      cases settled T.word c l with
      | nil => exact ⟨'>', [], rfl, .inr rfl⟩
      | cons v l => exact ⟨' ', _, rfl, .inl rfl⟩
    obtain ⟨d, z, e, hd⟩ := this
    rw [e] at hq ⊢
    have e2 : '<' :: (m ++ c :: d :: z) = ('<' :: m ++ [c]) ++ d :: z := by simp
    rw [e2, quotes_skip z, hq]
    · simp
    · intro hx
      rcases List.mem_append.1 hx with hx | hx
      · rcases List.mem_cons.1 hx with hx | hx
        · exact absurd hx (by decide)
        · exact dq _ (hm _ hx) rfl
      · exact dq _ hc (List.mem_singleton.1 hx).symm
    · rcases hd with rfl | rfl <;> decide +kernel
    · rcases hd with rfl | rfl <;> decide
    · left; rcases hd with rfl | rfl <;> decide
  have c1 : replaceAll (spacesBeforeClose '"') (fun _ => "\">".toList) ('<' :: (m ++ c :: spread asIs c none l)) = _ := close '"'
  have c2 : replaceAll (spacesBeforeClose '\'') (fun _ => "'>".toList) ('<' :: (m ++ c :: spread asIs c none l)) = _ := close '\''
  rw [tidyTag, if_neg]
  · simp only
    rw [c1, c2, f1, f3, spaceLoop, replacements_nil]
    rw [List.cons_append] at f2 g5 g4
    rw [f2, List.cons_append, g5, g4]
    exact congrArg some hq
  · rw [Bool.or_eq_true]
    rintro (k | k)
    · obtain ⟨u, k⟩ := startsWith_iff.1 k
      rw [hr] at k
      exact hne '!' (by decide) (by decide) (List.cons.inj (List.cons.inj k).2).1
    · obtain ⟨a, b, k⟩ := contains_iff.1 k
      cases a with
      | nil =>
        rw [hr] at k
        exact hne '/' (by decide) (by decide) (List.cons.inj (List.cons.inj k).2).1
      | cons d a =>
        have := (List.cons.inj k).2
        exact lt (by rw [this]; simp)

end Verif.Html
