import Verif.Proofs.HtmlPage
/-!
# What `condense` does to a tag, as a browser reads it
-/
set_option linter.unusedSimpArgs false
namespace Verif.Spec.Html

theorem Untyped.refl (as : List (List Char × List Char)) : Untyped as as := by
  induction as with
  | nil => exact .nil
  | cons a as ih => exact .keep a ih

theorem Untyped.app {as bs cs ds : List (List Char × List Char)} (h : Untyped as bs) (h' : Untyped cs ds) :
    Untyped (as ++ cs) (bs ++ ds) := by
  induction h with
  | nil => exact h'
  | keep a _ ih => exact .keep a ih
  | drop v _ ih => exact .drop v ih

theorem Untyped.more {as bs : List (List Char × List Char)} (h : Untyped as bs) (v : List Char) :
    Untyped (as ++ [("type".toList, v)]) bs := by
  have := h.app (.drop v .nil)
  rwa [List.append_nil] at this

theorem Untyped.one {as bs : List (List Char × List Char)} (h : Untyped as bs) (a : List Char × List Char) :
    Untyped (as ++ [a]) (bs ++ [a]) := h.app (.refl _)

end Verif.Spec.Html

namespace Verif.Html
open Verif.Spec.Html

/-- If every `type` states the default, the effective attributes are the same. -/
theorem untyped_effective {n : List Char} {as bs : List (List Char × List Char)} (h : Untyped as bs)
    (hd : ∀ v, ("type".toList, v) ∈ as → defaultType n v = true) : effective n bs = effective n as := by
  induction h with
  | nil => rfl
  | keep a _ ih =>
    have := ih (fun v hv => hd v (List.mem_cons_of_mem _ hv))
    simp only [effective, List.filter_cons] at this ⊢
    rw [this]
  | drop v _ ih =>
    have h1 := ih (fun v hv => hd v (List.mem_cons_of_mem _ hv))
    have h2 := hd v (by simp)
    rw [h1]
    simp only [effective, List.filter_cons, h2, beq_self_eq_true, Bool.and_self, Bool.not_true, Bool.false_eq_true, if_false]

theorem typeSafe_append {r : Reader} {a b : List Char} (h : TypeSafe r (a ++ b)) : TypeSafe (r.run a) b := by
  induction a generalizing r with
  | nil => exact h
  | cons c a ih => exact ih h.2.2.2

/-- The attributes once the attribute at hand is complete. -/
def flush (r : Reader) : Option (List (List Char × List Char)) :=
  match r.st with
  | .tagName | .beforeName | .afterQuoted | .slash => some r.attrs
  | .name n | .afterName n => some (r.attrs ++ [(n, [])])
  | .unq n v => some (r.attrs ++ [(n, v)])
  | _ => none

/-- What is left of the tag before (`r`) and after (`q`) the pass reads alike, `s` being to be read. -/
def Sim (r q : Reader) (s : List Char) : Prop :=
  r.tag = q.tag ∧
  ((r.st = q.st ∧ Untyped r.attrs q.attrs) ∨
   (∃ a b, r.st = .closed a ∧ q.st = .closed b ∧ Untyped r.attrs q.attrs) ∨
   (r.st = .afterQuoted ∧ (∃ bs, flush q = some bs ∧ Untyped r.attrs bs) ∧
      ∃ d, s.head? = some d ∧ (blank d = true ∨ d = '>')) ∨
   (r.st = .beforeName ∧ ∃ n, q.st = .afterName n ∧ Untyped r.attrs (q.attrs ++ [(n, [])])))

theorem sim_same {r q : Reader} (h0 : r.tag = q.tag) (h1 : r.st = q.st) (h2 : Untyped r.attrs q.attrs) (c : Char) (s : List Char) :
    Sim (r.step c) (q.step c) s := by
  obtain ⟨st, tag, as⟩ := r
  obtain ⟨st', tag', bs⟩ := q
  simp only at h0 h1 h2
  subst h0; subst h1
  cases st <;> simp only [Reader.step, Reader.begin, Reader.to, Reader.put] <;> (repeat' split) <;>
    first
      | exact ⟨rfl, .inl ⟨rfl, h2⟩⟩
      | exact ⟨rfl, .inl ⟨rfl, h2.one _⟩⟩

theorem blank_gt {c : Char} (h : blank c = true) : c ≠ '>' := by rintro rfl; exact absurd h (by decide +kernel)
theorem blank_slash {c : Char} (h : blank c = true) : c ≠ '/' := by rintro rfl; exact absurd h (by decide +kernel)
theorem blank_eq {c : Char} (h : blank c = true) : c ≠ '=' := by rintro rfl; exact absurd h (by decide +kernel)
theorem gt_blank : blank '>' = false := by decide +kernel

theorem sim_step {r q : Reader} {c : Char} {s : List Char} (h : Sim r q (c :: s)) (he : c = '=' → r.st ≠ .beforeName) :
    Sim (r.step c) (q.step c) s := by
  obtain ⟨h0, h | ⟨a, b, h1, h2, h3⟩ | ⟨h1, ⟨bs', h2, h3⟩, d, h4, h5⟩ | ⟨h1, n, h2, h3⟩⟩ := h
  · exact sim_same h0 h.1 h.2 c s
  · obtain ⟨st, tag, as⟩ := r
    obtain ⟨st', tag', bs⟩ := q
    simp only at h0 h1 h2 h3
    subst h0; subst h1; subst h2
    exact ⟨rfl, .inl ⟨rfl, h3⟩⟩
  · obtain ⟨st, tag, as⟩ := r
    obtain ⟨st', tag', bs⟩ := q
    simp only at h0 h1 h3
    subst h0; subst h1
    obtain rfl : c = d := by simpa using h4
    cases st' <;> simp only [flush, Option.some.injEq, reduceCtorEq] at h2 <;> subst h2 <;> rcases h5 with h5 | h5
    all_goals first
      | (have g := blank_gt h5
         have g' := blank_slash h5
         simp only [Reader.step, Reader.begin, Reader.to, Reader.put, h5, g, g', if_true, if_false]
         first
           | exact ⟨rfl, .inl ⟨rfl, h3⟩⟩
           | exact ⟨rfl, .inr (.inr (.inr ⟨rfl, _, rfl, h3⟩))⟩)
      | (subst h5
         simp only [Reader.step, Reader.begin, Reader.to, Reader.put, gt_blank, if_false, Bool.false_eq_true, if_true,
           show ¬ ('>' = '/') by decide]
         first
           | exact ⟨rfl, .inl ⟨rfl, h3⟩⟩
           | exact ⟨rfl, .inr (.inl ⟨_, _, rfl, rfl, h3⟩)⟩)
  · have he := fun e => he e h1
    obtain ⟨st, tag, as⟩ := r
    obtain ⟨st', tag', bs⟩ := q
    simp only at h0 h1 h2 h3
    subst h0; subst h1; subst h2
    have he : ¬ c = '=' := fun e => he e rfl
    simp only [Reader.step, Reader.begin, Reader.to, Reader.put, he, if_false]
    by_cases g1 : blank c = true
    · simp only [g1, if_true]
      exact ⟨rfl, .inr (.inr (.inr ⟨rfl, _, rfl, h3⟩))⟩
    · by_cases g2 : c = '/'
      · simp only [g1, g2, if_true, if_false, Bool.false_eq_true, show blank '/' = false by decide +kernel]
        exact ⟨rfl, .inl ⟨rfl, h3⟩⟩
      · by_cases g3 : c = '>'
        · simp only [g3, gt_blank, if_true, if_false, Bool.false_eq_true, show ¬ ('>' = '/') by decide]
          exact ⟨rfl, .inl ⟨rfl, h3⟩⟩
        · simp only [g1, g2, g3, if_false]
          exact ⟨rfl, .inl ⟨rfl, h3⟩⟩

/-- Reading a quoted value. -/
theorem run_quoted {v : List Char} (hv : '"' ∉ v) (t : List Char) (as : List (List Char × List Char)) (n u : List Char) :
    Reader.run ⟨.dq n u, t, as⟩ (v ++ ['"']) = ⟨.afterQuoted, t, as ++ [(n, u ++ v)]⟩ := by
  induction v generalizing u with
  | nil => simp [Reader.run, Reader.step, Reader.put]
  | cons c v ih =>
    simp only [List.mem_cons, not_or] at hv
    rw [List.cons_append, run_cons]
    have : Reader.step ⟨.dq n u, t, as⟩ c = ⟨.dq n (u ++ [c]), t, as⟩ := by
      simp [Reader.step, Reader.to, Ne.symm hv.1]
    rw [this, ih hv.2]; simp

theorem run_type {r : Reader} (hb : r.st.between = true) {v : List Char} (hv : '"' ∉ v) :
    ∃ as, flush r = some as ∧
      r.run ("type=\"".toList ++ v ++ ['"']) = ⟨.afterQuoted, r.tag, as ++ [("type".toList, v)]⟩ := by
  have e0 : "type=\"".toList = ['t', 'y', 'p', 'e', '=', '"'] := by decide +kernel
  have e1 : "type".toList = ['t', 'y', 'p', 'e'] := by decide +kernel
  have b1 : blank 't' = false := by decide +kernel
  have b2 : blank 'y' = false := by decide +kernel
  have b3 : blank 'p' = false := by decide +kernel
  have b4 : blank 'e' = false := by decide +kernel
  have b5 : blank '=' = false := by decide +kernel
  have b6 : blank '"' = false := by decide +kernel
  have hrun : ∀ (st : St) (t : List Char) (as bs : List (List Char × List Char)),
      Reader.step ⟨st, t, as⟩ 't' = ⟨.name ['t'], t, bs⟩ →
      Reader.run ⟨st, t, as⟩ ("type=\"".toList ++ v ++ ['"']) = ⟨.afterQuoted, t, bs ++ [("type".toList, v)]⟩ := by
    intro st t as bs h
    rw [e0, e1, List.append_assoc, run_append]
    have : Reader.run ⟨st, t, as⟩ ['t', 'y', 'p', 'e', '=', '"'] = ⟨.dq ['t', 'y', 'p', 'e'] [], t, bs⟩ := by
      rw [run_cons, h]
      simp [Reader.run, Reader.step, Reader.to, b2, b3, b4, b5, b6]
    rw [this, run_quoted hv]; simp
  obtain ⟨st, t, as⟩ := r
  cases st with
  | beforeName => exact ⟨as, rfl, hrun _ _ _ _ (by simp [Reader.step, Reader.begin, Reader.to, b1])⟩
  | afterName n => exact ⟨as ++ [(n, [])], rfl, hrun _ _ _ _ (by simp [Reader.step, Reader.put, b1])⟩
  | _ => simp [St.between] at hb

/-- White space before an attribute completes the attribute before it. -/
theorem flush_blank {r : Reader} (h : (r.step ' ').st.between = true) (hq : r.st.quoted = false) :
    ∃ as, flush r = some as ∧ flush (r.step ' ') = some as ∧ (r.step ' ').tag = r.tag := by
  obtain ⟨st, t, as⟩ := r
  cases st <;> simp [Reader.step, Reader.begin, Reader.to, Reader.put, blank_sp, St.between, flush, St.quoted] at h hq ⊢

theorem flush_same {r q : Reader} (h1 : r.st = q.st) (h2 : Untyped r.attrs q.attrs) {as : List (List Char × List Char)}
    (h : flush r = some as) : ∃ bs, flush q = some bs ∧ Untyped as bs := by
  obtain ⟨st, t, xs⟩ := r
  obtain ⟨st', t', ys⟩ := q
  simp only at h1 h2
  subst h1
  cases st <;> simp only [flush, Option.some.injEq, reduceCtorEq] at h <;> subst h <;>
    first
      | exact ⟨_, rfl, h2⟩
      | exact ⟨_, rfl, h2.one _⟩

theorem sim_flush {r q : Reader} {s : List Char} (h : Sim r q s) {as : List (List Char × List Char)} (hf : flush r = some as) :
    ∃ bs, flush q = some bs ∧ Untyped as bs := by
  obtain ⟨-, h | ⟨a, b, h1, h2, h3⟩ | ⟨h1, h2, -⟩ | ⟨h1, n, h2, h3⟩⟩ := h
  · exact flush_same h.1 h.2 hf
  · rw [flush, h1] at hf; simp at hf
  · rw [flush, h1] at hf
    rw [← Option.some.inj hf]; exact h2
  · rw [flush, h1] at hf
    rw [← Option.some.inj hf]
    exact ⟨_, by rw [flush, h2], h3⟩

theorem upToQuote {s : List Char} {h : Hit} {hh : List Hit} (he : ends (.seq (.star false notNl) (.c '"')) s = h :: hh) :
    ∃ v, s = v ++ '"' :: h.rest ∧ '"' ∉ v := by
  induction s generalizing h hh with
  | nil => simp [ends, splits, Re.c] at he
  | cons c s ih =>
    rw [lazy_cons] at he
    by_cases hc : c = '"'
    · subst hc
      have : ends (.c '"') ('"' :: s) = [⟨['"'], s, []⟩] := by simp [ends, Re.c]
      rw [this] at he
      rw [← (List.cons.inj he).1]
      exact ⟨[], rfl, by simp⟩
    · have : ends (.c '"') (c :: s) = [] := by simp [ends, Re.c, hc]
      rw [this, List.nil_append] at he
      split at he
      · cases hx : ends (.seq (.star false notNl) (.c '"')) s with
        | nil => rw [hx] at he; simp at he
        | cons k kk =>
          rw [hx] at he
          have := (List.cons.inj he).1
          obtain ⟨v, h1, h2⟩ := ih hx
          refine ⟨c :: v, ?_, by simp [Ne.symm hc, h2]⟩
          rw [← this, h1]; rfl
      · simp at he

/-- A match of the type attribute: blanks, `type="`, a value without `"`, and `"`. -/
theorem typeAttr_hit {T : Tables} (hT : T.Ok) {s : List Char} {h : Hit} {hh : List Hit} (he : ends (typeAttr T) s = h :: hh) :
    ∃ w v, s = w ++ ("type=\"".toList ++ v ++ ['"']) ++ h.rest ∧ (∀ c ∈ w, isWhitespace c = true) ∧ '"' ∉ v := by
  have lit : ∀ {s : List Char} {h : Hit} {hh : List Hit}, ends (.lit "type=\"".toList (.seq (.ch (wordBarSpace T))
      (.seq (.star false notNl) (.c '"')))) s = h :: hh → ∃ v, s = "type=\"".toList ++ v ++ ['"'] ++ h.rest ∧ '"' ∉ v := by
    intro s h hh he
    by_cases hs : ∃ u, s = "type=\"".toList ++ u
    · obtain ⟨u, rfl⟩ := hs
      rw [ends_lit] at he
      cases u with
      | nil => rw [ends_ch_nil] at he; simp at he
      | cons c u =>
        rw [ends_ch_seq] at he
        split at he
        · rename_i hc
          cases hx : ends (.seq (.star false notNl) (.c '"')) u with
          | nil => rw [hx] at he; simp at he
          | cons k kk =>
            rw [hx] at he
            have e := (List.cons.inj he).1
            obtain ⟨v, h1, h2⟩ := upToQuote hx
            refine ⟨c :: v, ?_, ?_⟩
            · rw [← e, h1]; simp
            · have : c ≠ '"' := by
                rintro rfl
                rw [wordBarSpace, hT.word_ascii '"' (by decide)] at hc
                exact absurd hc (by decide +kernel)
              simp [Ne.symm this, h2]
        · simp at he
    · rw [ends_lit_nil (fun u e => hs ⟨u, e⟩)] at he; simp at he
  induction s generalizing h hh with
  | nil =>
    have : ends (typeAttr T) [] = [] := by
      refine ends_nil.2 ?_
      intro t u e hl
      obtain ⟨w, v, rfl, -⟩ := lang_typeAttr hl
      have := congrArg List.length e
      simp at this
    rw [this] at he; simp at he
  | cons c s ih =>
    rw [typeAttr, lazy_cons] at he
    cases hx : ends (.lit "type=\"".toList (.seq (.ch (wordBarSpace T)) (.seq (.star false notNl) (.c '"')))) (c :: s) with
    | cons k kk =>
      rw [hx] at he
      obtain ⟨v, h1, h2⟩ := lit hx
      refine ⟨[], v, ?_, by simp, h2⟩
      rw [← (List.cons.inj he).1]; exact h1
    | nil =>
      rw [hx, List.nil_append] at he
      split at he
      · rename_i hc
        cases hy : ends (typeAttr T) s with
        | nil => rw [typeAttr] at hy; rw [hy] at he; simp at he
        | cons k kk =>
          obtain ⟨w, v, h1, h2, h3⟩ := ih hy
          rw [typeAttr] at hy
          rw [hy] at he
          refine ⟨c :: w, v, ?_, ?_, h3⟩
          · rw [← (List.cons.inj he).1, h1]; rfl
          · intro d hd
            rcases List.mem_cons.1 hd with rfl | hd
            · exact hc
            · exact h2 d hd
      · simp at he

/-- White space that is read outside of quotes. -/
theorem run_ws {w s : List Char} {r : Reader} (hw : ∀ c ∈ w, isWhitespace c = true) (ht : Tame r (w ++ s)) (hne : w ≠ []) :
    if r.st.quoted then (r.run w).st.quoted = true else r.run w = r.step ' ' := by
  split
  · rename_i hq
    clear hne ht
    induction w generalizing r with
    | nil => exact hq
    | cons c w ih =>
      refine ih (r := r.step c) (fun x hx => hw x (by simp [hx])) ?_
      have h1 : c ≠ '"' := by rintro rfl; exact absurd (hw '"' (by simp)) (by decide +kernel)
      have h2 : c ≠ '\'' := by rintro rfl; exact absurd (hw '\'' (by simp)) (by decide +kernel)
      obtain ⟨st, t, as⟩ := r
      cases st <;> simp [St.quoted, Reader.step, Reader.to, h1, h2] at hq ⊢
  · rename_i hq
    have hq : r.st.quoted = false := by simpa using hq
    refine run_blanks r hq ?_ hne
    clear hne
    induction w generalizing r with
    | nil => simp
    | cons x w ih =>
      intro c hc
      have hx := ht.1.2 (hw x (by simp))
      rw [if_neg (by rw [hq]; decide)] at hx
      rcases List.mem_cons.1 hc with rfl | hc
      · exact hx
      · exact ih (r := r.step x) (fun z hz => hw z (by simp [hz])) ht.2 (by rw [(step_blank r hq hx blank_sp).2.2]; decide)
          (step_blank r hq hx blank_sp).2.2 c hc

/-- White space or the end of the tag. -/
def Stop (s : List Char) : Prop := ∃ d, s.head? = some d ∧ (blank d = true ∨ d = '>')

theorem between_quoted {st : St} (h : st.between = true) : st.quoted = false := by
  cases st <;> simp [St.between, St.quoted] at h ⊢

theorem quoted_ws {w : List Char} {r : Reader} (hq : r.st.quoted = true) (hw : ∀ c ∈ w, isWhitespace c = true) :
    (r.run w).st.quoted = true := by
  induction w generalizing r with
  | nil => exact hq
  | cons c w ih =>
    refine ih (r := r.step c) ?_ (fun x hx => hw x (by simp [hx]))
    have h1 : c ≠ '"' := by rintro rfl; exact absurd (hw '"' (by simp)) (by decide +kernel)
    have h2 : c ≠ '\'' := by rintro rfl; exact absurd (hw '\'' (by simp)) (by decide +kernel)
    obtain ⟨st, t, as⟩ := r
    cases st <;> simp [St.quoted, Reader.step, Reader.to, h1, h2] at hq ⊢

/-- What a match leaves behind. -/
theorem condense_hit {T : Tables} (hT : T.Ok) {s : List Char} {k : Hit} {kk : List Hit} (he : ends (typeAttr T) s = k :: kk)
    {r q : Reader} (h : Sim r q s) (ht : Tame r s) (hs : TypeSafe r s) :
    ∃ m, s = m ++ k.rest ∧ Sim (r.run m) q k.rest ∧ Stop k.rest ∧ r.st.quoted = false := by
  obtain ⟨w, v, e, hw, hv⟩ := typeAttr_hit hT he
  generalize k.rest = rest at *
  rw [e] at h ht hs
  have ht0 := ht
  rw [List.append_assoc] at ht hs
  have hs2 := typeSafe_append hs
  have hb : (r.run w).st.between = true := by
    have e0 : "type=\"".toList = 't' :: "ype=\"".toList := by decide +kernel
    rw [e0] at hs2
    refine hs2.1 ?_
    rw [e0]
    exact ⟨v ++ ['"'] ++ rest, by simp⟩
  obtain ⟨as, f1, f2⟩ := run_type hb hv
  have hnq : r.st.quoted = false := by
    cases hq : r.st.quoted with
    | false => rfl
    | true =>
      have := quoted_ws hq hw
      rw [between_quoted hb] at this; exact absurd this (by decide)
  have hfl : flush r = some as ∧ (r.run w).tag = r.tag := by
    by_cases hw0 : w = []
    · subst hw0; exact ⟨f1, rfl⟩
    · have := run_ws hw ht hw0
      rw [hnq, if_neg (by decide)] at this
      rw [this] at hb f1 ⊢
      obtain ⟨as', g1, g2, g3⟩ := flush_blank hb hnq
      rw [f1] at g2
      rw [g1, ← Option.some.inj g2]; exact ⟨rfl, g3⟩
  obtain ⟨bs, g1, g2⟩ := sim_flush h hfl.1
  have hstop : Stop rest := by
    have e2 : w ++ ("type=\"".toList ++ v ++ ['"']) ++ rest = (w ++ ("type=\"".toList ++ v)) ++ ('"' :: rest) := by simp
    have e2' : w ++ ("type=\"".toList ++ v ++ ['"']) ++ rest = (w ++ ("type=\"".toList ++ v)) ++ ('"' :: rest) := e2
    rw [e2] at ht0
    have := (tame_append ht0).1.1 rfl
    have hq : (r.run (w ++ ("type=\"".toList ++ v))).step '"' = ⟨.afterQuoted, (r.run w).tag, as ++ [("type".toList, v)]⟩ := by
      rw [← f2, run_append r w, run_append (r.run w) ("type=\"".toList ++ v)]; rfl
    rcases this with ⟨n, hn⟩ | ⟨n, v', hn, d, h1, h2⟩
    · exfalso
      have := congrArg Reader.st hq
      rw [Reader.step, hn] at this
      simp [blank, Reader.to] at this
    · refine ⟨d, h1, ?_⟩
      rcases h2 with h2 | h2 | ⟨rfl, -⟩
      · exact .inl h2
      · exact .inr h2
      · exfalso
        have := congrArg Reader.attrs hq
        rw [Reader.step, hn] at this
        simp only [Reader.put, ↓reduceIte] at this
        have := List.append_inj_right' this rfl
        have : n = "type".toList := congrArg Prod.fst (List.cons.inj this).1
        subst this
        rw [← List.append_assoc, e2'] at hs
        exact (typeSafe_append hs).2.2.1 rfl v' hn h1
  refine ⟨w ++ ("type=\"".toList ++ v ++ ['"']), e, ?_, hstop, hnq⟩
  rw [run_append r w, f2]
  exact ⟨hfl.2.trans h.1, .inr (.inr (.inl ⟨rfl, ⟨bs, g1, g2.more v⟩, hstop⟩))⟩

theorem condense_sim {T : Tables} (hT : T.Ok) (s : List Char) : ∀ r q, Sim r q s → Tame r s → TypeSafe r s →
    Sim (r.run s) (q.run (replaceAll (typeAttr T) (fun _ => []) s)) [] := by
  induction s using cut_induct (solid_typeAttr T) with
  | nil => intro r q h _ _; rw [replaceAll_nil]; exact h
  | miss c s he ih =>
    intro r q h ht hs
    rw [replaceAll_miss _ he, run_cons, run_cons]
    exact ih _ _ (sim_step h (fun e => (hs.2.1 e).1)) ht.2 hs.2.2.2
  | hit s k kk he ih =>
    intro r q h ht hs
    rw [replaceAll_hit (solid_typeAttr T) _ he, List.nil_append]
    obtain ⟨m, e, h1, -, -⟩ := condense_hit hT he h ht hs
    rw [e] at ht hs ⊢
    rw [run_append r m]
    exact ih _ _ h1 (tame_append ht) (typeSafe_append hs)

/-- The tag after the pass has the same name, and the same attributes but for some called `type`. -/
theorem condense_read {T : Tables} (hT : T.Ok) {s n : List Char} {as : List (List Char × List Char)} {b : Bool}
    (ht : Tame Reader.init s) (hs : TypeSafe Reader.init s) (h : readTag s = some (n, as, b)) :
    ∃ bs b', readTag (replaceAll (typeAttr T) (fun _ => []) s) = some (n, bs, b') ∧ Untyped as bs := by
  obtain ⟨h0, h1⟩ := condense_sim hT s Reader.init Reader.init ⟨rfl, .inl ⟨rfl, .nil⟩⟩ ht hs
  rw [readTag] at h ⊢
  generalize Reader.init.run (replaceAll (typeAttr T) (fun _ => []) s) = q at *
  generalize Reader.init.run s = r at *
  cases hr : r.st with
  | closed x =>
    rw [hr] at h
    obtain ⟨rfl, h2⟩ := Prod.mk.inj (Option.some.inj h)
    obtain ⟨rfl, rfl⟩ := Prod.mk.inj h2
    rw [hr] at h1
    rcases h1 with ⟨h1, h2⟩ | ⟨a, b, -, h1, h2⟩ | ⟨h1, -⟩ | ⟨h1, -⟩
    · exact ⟨q.attrs, x, by rw [← h1, h0], h2⟩
    · exact ⟨q.attrs, b, by rw [h1, h0], h2⟩
    · cases h1
    · cases h1
  | _ => rw [hr] at h; simp at h

/-- Only `style` and `script` tags are concerned. -/
theorem condTag_cases {T : Tables} (hT : T.Ok) {t : List Char} (h1 : '<' ∉ t) (h2 : '>' ∉ t) :
    condTag T t = '<' :: (t ++ ['>']) ∨
    ((∃ u, t = "style".toList ++ u ∨ t = "script".toList ++ u) ∧
      condTag T t = replaceAll (typeAttr T) (fun _ => []) ('<' :: (t ++ ['>']))) := by
  rw [condTag, condense_eq]
  rcases (styleTag_taglike hT).tag t h2 with hh | hh
  · right
    obtain ⟨b, bb, f1, f2, f3⟩ := hh []
    rw [replaceAll_hit (solid_styleTag T) _ f1, f2, f3, replaceAll_nil, List.append_nil]
    refine ⟨?_, rfl⟩
    have hl := (ends_sound (h := b) (by rw [f1]; simp)).2
    rw [f2] at hl
    obtain ⟨u, v, e, g1, g2⟩ := hl
    rw [lang_c.1 g1] at e
    obtain ⟨a, b, rfl, g3, ⟨x, y, rfl, -, g4⟩⟩ := g2
    obtain ⟨z, rfl, -⟩ := lang_upToGt (show lang upToGt y from g4)
    have e : t ++ ['>'] = (a ++ x ++ z) ++ ['>'] := by rw [(List.cons.inj e).2]; simp
    have e := List.append_inj_left' e rfl
    refine ⟨x ++ z, ?_⟩
    rcases g3 with g3 | g3
    · rw [(lang_str (by simp)).1 g3] at e
      exact .inl (by rw [e]; simp)
    · rw [(lang_str (by simp)).1 g3] at e
      exact .inr (by rw [e]; simp)
  · left
    have n : Tagless (t ++ ['>']) := .of (by simp [h1])
    rw [replaceAll_miss _ (hh [])]
    have := replaceAll_text (styleTag_taglike hT) (fun x => replaceAll (typeAttr T) (fun _ => []) x.text) n []
    rw [List.append_nil] at this
    rw [this, replaceAll_nil, List.append_nil]

/-! ## The tag stays tame -/

theorem sim_quoted {r q : Reader} {s : List Char} (h : Sim r q s) :
    ((r.st.quoted = true ∨ ∃ n, r.st = .beforeValue n) → r.st = q.st) ∧ (r.st.quoted = false → q.st.quoted = false) := by
  obtain ⟨-, h | ⟨a, b, h1, h2, h3⟩ | ⟨h1, ⟨bs, h2, -⟩, -⟩ | ⟨h1, n, h2, h3⟩⟩ := h
  · exact ⟨fun _ => h.1, fun h' => by rw [← h.1]; exact h'⟩
  · refine ⟨?_, fun _ => by rw [h2]; rfl⟩
    rw [h1]; rintro (h | ⟨n, h⟩)
    · exact absurd h (by simp [St.quoted])
    · cases h
  · refine ⟨?_, fun _ => ?_⟩
    · rw [h1]; rintro (h | ⟨n, h⟩)
      · exact absurd h (by simp [St.quoted])
      · cases h
    · generalize hq : q.st = st at *
      cases st <;> simp [flush, hq, St.quoted] at h2 ⊢
  · refine ⟨?_, fun _ => by rw [h2]; rfl⟩
    rw [h1]; rintro (h | ⟨n, h⟩)
    · exact absurd h (by simp [St.quoted])
    · cases h

theorem condense_tame {T : Tables} (hT : T.Ok) (s : List Char) : ∀ r q, Sim r q s → Tame r s → TypeSafe r s →
    Tame q (replaceAll (typeAttr T) (fun _ => []) s) ∧ (Stop s → Stop (replaceAll (typeAttr T) (fun _ => []) s)) ∧
    (r.st.quoted = true → (replaceAll (typeAttr T) (fun _ => []) s).head? = s.head?) ∧
    (Tight r s → Tight q (replaceAll (typeAttr T) (fun _ => []) s)) ∧
    (s.head? = some '/' → (replaceAll (typeAttr T) (fun _ => []) s).head? = some '/') := by
  induction s using cut_induct (solid_typeAttr T) with
  | nil =>
    intro r q h _ _; rw [replaceAll_nil]
    exact ⟨trivial, id, fun _ => rfl, id, id⟩
  | miss c s he ih =>
    intro r q h ht hs
    rw [replaceAll_miss _ he]
    obtain ⟨i1, i2, i3, i4, i5⟩ := ih _ _ (sim_step h (fun e => (hs.2.1 e).1)) ht.2 hs.2.2.2
    obtain ⟨q1, q2⟩ := sim_quoted h
    refine ⟨⟨⟨?_, ?_⟩, i1⟩, ?_, fun _ => rfl, ?_, id⟩
    · intro hc
      rcases ht.1.1 hc with ⟨n, h1⟩ | ⟨n, v, h1, d, h2, h3⟩
      · exact .inl ⟨n, by rw [← q1 (.inr ⟨n, h1⟩)]; exact h1⟩
      · refine .inr ⟨n, v, by rw [← q1 (.inl (by rw [h1]; rfl))]; exact h1, ?_⟩
        have : blank d = true ∨ d = '>' → ∃ d, (replaceAll (typeAttr T) (fun _ => []) s).head? = some d ∧
            (blank d = true ∨ d = '>' ∨ (d = '/' ∧ sized n = false)) := by
          intro h3
          obtain ⟨d', k1, k2⟩ := i2 ⟨d, h2, h3⟩
          exact ⟨d', k1, k2.elim .inl fun k => .inr (.inl k)⟩
        rcases h3 with h3 | h3 | ⟨rfl, h3⟩
        · exact this (.inl h3)
        · exact this (.inr h3)
        · exact ⟨'/', i5 h2, .inr (.inr ⟨rfl, h3⟩)⟩
    · intro hc
      have h1 := ht.1.2 hc
      cases hq : r.st.quoted with
      | false =>
        rw [hq] at h1
        rw [q2 hq]; exact h1
      | true =>
        rw [hq] at h1
        rw [← q1 (.inl hq), hq]
        have : (r.step c).st.quoted = true := quoted_ws (w := [c]) hq (by simpa using hc)
        rw [i3 this]
        exact h1
    · rintro ⟨d, hd, h1⟩; exact ⟨d, hd, h1⟩
    · intro hg
      refine ⟨fun hc hq => hg.1 hc ?_, i4 hg.2⟩
      cases hr : r.st.quoted with
      | true => rfl
      | false => rw [q2 hr] at hq; exact hq
  | hit s k kk he ih =>
    intro r q h ht hs
    rw [replaceAll_hit (solid_typeAttr T) _ he, List.nil_append]
    obtain ⟨m, e, h1, h2, h3⟩ := condense_hit hT he h ht hs
    rw [e] at ht hs ⊢
    obtain ⟨i1, i2, -, i4, -⟩ := ih _ _ h1 (tame_append ht) (typeSafe_append hs)
    refine ⟨i1, fun _ => i2 h2, fun hq => (by rw [h3] at hq; exact absurd hq (by decide)), fun hg => i4 ?_, ?_⟩
    rotate_left
    · intro hd
      exfalso
      obtain ⟨w, v, e', hw, -⟩ := typeAttr_hit hT he
      rw [← e, e'] at hd
      cases w with
      | nil => rw [show "type=\"".toList = 't' :: "ype=\"".toList by decide +kernel] at hd; simp at hd
      | cons c w =>
        have : c = '/' := by simpa using hd
        have := hw c (by simp)
        subst c
        exact absurd this (by decide +kernel)
    clear ih i1 i2 i4 h h1 ht hs e h3
    generalize k.rest = rest at *
    induction m generalizing r with
    | nil => exact hg
    | cons c m ihm => exact ihm _ hg.2

end Verif.Html
