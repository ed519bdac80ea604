import Verif.Proofs.Json
set_option linter.unusedSimpArgs false
/-!
# The values all whose texts are minified alike

A swallowed string leaves the scanner inside a string. Two texts of the value that differ only by a blank behind the
first such string therefore have different outputs.
-/
namespace Verif.Json
open Spec.Json

theorem isWs_nil : IsWs [] := by simp [IsWs]

theorem isWs_blank : IsWs [' '] := by simp [IsWs]

mutual
/-- A value that has a text has the compact one. -/
theorem value_of_compact : ∀ {v : JVal} {s : List Char}, Value v s → Value v (compact v)
  | _, _, .null => .null
  | _, _, .tru => .tru
  | _, _, .fls => .fls
  | _, _, .num h => .num h
  | _, _, .str h => .str h
  | _, _, .arrNil _ => .arrNil (w := []) isWs_nil
  | _, _, .arr h => .arr (elems_of_compact h)
  | _, _, .objNil _ => .objNil (w := []) isWs_nil
  | _, _, .obj h => .obj (members_of_compact h)
theorem text_of_compact : ∀ {v : JVal} {s : List Char}, Text v s → Text v (compact v)
  | _, _, .mk _ h _ => by
    have := Text.mk (w1 := []) (w2 := []) isWs_nil (value_of_compact h) isWs_nil
    simpa using this
theorem elems_of_compact : ∀ {vs : JVals} {s : List Char}, Elems vs s → Elems vs (compactElems vs)
  | _, _, .one h => .one (text_of_compact h)
  | _, _, .cons h hs => by
    rw [compactElems_cons _ _ (elems_ne_nil hs)]
    exact .cons (text_of_compact h) (elems_of_compact hs)
theorem members_of_compact : ∀ {ms : JMems} {s : List Char}, Members ms s → Members ms (compactMems ms)
  | _, _, .one _ hk _ h => by
    have := Members.one (w1 := []) (w2 := []) isWs_nil hk isWs_nil (text_of_compact h)
    simpa [compactMems] using this
  | _, _, .cons _ hk _ h hs => by
    rw [compactMems_cons _ _ _ (members_ne_nil hs)]
    have := Members.cons (w1 := []) (w2 := []) isWs_nil hk isWs_nil (text_of_compact h)
      (members_of_compact hs)
    simpa using this
end

theorem text_of_value {v : JVal} {s : List Char} (h : Value v s) : Text v s := by
  have := Text.mk (w1 := []) (w2 := []) isWs_nil h isWs_nil
  simpa using this

/-- Behind `a` the scanner believes to be inside a string, and what follows is nothing or a structural character. -/
structure Stuck (a r : List Char) : Prop where
  inside : ∀ nx, (scan {} a nx).2.isString = true
  same : ∀ n1 n2, scan {} a n1 = scan {} a n2
  next : r = [] ∨ ∃ c r', r = c :: r' ∧ c ∈ [',', ':', ']', '}']

theorem Stuck.append {a r : List Char} (h : Stuck a r) {t : List Char} {c : Char} {t' : List Char} (ht : t = c :: t')
    (hc : c ∈ [',', ':', ']', '}']) : Stuck a (r ++ t) := by
  refine ⟨h.inside, h.same, .inr ?_⟩
  rcases h.next with rfl | ⟨d, r', rfl, hd⟩
  · exact ⟨c, t', by simpa using ht, hc⟩
  · exact ⟨d, r' ++ t, by simp, hd⟩

/-- Text before which the scanner is outside strings again. -/
theorem Stuck.behind {a r : List Char} (h : Stuck a r) {p o : List Char} (hp : ∀ nx, scan {} p nx = (o, {})) :
    Stuck (p ++ a) r := by
  have e : ∀ nx, scan {} (p ++ a) nx = (o ++ (scan {} a nx).1, (scan {} a nx).2) := fun nx =>
    scan_append_of (hp _) rfl
  exact ⟨fun nx => by rw [e]; exact h.inside nx, fun n1 n2 => by rw [e, e, h.same n1 n2], h.next⟩

theorem stuck_quoted {b : List Char} (hb : Body b) (hs : Swallowed b) : Stuck (quoted b) [] := by
  have hc : 0 < cnt 0 b := (cnt_pos 0 (by omega) b).2 (.inl hs)
  refine ⟨fun nx => ?_, fun n1 n2 => by rw [scan_quoted hb, scan_quoted hb], .inl rfl⟩
  rw [scan_quoted hb, if_neg (by omega)]

mutual
theorem stuck_value {v : JVal} {s : List Char} (h : Value v s) (hg : ¬ AllStrings Good v) :
    ∃ a r, Text v (a ++ r) ∧ Text v (a ++ ' ' :: r) ∧ Stuck a r := by
  cases h with
  | null => simp [AllStrings] at hg
  | tru => simp [AllStrings] at hg
  | fls => simp [AllStrings] at hg
  | num _ => simp [AllStrings] at hg
  | @str b hb =>
    refine ⟨quoted b, [], by simpa using text_of_value (.str hb), ?_,
      stuck_quoted hb (by simpa [AllStrings] using hg)⟩
    have := Text.mk (w1 := []) (w2 := [' ']) isWs_nil (.str hb) isWs_blank
    simpa using this
  | arrNil _ => simp [AllStrings, AllStringsE] at hg
  | objNil _ => simp [AllStrings, AllStringsM] at hg
  | arr he =>
    obtain ⟨a, r, h1, h2, h3⟩ := stuck_elems he (by simpa [AllStrings] using hg)
    refine ⟨'[' :: a, r ++ [']'], by simpa using text_of_value (.arr h1), by simpa using text_of_value (.arr h2), ?_⟩
    exact (h3.append rfl (by simp)).behind (p := ['[']) (fun nx => scan_one nx (plain_punct (by simp)))
  | obj he =>
    obtain ⟨a, r, h1, h2, h3⟩ := stuck_members he (by simpa [AllStrings] using hg)
    refine ⟨'{' :: a, r ++ ['}'], by simpa using text_of_value (.obj h1), by simpa using text_of_value (.obj h2), ?_⟩
    exact (h3.append rfl (by simp)).behind (p := ['{']) (fun nx => scan_one nx (plain_punct (by simp)))
theorem stuck_text {v : JVal} {s : List Char} (h : Text v s) (hg : ¬ AllStrings Good v) :
    ∃ a r, Text v (a ++ r) ∧ Text v (a ++ ' ' :: r) ∧ Stuck a r := by
  cases h with
  | mk _ hv _ => exact stuck_value hv hg
theorem stuck_elems {vs : JVals} {s : List Char} (h : Elems vs s) (hg : ¬ AllStringsE Good vs) :
    ∃ a r, Elems vs (a ++ r) ∧ Elems vs (a ++ ' ' :: r) ∧ Stuck a r := by
  cases h with
  | one hv =>
    obtain ⟨a, r, h1, h2, h3⟩ := stuck_text hv (by simpa [AllStringsE] using hg)
    exact ⟨a, r, .one h1, .one h2, h3⟩
  | @cons v vs' s' t' hv he =>
    by_cases hv' : AllStrings Good v
    · obtain ⟨a, r, h1, h2, h3⟩ := stuck_elems he (by intro h; exact hg (by simp only [AllStringsE]; exact ⟨hv', h⟩))
      refine ⟨s' ++ ',' :: a, r, by simpa using Elems.cons hv h1, by simpa using Elems.cons hv h2, ?_⟩
      have : ∀ nx, scan {} (s' ++ [',']) nx = (compact (squeezed v) ++ [','], {}) := fun nx =>
        scan_append_of (scan_text hv hv' _) (scan_one nx (plain_punct (by simp)))
      simpa using h3.behind this
    · obtain ⟨a, r, h1, h2, h3⟩ := stuck_text hv hv'
      refine ⟨a, r ++ ',' :: t', ?_, ?_, h3.append rfl (by simp)⟩
      · simpa using Elems.cons h1 he
      · simpa using Elems.cons h2 he
theorem stuck_members {ms : JMems} {s : List Char} (h : Members ms s) (hg : ¬ AllStringsM Good ms) :
    ∃ a r, Members ms (a ++ r) ∧ Members ms (a ++ ' ' :: r) ∧ Stuck a r := by
  cases h with
  | @one k v w1 w2 s' h1 hk h2 hv =>
    by_cases hk' : Good k
    · have hv' : ¬ AllStrings Good v := fun h => hg (by simp only [AllStringsM]; exact ⟨hk', h, trivial⟩)
      obtain ⟨a, r, e1, e2, e3⟩ := stuck_text hv hv'
      have : ∀ nx, scan {} (quoted k ++ [':']) nx = (('"' :: (k.filter visible ++ ['"'])) ++ [':'], {}) := fun nx =>
        scan_append_of (scan_quoted_good hk hk' _) (scan_one nx (plain_punct (by simp)))
      refine ⟨(quoted k ++ [':']) ++ a, r, ?_, ?_, e3.behind this⟩
      · simpa using Members.one (w1 := []) (w2 := []) isWs_nil hk isWs_nil e1
      · simpa using Members.one (w1 := []) (w2 := []) isWs_nil hk isWs_nil e2
    · have hs : Swallowed k := by simpa using hk'
      refine ⟨quoted k, ':' :: s', ?_, ?_, ?_⟩
      · simpa using Members.one (w1 := []) (w2 := []) isWs_nil hk isWs_nil hv
      · simpa using Members.one (w1 := []) (w2 := [' ']) isWs_nil hk isWs_blank hv
      · simpa using (stuck_quoted hk hs).append (t := ':' :: s') rfl (by simp)
  | @cons k v w1 w2 s' ms' t' h1 hk h2 hv he =>
    by_cases hk' : Good k
    · have sk : ∀ nx, scan {} (quoted k ++ [':']) nx = (('"' :: (k.filter visible ++ ['"'])) ++ [':'], {}) := fun nx =>
        scan_append_of (scan_quoted_good hk hk' _) (scan_one nx (plain_punct (by simp)))
      by_cases hv' : AllStrings Good v
      · have he' : ¬ AllStringsM Good ms' := fun h => hg (by simp only [AllStringsM]; exact ⟨hk', hv', h⟩)
        obtain ⟨a, r, e1, e2, e3⟩ := stuck_members he he'
        have sv : ∀ nx, scan {} (s' ++ [',']) nx = (compact (squeezed v) ++ [','], {}) := fun nx =>
          scan_append_of (scan_text hv hv' _) (scan_one nx (plain_punct (by simp)))
        refine ⟨(quoted k ++ [':']) ++ ((s' ++ [',']) ++ a), r, ?_, ?_, (e3.behind sv).behind sk⟩
        · simpa using Members.cons (w1 := []) (w2 := []) isWs_nil hk isWs_nil hv e1
        · simpa using Members.cons (w1 := []) (w2 := []) isWs_nil hk isWs_nil hv e2
      · obtain ⟨a, r, e1, e2, e3⟩ := stuck_text hv hv'
        refine ⟨(quoted k ++ [':']) ++ a, r ++ ',' :: t', ?_, ?_, (e3.append rfl (by simp)).behind sk⟩
        · simpa using Members.cons (w1 := []) (w2 := []) isWs_nil hk isWs_nil e1 he
        · simpa using Members.cons (w1 := []) (w2 := []) isWs_nil hk isWs_nil e2 he
    · have hs : Swallowed k := by simpa using hk'
      refine ⟨quoted k, ':' :: (s' ++ ',' :: t'), ?_, ?_, ?_⟩
      · simpa using Members.cons (w1 := []) (w2 := []) isWs_nil hk isWs_nil hv he
      · simpa using Members.cons (w1 := []) (w2 := [' ']) isWs_nil hk isWs_blank hv he
      · simpa using (stuck_quoted hk hs).append (t := ':' :: (s' ++ ',' :: t')) rfl (by simp)
end

/-- The two texts have different outputs. -/
theorem Stuck.differ {a r : List Char} (h : Stuck a r) : minifyStr (a ++ r) ≠ minifyStr (a ++ ' ' :: r) := by
  rw [minifyStr_eq, minifyStr_eq, scan_append, scan_append,
    h.same (r.head?.or none) ((' ' :: r).head?.or none)]
  generalize hm : (scan {} a ((' ' :: r).head?.or none)) = x
  have hi : x.2.isString = true := by rw [← hm]; exact h.inside _
  intro e
  have e := List.append_cancel_left e
  rw [show (scan x.2 (' ' :: r) none).1 = ' ' :: (scan (keepElement x.2 ' ' (r.head?.or none)).2 r none).1 by
    simp only [scan]; rw [if_pos (keepElement_in_string hi (by decide) _)]] at e
  rcases h.next with rfl | ⟨c, r', rfl, hc⟩
  · simp [scan] at e
  · simp only [scan] at e
    have hp := plain_punct (c := c) (by simp only [List.mem_cons, List.not_mem_nil, or_false] at hc ⊢; grind)
    rw [if_pos (keepElement_in_string hi hp.2.1 _)] at e
    simp only [List.cons.injEq] at e
    rw [e.1] at hp
    exact absurd hp.2.2 (by decide)

/-! ## U+007F -/

mutual
theorem squeezed_length (v : JVal) : (compact (squeezed v)).length ≤ (compact v).length ∧
    ((compact (squeezed v)).length = (compact v).length → AllStrings (fun b => ∀ c ∈ b, visible c = true) v) := by
  cases v with
  | str b =>
    have := List.length_filter_le visible b
    refine ⟨by simp [squeezed, compact, quoted]; omega, fun h => ?_⟩
    simp only [squeezed, compact, quoted, List.length_cons, List.length_append] at h
    simp only [AllStrings]
    exact List.length_filter_eq_length_iff.1 (by simpa using h)
  | arr vs =>
    have := squeezedE_length vs
    refine ⟨by simp [squeezed, compact]; omega, fun h => ?_⟩
    simp only [AllStrings]
    exact this.2 (by simpa [squeezed, compact] using h)
  | obj ms =>
    have := squeezedM_length ms
    refine ⟨by simp [squeezed, compact]; omega, fun h => ?_⟩
    simp only [AllStrings]
    exact this.2 (by simpa [squeezed, compact] using h)
  | _ => simp [squeezed, AllStrings]
theorem squeezedE_length (vs : JVals) : (compactElems (squeezedE vs)).length ≤ (compactElems vs).length ∧
    ((compactElems (squeezedE vs)).length = (compactElems vs).length →
      AllStringsE (fun b => ∀ c ∈ b, visible c = true) vs) := by
  cases vs with
  | nil => simp [squeezedE, AllStringsE]
  | cons v vs =>
    have h1 := squeezed_length v
    have h2 := squeezedE_length vs
    by_cases hn : vs = .nil
    · subst hn
      simp only [squeezedE, compactElems, AllStringsE, and_true]
      exact h1
    · rw [squeezedE, compactElems_cons _ _ hn, compactElems_cons _ _ (squeezedE_ne hn)]
      simp only [List.length_append, List.length_cons, AllStringsE]
      exact ⟨by omega, fun h => ⟨h1.2 (by omega), h2.2 (by omega)⟩⟩
theorem squeezedM_length (ms : JMems) : (compactMems (squeezedM ms)).length ≤ (compactMems ms).length ∧
    ((compactMems (squeezedM ms)).length = (compactMems ms).length →
      AllStringsM (fun b => ∀ c ∈ b, visible c = true) ms) := by
  cases ms with
  | nil => simp [squeezedM, AllStringsM]
  | cons k v ms =>
    have h0 := List.length_filter_le visible k
    have h1 := squeezed_length v
    have h2 := squeezedM_length ms
    by_cases hn : ms = .nil
    · subst hn
      simp only [squeezedM, compactMems, AllStringsM, and_true, quoted, List.length_cons, List.length_append]
      exact ⟨by omega, fun h => ⟨List.length_filter_eq_length_iff.1 (by omega), h1.2 (by omega)⟩⟩
    · rw [squeezedM, compactMems_cons _ _ _ hn, compactMems_cons _ _ _ (squeezedM_ne hn)]
      simp only [List.length_append, List.length_cons, AllStringsM, quoted]
      exact ⟨by omega, fun h => ⟨List.length_filter_eq_length_iff.1 (by omega), h1.2 (by omega), h2.2 (by omega)⟩⟩
end

end Verif.Json
