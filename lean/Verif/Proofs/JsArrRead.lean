import Verif.Proofs.JsArr
import Verif.Proofs.JsRelex
/-!
# Reading arrays: `get_array` and the elements of the arrays that are written
-/
set_option linter.unusedSimpArgs false
namespace Verif.Js
open Spec.JsAgg

theorem blank_eq (t : Token) : blank t = t.isGap := by
  unfold Token.isGap
  cases t with
  | char c => cases c <;> rfl
  | _ => rfl

/-! ## `get_array` -/

/-- The positions of the tokens that are not blank. -/
def solidAt : Nat → List Token → List Nat
  | _, [] => []
  | i, t :: ts => if blank t then solidAt (i + 1) ts else i :: solidAt (i + 1) ts

theorem solidAt_append : ∀ (a b : List Token) (i : Nat), solidAt i (a ++ b) = solidAt i a ++ solidAt (i + a.length) b := by
  intro a
  induction a with
  | nil => intro b i; simp [solidAt]
  | cons t a ih =>
    intro b i
    rw [List.cons_append, solidAt, solidAt, ih]
    have : i + 1 + a.length = i + (t :: a).length := by simp; omega
    rw [this]
    split <;> simp

theorem solidAt_nil {l : List Token} : ∀ {i : Nat}, solidAt i l = [] ↔ l.filter (fun t => !blank t) = [] := by
  induction l with
  | nil => intro i; simp [solidAt]
  | cons t l ih =>
    intro i
    rw [solidAt, List.filter_cons]
    cases blank t with
    | true => simpa using ih
    | false => simp

theorem mem_solidAt {l : List Token} : ∀ {i p : Nat}, p ∈ solidAt i l ↔ i ≤ p ∧ ∃ t, l[p - i]? = some t ∧ blank t = false := by
  induction l with
  | nil => intro i p; simp [solidAt]
  | cons t l ih =>
    intro i p
    have key : p ∈ solidAt (i + 1) l ↔ i < p ∧ ∃ u, (t :: l)[p - i]? = some u ∧ blank u = false := by
      rw [ih]
      constructor
      · rintro ⟨h1, u, h2, h3⟩
        refine ⟨h1, u, ?_, h3⟩
        rw [show p - i = (p - (i + 1)) + 1 by omega, List.getElem?_cons_succ]; exact h2
      · rintro ⟨h1, u, h2, h3⟩
        refine ⟨h1, u, ?_, h3⟩
        rw [show p - i = (p - (i + 1)) + 1 by omega, List.getElem?_cons_succ] at h2; exact h2
    rw [solidAt]
    cases hb : blank t with
    | true =>
      simp only [if_true]
      rw [key]
      constructor
      · rintro ⟨h1, h2⟩; exact ⟨by omega, h2⟩
      · rintro ⟨h1, u, h2, h3⟩
        refine ⟨Nat.lt_of_le_of_ne h1 ?_, u, h2, h3⟩
        rintro rfl
        simp at h2; subst h2
        rw [hb] at h3; cases h3
    | false =>
      simp only [Bool.false_eq_true, if_false, List.mem_cons]
      rw [key]
      constructor
      · rintro (rfl | ⟨h1, h2⟩)
        · exact ⟨Nat.le_refl _, t, by simp, hb⟩
        · exact ⟨by omega, h2⟩
      · rintro ⟨h1, u, h2, h3⟩
        rcases Nat.lt_or_eq_of_le h1 with h | h
        · exact .inr ⟨h, u, h2, h3⟩
        · exact .inl h.symm

/-- What has been read, by phase. -/
def PhaseOk (name : List Char) : Phase → List Token → List Nat → Prop
  | .start, _, ret => ret = []
  | .var, done, ret => ret = [] ∧ ∃ p k g, (k = .keyword .kVar ∨ k = .keyword .kLet) ∧ (∀ t ∈ g, blank t = true) ∧ done = p ++ k :: g
  | .equal, done, ret => ret = [] ∧ ∃ p k g1 g2, (k = .keyword .kVar ∨ k = .keyword .kLet) ∧ (∀ t ∈ g1 ++ g2, blank t = true) ∧
      done = p ++ k :: (g1 ++ .other name :: g2)
  | .array, done, ret => ret = [] ∧ ∃ p k g1 g2 g3, (k = .keyword .kVar ∨ k = .keyword .kLet) ∧ (∀ t ∈ g1 ++ g2 ++ g3, blank t = true) ∧
      done = p ++ k :: (g1 ++ .other name :: (g2 ++ .op .equal :: g3))
  | .values, done, ret => ∃ pre arr, done = pre ++ .char .openBracket :: arr ∧
      (∃ p k g1 g2 g3, (k = .keyword .kVar ∨ k = .keyword .kLet) ∧ (∀ t ∈ g1 ++ g2 ++ g3, blank t = true) ∧
      pre = p ++ k :: (g1 ++ .other name :: (g2 ++ .op .equal :: g3))) ∧
      .char .closeBracket ∉ arr ∧ ret.reverse = solidAt (pre.length + 1) arr

theorem arrayScan_sound (name : List Char) : ∀ (us : List Token) (ph : Phase) (done : List Token) (ret vs : List Nat) (eb : Nat),
    PhaseOk name ph done ret → arrayScan name ph done.length ret us = some (vs, eb) →
    ∃ pre arr post, done ++ us = pre ++ .char .openBracket :: (arr ++ .char .closeBracket :: post) ∧
      (∃ p k g1 g2 g3, (k = .keyword .kVar ∨ k = .keyword .kLet) ∧ (∀ t ∈ g1 ++ g2 ++ g3, blank t = true) ∧
      pre = p ++ k :: (g1 ++ .other name :: (g2 ++ .op .equal :: g3))) ∧ .char .closeBracket ∉ arr ∧
      eb = pre.length + 1 + arr.length ∧ vs = solidAt (pre.length + 1) arr := by
  intro us
  induction us with
  | nil => intro ph done ret vs eb _ h; cases ph <;> cases h
  | cons t us ih =>
    intro ph done ret vs eb hp h
    have next : ∀ ph' ret', PhaseOk name ph' (done ++ [t]) ret' → arrayScan name ph' (done.length + 1) ret' us = some (vs, eb) →
        ∃ pre arr post, done ++ t :: us = pre ++ .char .openBracket :: (arr ++ .char .closeBracket :: post) ∧
        (∃ p k g1 g2 g3, (k = .keyword .kVar ∨ k = .keyword .kLet) ∧ (∀ t ∈ g1 ++ g2 ++ g3, blank t = true) ∧
        pre = p ++ k :: (g1 ++ .other name :: (g2 ++ .op .equal :: g3))) ∧ .char .closeBracket ∉ arr ∧
        eb = pre.length + 1 + arr.length ∧ vs = solidAt (pre.length + 1) arr := by
      intro ph' ret' hp' h'
      have := ih ph' (done ++ [t]) ret' vs eb hp' (by simpa using h')
      rwa [List.append_assoc] at this
    have gapSnoc : ∀ g : List Token, (∀ u ∈ g, blank u = true) → t.isGap = true → ∀ u ∈ g ++ [t], blank u = true := by
      intro g hg ht u hu
      rcases List.mem_append.1 hu with h | h
      · exact hg u h
      · simp at h; subst h; rw [blank_eq]; exact ht
    cases ph with
    | start =>
      rw [arrayScan.eq_def] at h
      simp only at h
      have hp : ret = [] := hp
      split at h
      · exact next .var ret ⟨hp, done, _, [], .inr rfl, by simp, rfl⟩ h
      · exact next .var ret ⟨hp, done, _, [], .inl rfl, by simp, rfl⟩ h
      · exact next .start _ hp h
    | var =>
      obtain ⟨hr, p, k, g, hk, hg, hd⟩ := hp
      rw [arrayScan.eq_def] at h
      simp only at h
      split at h
      · rename_i s
        by_cases hs : s = name
        · rw [if_pos hs] at h
          refine next .equal _ ⟨hr, p, k, g, [], hk, by simpa using hg, ?_⟩ h
          rw [hd, hs]; simp
        · rw [if_neg hs] at h; exact next .start _ hr h
      · by_cases hs : t.isGap = true
        · rw [if_pos hs] at h
          refine next .var _ ⟨hr, p, k, g ++ [t], hk, gapSnoc g hg hs, ?_⟩ h
          rw [hd]; simp
        · rw [if_neg hs] at h; exact next .start _ hr h
    | equal =>
      obtain ⟨hr, p, k, g1, g2, hk, hg, hd⟩ := hp
      rw [arrayScan.eq_def] at h
      simp only at h
      split at h
      · refine next .array _ ⟨hr, p, k, g1, g2, [], hk, by simpa using hg, ?_⟩ h
        rw [hd]; simp
      · by_cases hs : t.isGap = true
        · rw [if_pos hs] at h
          refine next .equal _ ⟨hr, p, k, g1, g2 ++ [t], hk, ?_, ?_⟩ h
          · rw [← List.append_assoc]; exact gapSnoc _ hg hs
          · rw [hd]; simp
        · rw [if_neg hs] at h; exact next .start _ hr h
    | array =>
      obtain ⟨hr, p, k, g1, g2, g3, hk, hg, hd⟩ := hp
      rw [arrayScan.eq_def] at h
      simp only at h
      split at h
      · refine next .values _ ⟨done, [], rfl, ⟨p, k, g1, g2, g3, hk, hg, hd⟩, by simp, by rw [hr]; rfl⟩ h
      · by_cases hs : t.isGap = true
        · rw [if_pos hs] at h
          refine next .array _ ⟨hr, p, k, g1, g2, g3 ++ [t], hk, ?_, ?_⟩ h
          · rw [← List.append_assoc]; exact gapSnoc _ hg hs
          · rw [hd]; simp
        · rw [if_neg hs] at h; exact next .start _ hr h
    | values =>
      obtain ⟨pre, arr, hd, hpre, hb, hr⟩ := hp
      rw [arrayScan.eq_def] at h
      simp only at h
      split at h
      · cases h
        refine ⟨pre, arr, us, by rw [hd]; simp, hpre, hb, ?_, hr⟩
        rw [hd]; simp; omega
      · rename_i hne
        refine next .values _ ⟨pre, arr ++ [t], by rw [hd]; simp, hpre, ?_, ?_⟩ h
        · rw [List.mem_append, not_or]
          refine ⟨hb, ?_⟩
          simp only [List.mem_singleton]
          intro he
          exact hne he.symm
        · rw [solidAt_append, ← hr]
          have hl : done.length = pre.length + 1 + arr.length := by rw [hd]; simp; omega
          by_cases hg : t.isGap = true
          · rw [if_pos hg]
            have : blank t = true := by rw [blank_eq]; exact hg
            simp [solidAt, this]
          · rw [if_neg hg]
            have : blank t = false := by rw [blank_eq]; exact Bool.eq_false_iff.2 hg
            simp [solidAt, this, hl]

theorem getArray_sound {ts : List Token} {name : List Char} {vs : List Nat} {eb : Nat} (h : getArray ts name = some (vs, eb)) :
    ∃ pre arr post, ts = pre ++ .char .openBracket :: (arr ++ .char .closeBracket :: post) ∧
      (∃ p k g1 g2 g3, (k = .keyword .kVar ∨ k = .keyword .kLet) ∧ (∀ t ∈ g1 ++ g2 ++ g3, blank t = true) ∧
      pre = p ++ k :: (g1 ++ .other name :: (g2 ++ .op .equal :: g3))) ∧ .char .closeBracket ∉ arr ∧
      eb = pre.length + 1 + arr.length ∧ vs = solidAt (pre.length + 1) arr :=
  arrayScan_sound name ts .start [] [] vs eb rfl h

theorem lits_of_solid (pre post : List Token) : ∀ (arr done : List Token),
    (solidAt (pre.length + done.length) arr).filterMap (litAt (pre ++ (done ++ (arr ++ post)))) =
      arr.filterMap fun t => t.getStr.map content := by
  intro arr
  induction arr with
  | nil => intro done; simp [solidAt]
  | cons t arr ih =>
    intro done
    have := ih (done ++ [t])
    rw [show pre.length + (done ++ [t]).length = pre.length + done.length + 1 by simp; omega,
      show pre ++ (done ++ [t] ++ (arr ++ post)) = pre ++ (done ++ (t :: arr ++ post)) by simp] at this
    rw [solidAt, List.filterMap_cons]
    have hl : litAt (pre ++ (done ++ (t :: arr ++ post))) (pre.length + done.length) = t.getStr.map content := by
      unfold litAt
      rw [List.getElem?_append_right (by omega), show pre.length + done.length - pre.length = done.length by omega,
        List.getElem?_append_right (by omega)]
      simp
    cases hb : blank t with
    | true =>
      simp only [if_true]
      rw [this]
      have : t.getStr = none := by cases t <;> first | rfl | cases hb
      rw [this]
      rfl
    | false =>
      simp only [Bool.false_eq_true, if_false, List.filterMap_cons]
      rw [this, hl]

/-! ## Token lists that differ in literals only -/

/-- Literals were replaced. -/
inductive Alike (name : List Char) : List Token → List Token → Prop where
  | nil : Alike name [] []
  | same {t l l'} : Alike name l l' → Alike name (t :: l) (t :: l')
  | lit {s k l l'} : Alike name l l' → Alike name (.str s :: l) (.createdVar (arrayRef name k) :: l')

theorem alike_of_getElem (name : List Char) : ∀ (l l' : List Token), l'.length = l.length →
    (∀ (i : Nat) t, l[i]? = some t → l'[i]? = some t ∨ ∃ s k, t = .str s ∧ l'[i]? = some (.createdVar (arrayRef name k))) →
    Alike name l l' := by
  intro l
  induction l with
  | nil => intro l' hl _; cases l' with | nil => exact .nil | cons => cases hl
  | cons t l ih =>
    intro l' hl h
    cases l' with
    | nil => cases hl
    | cons u l' =>
      have ht := ih l' (by simpa using hl) fun i x hx => by
        simpa using h (i + 1) x (by simpa using hx)
      rcases h 0 t rfl with h0 | ⟨s, k, rfl, h0⟩
      · simp at h0; subst h0; exact .same ht
      · simp at h0; subst h0; exact .lit ht

theorem Alike.append_left {name : List Char} : ∀ {a b l' : List Token}, Alike name (a ++ b) l' →
    ∃ a' b', l' = a' ++ b' ∧ Alike name a a' ∧ Alike name b b' ∧ a'.length = a.length := by
  intro a
  induction a with
  | nil => intro b l' h; exact ⟨[], l', rfl, .nil, h, rfl⟩
  | cons t a ih =>
    intro b l' h
    cases h with
    | same h =>
      obtain ⟨a', b', rfl, h1, h2, h3⟩ := ih h
      exact ⟨_ :: a', b', rfl, .same h1, h2, by simp [h3]⟩
    | lit h =>
      obtain ⟨a', b', rfl, h1, h2, h3⟩ := ih h
      exact ⟨_ :: a', b', rfl, .lit h1, h2, by simp [h3]⟩

theorem Alike.cons_of {name : List Char} {t : Token} {l l' : List Token} (h : Alike name (t :: l) l') (ht : t.getStr = none) :
    ∃ r, l' = t :: r ∧ Alike name l r := by
  cases h with
  | same h => exact ⟨_, rfl, h⟩
  | lit h => cases ht

theorem Alike.length {name : List Char} {l l' : List Token} (h : Alike name l l') : l'.length = l.length := by
  induction h with
  | nil => rfl
  | same _ ih => simp [ih]
  | lit _ ih => simp [ih]

theorem Alike.blanks {name : List Char} : ∀ {g g' : List Token}, Alike name g g' → (∀ t ∈ g, blank t = true) → g' = g := by
  intro g g' h
  induction h with
  | nil => intro _; rfl
  | same _ ih => intro hg; rw [ih fun t ht => hg t (List.mem_cons_of_mem _ ht)]
  | lit _ ih => intro hg; have := hg _ List.mem_cons_self; cases this

theorem Alike.find {name : List Char} {l l' : List Token} (h : Alike name l l') :
    (l.find? (fun t => !blank t) = some (.op .equal)) ↔ (l'.find? (fun t => !blank t) = some (.op .equal)) := by
  induction h with
  | nil => exact Iff.rfl
  | same _ ih => simp only [List.find?_cons]; split <;> simp [ih]
  | lit _ ih => simp [List.find?_cons, blank]

theorem Alike.sets {name : List Char} (n : List Char) {l l' : List Token} (h : Alike name l l') : Spec.JsAgg.sets n l' = Spec.JsAgg.sets n l := by
  induction h with
  | nil => rfl
  | @same t l l' h ih =>
    rw [Spec.JsAgg.sets, Spec.JsAgg.sets, ih]
    congr 1
    have := h.find
    by_cases h1 : l.find? (fun t => !blank t) = some (.op .equal)
    · simp [h1, this.1 h1]
    · simp [h1, mt this.2 h1]
  | lit h ih =>
    rw [Spec.JsAgg.sets, Spec.JsAgg.sets, ih]
    simp

theorem Alike.announces {name : List Char} {pre pre' : List Token} (h : Alike name pre pre')
    (ha : ∃ p k g1 g2 g3, (k = .keyword .kVar ∨ k = .keyword .kLet) ∧ (∀ t ∈ g1 ++ g2 ++ g3, blank t = true) ∧
      pre = p ++ k :: (g1 ++ .other name :: (g2 ++ .op .equal :: g3))) : Announces name pre' := by
  obtain ⟨p, k, g1, g2, g3, hk, hg, rfl⟩ := ha
  simp only [List.mem_append] at hg
  obtain ⟨p', r1, rfl, -, e1, -⟩ := h.append_left
  obtain ⟨r2, rfl, e2⟩ := e1.cons_of (by rcases hk with rfl | rfl <;> rfl)
  obtain ⟨g1', r3, rfl, h1, e3, -⟩ := e2.append_left
  obtain ⟨r4, rfl, e4⟩ := e3.cons_of rfl
  obtain ⟨g2', r5, rfl, h2, e5, -⟩ := e4.append_left
  obtain ⟨r6, rfl, e6⟩ := e5.cons_of rfl
  rw [h1.blanks fun t ht => hg t (.inl (.inl ht)), h2.blanks fun t ht => hg t (.inl (.inr ht)), e6.blanks fun t ht => hg t (.inr ht)]
  exact .inl ⟨p', k, g1, g2, g3, hk, by simp only [List.mem_append]; exact hg, rfl⟩

/-! ## Elements -/

theorem pieces_commas : ∀ l : List Token, l ≠ [] → .char .comma ∉ l → pieces (commas l) = l.map fun t => [t]
  | [], h, _ => absurd rfl h
  | [t], _, h => by
    have : t ≠ .char .comma := fun e => h (by rw [e]; simp)
    simp [commas, pieces, this]
  | t :: u :: l, _, h => by
    have ht : t ≠ .char .comma := fun e => h (by rw [e]; simp)
    have ih := pieces_commas (u :: l) (by simp) fun hm => h (List.mem_cons_of_mem _ hm)
    rw [commas, pieces, if_neg ht, pieces, if_pos rfl, ih]
    rfl

theorem elements_commas {ts l : List Token} (hts : ts.filter (fun t => !blank t) = commas l) (hc : .char .comma ∉ l) :
    elements ts = l.map tokenValue := by
  unfold elements
  rw [hts]
  cases l with
  | nil => rfl
  | cons t l =>
    rw [pieces_commas _ (by simp) hc]
    have : ((t :: l).map fun t => [t]).getLast? ≠ some [] := by
      rw [List.getLast?_map]
      cases (t :: l).getLast? <;> simp
    simp only
    rw [if_neg this]
    simp [Function.comp_def]

theorem entries_commas : ∀ N : List (List Char), entries N = commas (N.map entry)
  | [] => rfl
  | [c] => rfl
  | c :: d :: l => by rw [entries, entries_commas (d :: l)]; rfl

theorem commas_append : ∀ (l m : List Token), l ≠ [] → commas l ++ m.flatMap (fun t => [.char .comma, t]) = commas (l ++ m)
  | [], _, h => absurd rfl h
  | [t], m, _ => by
    induction m generalizing t with
    | nil => rfl
    | cons u m ih =>
      have := ih u (by simp)
      simp only [commas, List.cons_append, List.nil_append, List.flatMap_cons] at this ⊢
      rw [this]
  | t :: u :: l, m, _ => by
    have := commas_append (u :: l) m (by simp)
    simp only [commas, List.cons_append] at this ⊢
    rw [this]

theorem filter_commas {l : List Token} (h : ∀ t ∈ l, blank t = false) : (commas l).filter (fun t => !blank t) = commas l := by
  rw [List.filter_eq_self]
  have : ∀ l : List Token, (∀ t ∈ l, blank t = false) → ∀ t ∈ commas l, (!blank t) = true := by
    intro l
    induction l with
    | nil => intro _ t ht; cases ht
    | cons a l ih =>
      intro h t ht
      cases l with
      | nil => simp [commas] at ht; subst ht; simp [h _ List.mem_cons_self]
      | cons b l =>
        rw [commas] at ht
        rcases List.mem_cons.1 ht with rfl | ht
        · simp [h _ List.mem_cons_self]
        · rcases List.mem_cons.1 ht with rfl | ht
          · rfl
          · exact ih (fun t ht => h t (List.mem_cons_of_mem _ ht)) t ht
  exact this l h

theorem entriesAfter_eq (N : List (List Char)) : entriesAfter N = (N.map entry).flatMap fun t => [.char .comma, t] := by
  simp [entriesAfter, List.flatMap_map]

theorem entry_mem {N : List (List Char)} : ∀ t ∈ N.map entry, blank t = false ∧ t ≠ .char .comma := by
  intro t ht
  obtain ⟨c, -, rfl⟩ := List.mem_map.1 ht
  exact ⟨rfl, by simp [entry]⟩

theorem elements_first {arr : List Token} (h : arr.filter (fun t => !blank t) = []) (N : List (List Char)) :
    elements (arr ++ entries N) = N.map fun c => tokenValue (entry c) := by
  rw [elements_commas (l := N.map entry)]
  · simp [Function.comp_def]
  · rw [List.filter_append, h, entries_commas, filter_commas fun t ht => (entry_mem t ht).1]; rfl
  · intro hm; exact (entry_mem _ hm).2 rfl

theorem elements_more {arr l : List Token} (h : arr.filter (fun t => !blank t) = commas l) (hl : l ≠ []) (hc : .char .comma ∉ l)
    (N : List (List Char)) : elements (arr ++ entriesAfter N) = l.map tokenValue ++ N.map fun c => tokenValue (entry c) := by
  rw [elements_commas (l := l ++ N.map entry)]
  · simp [Function.comp_def]
  · rw [List.filter_append, h, entriesAfter_eq]
    have : ((N.map entry).flatMap fun t => [Token.char .comma, t]).filter (fun t => !blank t) =
        (N.map entry).flatMap fun t => [Token.char .comma, t] := by
      rw [List.filter_eq_self]
      intro t ht
      obtain ⟨u, hu, hm⟩ := List.mem_flatMap.1 ht
      simp only [List.mem_cons, List.not_mem_nil, or_false] at hm
      rcases hm with rfl | rfl
      · rfl
      · simp [(entry_mem _ hu).1]
    rw [this, commas_append _ _ hl]
  · intro hm
    rcases List.mem_append.1 hm with hm | hm
    · exact hc hm
    · exact (entry_mem _ hm).2 rfl

theorem mem_commas {t : Token} : ∀ {l : List Token}, t ∈ l → t ∈ commas l
  | [], h => h
  | [_], h => h
  | a :: b :: l, h => by
    rw [commas]
    rcases List.mem_cons.1 h with rfl | h
    · exact List.mem_cons_self
    · exact List.mem_cons_of_mem _ (List.mem_cons_of_mem _ (mem_commas h))

theorem of_mem_commas {t : Token} : ∀ {l : List Token}, t ∈ commas l → t ∈ l ∨ t = .char .comma
  | [], h => .inl h
  | [_], h => .inl h
  | a :: b :: l, h => by
    rw [commas] at h
    rcases List.mem_cons.1 h with rfl | h
    · exact .inl List.mem_cons_self
    · rcases List.mem_cons.1 h with rfl | h
      · exact .inr rfl
      · rcases of_mem_commas h with h | h
        · exact .inl (List.mem_cons_of_mem _ h)
        · exact .inr h

theorem mem_commas_entry' {t : Token} {N : List (List Char)} (h : t ∈ commas (N.map entry)) : t = .char .comma ∨ ∃ c, t = .createdVar c := by
  rcases of_mem_commas h with h | h
  · obtain ⟨c, -, rfl⟩ := List.mem_map.1 h
    exact .inr ⟨_, rfl⟩
  · exact .inl h

theorem mem_commas_entry {t : Token} {N : List (List Char)} (h : t ∈ commas (N.map entry)) : (∃ c, t = .char c) ∨ ∃ c, t = .createdVar c := by
  rcases mem_commas_entry' h with h | h
  · exact .inl ⟨_, h⟩
  · exact .inr h

theorem strs_commas : ∀ l : List (List Char), (commas (l.map Token.str)).filterMap (fun t => t.getStr.map content) = l.map content
  | [] => rfl
  | [_] => rfl
  | a :: b :: l => by
    have := strs_commas (b :: l)
    simp only [List.map_cons, commas, List.filterMap_cons, Token.getStr, Option.map_some, Option.map_none] at this ⊢
    rw [this]

/-! ## Assignments -/

theorem sets_append (name : List Char) (a : List Token) {t : Token} (b : List Token) (ht : blank t = false) (he : t ≠ .op .equal) :
    sets name (a ++ t :: b) = sets name a + sets name (t :: b) := by
  induction a with
  | nil => simp [sets]
  | cons u a ih =>
    rw [List.cons_append, sets, ih]
    have : ((a ++ t :: b).find? (fun t => !blank t) = some (.op .equal)) ↔ a.find? (fun t => !blank t) = some (.op .equal) := by
      clear ih
      induction a with
      | nil => simp [List.find?_cons, ht, he]
      | cons v a ih =>
        rw [List.cons_append, List.find?_cons, List.find?_cons]
        split
        · exact Iff.rfl
        · exact ih
    simp only [this]
    rw [show sets name (u :: a) = _ from sets.eq_2 name u a]
    omega

theorem sets_zero {name : List Char} : ∀ {l : List Token}, (∀ t ∈ l, t ≠ .other name ∧ ∀ s, t ≠ .createdVarDecl s) → sets name l = 0 := by
  intro l
  induction l with
  | nil => intro _; rfl
  | cons t l ih =>
    intro h
    rw [sets, ih fun u hu => h u (List.mem_cons_of_mem _ hu), if_neg]
    rintro (⟨h1, -⟩ | h1)
    · exact (h t List.mem_cons_self).1 h1
    · exact (h t List.mem_cons_self).2 _ h1

theorem sets_suffix (name : List Char) (a b : List Token) : sets name b ≤ sets name (a ++ b) := by
  induction a with
  | nil => exact Nat.le_refl _
  | cons t a ih => rw [List.cons_append, sets]; omega

theorem sets_announces {name : List Char} {pre : List Token} (rest : List Token)
    (ha : ∃ p k g1 g2 g3, (k = .keyword .kVar ∨ k = .keyword .kLet) ∧ (∀ t ∈ g1 ++ g2 ++ g3, blank t = true) ∧
      pre = p ++ k :: (g1 ++ .other name :: (g2 ++ .op .equal :: g3))) : 1 ≤ sets name (pre ++ rest) := by
  obtain ⟨p, k, g1, g2, g3, -, hg, rfl⟩ := ha
  have : p ++ k :: (g1 ++ .other name :: (g2 ++ .op .equal :: g3)) ++ rest =
      (p ++ k :: g1) ++ (.other name :: (g2 ++ .op .equal :: (g3 ++ rest))) := by simp
  rw [this]
  refine Nat.le_trans ?_ (sets_suffix ..)
  rw [sets, if_pos]
  · omega
  · refine .inl ⟨rfl, ?_⟩
    have hg2 : ∀ t ∈ g2, blank t = true := fun t ht => hg t (by simp [ht])
    clear this hg
    induction g2 with
    | nil => rfl
    | cons t g2 ih =>
      rw [List.cons_append, List.find?_cons, hg2 t List.mem_cons_self]
      simp only [Bool.not_true]
      exact ih fun t ht => hg2 t (List.mem_cons_of_mem _ ht)

/-! ## Values -/

theorem plainValue_content {s v : List Char} (h : plainValue s = some v) : v = content s := by
  cases s with
  | nil => cases h
  | cons q b =>
    rw [plainValue] at h
    split at h
    · cases h; rfl
    · cases h

theorem natDisplay_digits (n : Nat) : natDisplay n ≠ [] ∧ (∀ c ∈ natDisplay n, Spec.Js.isDigit c = true) ∧ Spec.Js.value (natDisplay n) = n := by
  have hd : ∀ k : Fin 10, Spec.Js.isDigit (Char.ofNat (48 + k.1)) = true ∧ Spec.Js.digit (Char.ofNat (48 + k.1)) = k.1 := by decide +kernel
  have key : ∀ f n, n < f → natDigitsRev f n ≠ [] ∧ (∀ c ∈ natDigitsRev f n, Spec.Js.isDigit c = true) ∧
      Spec.Js.value (natDigitsRev f n).reverse = n := by
    intro f
    induction f with
    | zero => intro n h; omega
    | succ f ih =>
      intro n h
      rw [natDigitsRev]
      by_cases h10 : n < 10
      · rw [if_pos h10]
        have := hd ⟨n, h10⟩
        refine ⟨by simp, by simpa using this.1, ?_⟩
        simpa [Spec.Js.value] using this.2
      · rw [if_neg h10]
        obtain ⟨-, i2, i3⟩ := ih (n / 10) (by omega)
        have := hd ⟨n % 10, by omega⟩
        refine ⟨by simp, ?_, ?_⟩
        · intro c hc
          rcases List.mem_cons.1 hc with rfl | hc
          · exact this.1
          · exact i2 c hc
        · rw [List.reverse_cons, value_snoc, i3, this.2]
          simp only
          omega
  obtain ⟨h1, h2, h3⟩ := key (n + 1) n (Nat.lt_succ_self n)
  refine ⟨by simpa [natDisplay] using h1, fun c hc => h2 c (List.mem_reverse.1 hc), h3⟩

theorem refers_arrayRef (name : List Char) (k : Nat) : Refers name k (.createdVar (arrayRef name k)) := by
  obtain ⟨h1, h2, h3⟩ := natDisplay_digits k
  exact ⟨natDisplay k, by simp [arrayRef], h1, h2, h3⟩

/-! ## The result -/

/-- The literals with the content `c` that the filter accepts. -/
def accepted (ts : List Token) (filter : Nat → Bool) (c : List Char) : List Nat :=
  (List.range ts.length).filter fun p => filter p && decide (litAt ts p = some c)

/-- What is known of the sizes. -/
structure Weighed (ts : List Token) (name : List Char) (filter : Nat → Bool) (O N : List (List Char)) : Prop where
  new : ∀ (j : Nat) (c : List Char), N[j]? = some c → ∃ m, 2 ≤ m ∧ m ≤ (accepted ts filter c).length ∧
    arrayWorthIt m (blen c) (blen name) (blen (natDisplay (O.length + j))) = true
  left : ∀ c, c ∉ O ++ N → 2 ≤ (accepted ts filter c).length → ∃ q, q ≤ (O ++ N).length ∧
    arrayWorthIt (accepted ts filter c).length (blen c) (blen name) (blen (natDisplay q)) = false

theorem Weighed.count {ts : List Token} {name : List Char} {filter : Nat → Bool} {O N : List (List Char)} (h : Weighed ts name filter O N) :
    ∀ c ∈ N, 2 ≤ (accepted ts filter c).length := by
  intro c hc
  obtain ⟨j, hj⟩ := List.getElem?_of_mem hc
  obtain ⟨m, h1, h2, -⟩ := h.new j c hj
  omega

/-- `array_spec` in terms of the specification. -/
theorem array_inserted (ts : List Token) (name : List Char) (sep : Option Token) (filter : Nat → Bool)
    (hq : ∀ (p : Nat) (s : List Char), ts[p]? = some (.str s) → p ∈ ((getArray ts name).map Prod.fst).getD [] ∨ filter p = true → Quoted s) :
    ∃ (O N : List (List Char)) (body out : List Token), aggregateIntoArray ts name sep filter = .ok out ∧ Inserted name sep body N out ∧
      N.Nodup ∧ (∀ c ∈ N, c ∉ O) ∧ Alike name ts body ∧
      (∀ (i : Nat) (t : Token), ts[i]? = some t → filter i = false → body[i]? = some t) ∧
      (∀ (i : Nat) (t : Token), ts[i]? = some t → body[i]? = some t ∨ ∃ s k, t = .str s ∧ filter i = true ∧
        (O ++ N)[k]? = some (content s) ∧ body[i]? = some (.createdVar (arrayRef name k))) ∧
      Weighed ts name filter O N ∧
      ((getArray ts name = none ∧ O = [] ∧ (out = body ∧ N = [] ∨ N ≠ [] ∧ out = .createdVarDecl ('v' :: 'a' :: 'r' :: ' ' :: (name ++ ['='])) ::
          .char .openBracket :: (entries N ++ .char .closeBracket :: .char .semiColon :: (sep.toList ++ body)))) ∨
        ∃ pre arr post pre' post' X, ts = pre ++ .char .openBracket :: (arr ++ .char .closeBracket :: post) ∧ .char .closeBracket ∉ arr ∧
          (∃ p k g1 g2 g3, (k = .keyword .kVar ∨ k = .keyword .kLet) ∧ (∀ t ∈ g1 ++ g2 ++ g3, blank t = true) ∧
            pre = p ++ k :: (g1 ++ .other name :: (g2 ++ .op .equal :: g3))) ∧
          body = pre' ++ .char .openBracket :: (arr ++ .char .closeBracket :: post') ∧ Announces name pre' ∧
          O = arr.filterMap (fun t => t.getStr.map content) ∧
          X = (if arr.filter (fun t => !blank t) = [] then entries N else entriesAfter N) ∧
          out = pre' ++ .char .openBracket :: (arr ++ X ++ .char .closeBracket :: post')) := by
  obtain ⟨O, N, body, ok, hO, hok, hout, hnd, hdis, hN, hleft, hlen, hbody⟩ := array_spec ts name sep filter hq
  have hal : Alike name ts body := by
    refine alike_of_getElem name ts body hlen fun i t ht => ?_
    rcases hbody i t ht with ⟨s, k, h1, -, -, h2⟩ | ⟨h, -⟩
    · exact .inr ⟨s, k, h1, h2⟩
    · exact .inl h
  have hfil : ∀ (i : Nat) (t : Token), ts[i]? = some t → filter i = false → body[i]? = some t := by
    intro i t ht hf
    rcases hbody i t ht with ⟨s, k, -, h1, -⟩ | ⟨h, -⟩
    · rw [((hok i).1 h1).1] at hf; cases hf
    · exact h
  have hrep : ∀ (i : Nat) (t : Token), ts[i]? = some t → body[i]? = some t ∨ ∃ s k, t = .str s ∧ filter i = true ∧
        (O ++ N)[k]? = some (content s) ∧ body[i]? = some (.createdVar (arrayRef name k)) := by
    intro i t ht
    rcases hbody i t ht with ⟨s, k, h1, h2, h3, h4⟩ | ⟨h, -⟩
    · exact .inr ⟨s, k, h1, ((hok i).1 h2).1, h3, h4⟩
    · exact .inl h
  have hcount : Weighed ts name filter O N := by
    refine ⟨fun j c hj => ?_, fun c hc h2 => ?_⟩
    · obtain ⟨m, h1, h2, h3⟩ := hN j c hj
      refine ⟨m, h1, Nat.le_trans h2 ?_, h3⟩
      unfold seen accepted
      rw [← List.countP_eq_length_filter, ← List.countP_eq_length_filter]
      refine List.countP_mono_left fun p _ hp => ?_
      simp only [Bool.and_eq_true] at hp ⊢
      exact ⟨((hok p).1 hp.1).1, hp.2⟩
    · have e : accepted ts filter c = seen ts ok c ts.length := by
        unfold seen accepted
        refine List.filter_congr fun p _ => ?_
        rw [Bool.eq_iff_iff]
        simp only [Bool.and_eq_true, decide_eq_true_eq]
        constructor
        · rintro ⟨a, b⟩
          refine ⟨(hok p).2 ⟨a, fun h => hc (List.mem_append_left _ ?_)⟩, b⟩
          rw [hO]
          exact List.mem_filterMap.2 ⟨p, h.1, b⟩
        · rintro ⟨a, b⟩
          exact ⟨((hok p).1 a).1, b⟩
      rw [e] at h2 ⊢
      exact hleft c hc h2
  have hv : "var ".toList ++ name ++ ['='] = 'v' :: 'a' :: 'r' :: ' ' :: (name ++ ['=']) := by simp
  cases hg : getArray ts name with
  | none =>
    rw [hg] at hO
    have hOe : O = [] := by rw [hO]; rfl
    rw [hg] at hout
    unfold assemble at hout
    simp only at hout
    by_cases hNe : N = []
    · rw [if_pos hNe] at hout
      exact ⟨O, N, body, body, hout, .nothing hNe, hnd, hdis, hal, hfil, hrep, hcount, .inl ⟨rfl, hOe, .inl ⟨rfl, hNe⟩⟩⟩
    · rw [if_neg hNe, hv] at hout
      have e : (.createdVarDecl ('v' :: 'a' :: 'r' :: ' ' :: (name ++ ['='])) :: .char .openBracket :: entries N ++
          [.char .closeBracket, .char .semiColon] ++ sep.toList ++ body : List Token) =
          .createdVarDecl ('v' :: 'a' :: 'r' :: ' ' :: (name ++ ['='])) :: .char .openBracket ::
          (entries N ++ .char .closeBracket :: .char .semiColon :: (sep.toList ++ body)) := by simp
      rw [e] at hout
      exact ⟨O, N, body, _, hout, .declaration hNe, hnd, hdis, hal, hfil, hrep, hcount, .inl ⟨rfl, hOe, .inr ⟨hNe, rfl⟩⟩⟩
  | some r =>
    obtain ⟨vs, eb⟩ := r
    obtain ⟨pre, arr, post, hts, hpre, hb, heb, hvs⟩ := getArray_sound hg
    rw [hg] at hO hok hout
    simp only [Option.map_some, Option.getD_some] at hO hok
    have hOe : O = arr.filterMap fun t => t.getStr.map content := by
      have := lits_of_solid (pre ++ [.char .openBracket]) (.char .closeBracket :: post) arr []
      rw [hO, hvs, hts, ← this]
      simp
    have hal' := hal
    rw [hts] at hal'
    obtain ⟨pre', r1, hb1, ha1, h1, hl1⟩ := hal'.append_left
    obtain ⟨r2, rfl, h2⟩ := h1.cons_of rfl
    obtain ⟨arr', r3, rfl, ha3, h3, hl3⟩ := h2.append_left
    obtain ⟨post', rfl, -⟩ := h3.cons_of rfl
    have harr : arr' = arr := by
      refine List.ext_getElem? fun i => ?_
      by_cases hi : i < arr.length
      · have ht : ts[pre.length + 1 + i]? = some arr[i] := by
          rw [hts, List.getElem?_append_right (by omega), show pre.length + 1 + i - pre.length = i + 1 by omega,
            List.getElem?_cons_succ, List.getElem?_append_left hi, List.getElem?_eq_getElem hi]
        have hbi : body[pre.length + 1 + i]? = arr'[i]? := by
          rw [hb1, ← hl1, List.getElem?_append_right (by omega), show pre'.length + 1 + i - pre'.length = i + 1 by omega,
            List.getElem?_cons_succ, List.getElem?_append_left (by omega)]
        have hsame : body[pre.length + 1 + i]? = some arr[i] := by
          rcases hbody _ _ ht with ⟨s, k, e1, e2, -⟩ | ⟨h, -⟩
          · exfalso
            refine ((hok _).1 e2).2 ⟨?_, ?_⟩
            · rw [hvs, mem_solidAt]
              refine ⟨by omega, arr[i], ?_, by rw [e1]; rfl⟩
              rw [show pre.length + 1 + i - (pre.length + 1) = i by omega, List.getElem?_eq_getElem hi]
            · rw [e1] at ht
              rw [litAt_some.2 ⟨s, ht, rfl⟩]; simp
          · exact h
        rw [← hbi, hsame, List.getElem?_eq_getElem hi]
      · rw [List.getElem?_eq_none (by omega), List.getElem?_eq_none (by omega)]
    subst harr
    have hann := ha1.announces hpre
    unfold assemble at hout
    simp only at hout
    have htake : body.take eb = pre' ++ .char .openBracket :: arr' := by
      have : body = (pre' ++ .char .openBracket :: arr') ++ .char .closeBracket :: post' := by rw [hb1]; simp
      rw [this, List.take_left' (by rw [heb, ← hl1]; simp; omega)]
    have hdrop : body.drop eb = .char .closeBracket :: post' := by
      have : body = (pre' ++ .char .openBracket :: arr') ++ .char .closeBracket :: post' := by rw [hb1]; simp
      rw [this, List.drop_left' (by rw [heb, ← hl1]; simp; omega)]
    rw [htake, hdrop] at hout
    have hvsn : vs = [] ↔ arr'.filter (fun t => !blank t) = [] := by rw [hvs]; exact solidAt_nil
    have e : pre' ++ .char .openBracket :: arr' ++ (if vs = [] then entries N else entriesAfter N) ++ .char .closeBracket :: post' =
        pre' ++ .char .openBracket :: (arr' ++ (if arr'.filter (fun t => !blank t) = [] then entries N else entriesAfter N) ++
          .char .closeBracket :: post') := by
      simp [hvsn]
    rw [e] at hout
    refine ⟨O, N, body, _, hout, ?_, hnd, hdis, hal, hfil, hrep, hcount, .inr ⟨pre, arr', post, pre', post', _, hts, hb, hpre, hb1, hann, hOe, rfl, rfl⟩⟩
    by_cases hem : arr'.filter (fun t => !blank t) = []
    · rw [if_pos hem]; exact .first hb1 hann hb hem
    · rw [if_neg hem]; exact .more hb1 hann hb hem

/-! ## Literals of scripts -/

theorem closeString_last (q : Char) : ∀ (k : Nat) (cs t r : List Char), cs.length < k → Spec.Js.closeString q cs = some (t, r) → ∃ b, t = b ++ [q] := by
  intro k
  induction k with
  | zero => intro cs t r h; omega
  | succ k ih =>
    intro cs t r hk h
    match cs, hk, h with
    | [], _, h => cases h
    | ['\\'], _, h => cases h
    | '\\' :: c :: cs, hk, h =>
      rw [Spec.Js.closeString] at h
      cases hc : Spec.Js.closeString q cs with
      | none => rw [hc] at h; cases h
      | some x =>
        rw [hc] at h; cases h
        obtain ⟨b, hb⟩ := ih cs x.1 x.2 (by simp at hk; omega) hc
        exact ⟨'\\' :: c :: b, by rw [hb]; rfl⟩
    | c :: cs, hk, h =>
      by_cases hc' : c = '\\'
      · subst hc'
        cases cs with
        | nil => cases h
        | cons d cs =>
          rw [Spec.Js.closeString] at h
          cases hc : Spec.Js.closeString q cs with
          | none => rw [hc] at h; cases h
          | some x =>
            rw [hc] at h; cases h
            obtain ⟨b, hb⟩ := ih cs x.1 x.2 (by simp at hk; omega) hc
            exact ⟨'\\' :: d :: b, by rw [hb]; rfl⟩
      · rw [closeString_step cs hc'] at h
        split at h
        · rename_i e; cases h; exact ⟨[], by rw [e]; rfl⟩
        · cases hc : Spec.Js.closeString q cs with
          | none => rw [hc] at h; cases h
          | some x =>
            rw [hc] at h; cases h
            obtain ⟨b, hb⟩ := ih cs x.1 x.2 (by simp at hk; omega) hc
            exact ⟨c :: b, by rw [hb]; rfl⟩

open Spec.Js in
theorem closeTemplate_last (L : Nat) : ∀ (k : Nat) (p : Place) (cs t r : List Char), cs.length < k →
    closeTemplate L p cs = .closed t r → ∃ b, t = b ++ ['`'] := by
  have cons_closed : ∀ {c : Char} {x : Close} {t r : List Char}, x.cons c = .closed t r → ∃ u, t = c :: u ∧ x = .closed u r := by
    intro c x t r h
    cases x with
    | closed u v => simp [Close.cons] at h; exact ⟨u, h.1.symm, by simp [h.2]⟩
    | unclosed => cases h
    | tooDeep => cases h
  intro k
  induction k with
  | zero => intro p cs t r h; omega
  | succ k ih =>
    intro p cs t r hl h
    match cs, hl, h with
    | [], _, h => rw [ct_nil] at h; cases h
    | c :: cs, hl, h =>
      by_cases hc : c = '\\'
      · subst hc
        cases cs with
        | nil => rw [ct_last] at h; cases h
        | cons d cs =>
          rw [ct_esc] at h
          obtain ⟨u1, rfl, hx1⟩ := cons_closed h
          obtain ⟨u, rfl, hx⟩ := cons_closed hx1
          obtain ⟨b, rfl⟩ := ih p cs u r (by simp at hl ⊢; omega) hx
          exact ⟨'\\' :: d :: b, rfl⟩
      · have step : ∀ p', (closeTemplate L p' cs).cons c = .closed t r → ∃ b, t = b ++ ['`'] := by
          intro p' h
          obtain ⟨u, rfl, hx⟩ := cons_closed h
          obtain ⟨b, rfl⟩ := ih p' cs u r (by simpa using hl) hx
          exact ⟨c :: b, rfl⟩
        cases p with
        | text st =>
          rw [ct_text _ _ _ hc] at h
          split at h
          · exact step _ h
          · split at h
            · rename_i h2
              cases st with
              | nil => cases h; exact ⟨[], by rw [h2]; rfl⟩
              | cons n st => exact step _ h
            · exact step _ h
        | code n st =>
          rw [ct_code _ _ _ _ hc] at h
          split at h
          · exact step _ h
          · split at h
            · split at h
              · cases h
              · exact step _ h
            · split at h
              · exact step _ h
              · split at h
                · split at h <;> exact step _ h
                · exact step _ h
        | quoted q n st =>
          rw [ct_quoted _ _ _ _ _ hc] at h
          split at h <;> exact step _ h

open Spec.Js in
theorem lexeme_quoted {u : List Lexeme} {t : List Char} (h : LexOk u (.str t)) : Quoted t := by
  obtain ⟨q, b, rfl, ⟨hq, h⟩ | ⟨rfl, h⟩⟩ := h
  · obtain ⟨c, rfl⟩ := closeString_last q _ b b [] (Nat.lt_succ_self _) (by simpa using h [])
    exact ⟨q, c, q, rfl, by rcases hq with rfl | rfl <;> rfl, by rcases hq with rfl | rfl <;> rfl⟩
  · obtain ⟨c, rfl⟩ := closeTemplate_last _ _ _ b b [] (Nat.lt_succ_self _) (by simpa using h [])
    exact ⟨_, c, _, rfl, rfl, rfl⟩

theorem wordToken_str (w s : List Char) : wordToken w ≠ .str s := by
  unfold wordToken
  split
  · simp
  · split
    · simp
    · split <;> simp

open Spec.Js in
theorem tokOf_str {l : Lexeme} {s : List Char} (h : tokOf l = .str s) : l = .str s := by
  cases l with
  | str t => cases h; rfl
  | word w => exact absurd h (wordToken_str w s)
  | punct t =>
    exfalso
    have hall : ∀ p ∈ punctTable, p.2.isStr = false := by decide +kernel
    have h : (punctTable.lookup t).getD (.other t) = .str s := h
    cases hl : punctTable.lookup t with
    | none => rw [hl] at h; cases h
    | some x =>
      rw [hl] at h
      simp only [Option.getD_some] at h
      subst h
      have : ∃ y, (y, Token.str s) ∈ punctTable := by
        obtain ⟨l1, l2, h1, -⟩ := List.lookup_eq_some_iff.1 hl
        exact ⟨t, by rw [h1]; simp⟩
      obtain ⟨y, hy⟩ := this
      exact absurd (hall _ hy) (by simp [Token.isStr])
  | _ => cases h

open Spec.Js in
/-- The literals of a script have their quotes. -/
theorem tokenize_quoted {source : List Char} {ts : List Token} (hr : ∀ r, Lexeme.openRegex r ∉ lexRev source)
    (h : tokenize source = .ok ts) (s : List Char) (hs : .str s ∈ ts) : Quoted s := by
  rw [tokenize_eq source hr] at h
  have hwf := lexRev_wf source
  have key : ∀ v : List Lexeme, Wf v → .str s ∈ v.map tokOf → Quoted s := by
    intro v hv hm
    obtain ⟨l, hl, he⟩ := List.mem_map.1 hm
    have := tokOf_str he
    subst this
    obtain ⟨u, hu⟩ := hv.mem _ hl
    exact lexeme_quoted hu
  have keyAdd : ∀ (v : List Lexeme) (r : List Char), Wf v → .str s ∈ addWordTok (v.map tokOf) r → Quoted s := by
    intro v r hv hm
    unfold addWordTok at hm
    split at hm
    · exact key v hv hm
    · rcases List.mem_cons.1 hm with he | hm
      · exact absurd he.symm (wordToken_str r s)
      · exact key v hv hm
  generalize lexRev source = v at h hwf
  cases hf : finish v with
  | err => rw [hf] at h; cases h
  | panic => rw [hf] at h; cases h
  | ok us =>
    rw [hf] at h
    simp only [Out.bind_ok, Out.ok.injEq] at h
    subst h
    have hs := List.mem_reverse.1 hs
    unfold finish at hf
    split at hf
    · cases hf; exact keyAdd _ _ hwf.2 hs
    · cases hf; exact keyAdd _ _ hwf.2 hs
    · cases hf
    · split at hf
      · cases hf; exact key _ hwf.2 hs
      · split at hf
        · cases hf; exact keyAdd _ _ hwf.2 hs
        · cases hf
    · split at hf
      · cases hf
        rcases List.mem_cons.1 hs with he | hs
        · have := tokOf_str he.symm
          unfold blockLexeme at this
          split at this <;> cases this
        · exact key _ hwf.2 hs
      · cases hf
    · cases hf; exact key _ hwf hs

end Verif.Js
