import Verif.Proofs.JsAggSize
/-!
# Aggregating strings twice
-/
set_option linter.unusedSimpArgs false

namespace Verif.Js
open Spec.JsAgg

/-- Nothing is chosen if no number of occurrences is worth the first name. -/
theorem aggLoop_idle (vars : Vars) (hv : ∀ s, vars.values s = none) (nl : Nat) (us : List Token) : ∀ (k : Nat) (st : Agg), st.validated = [] →
    st.toReplace = [] → blen st.gen.toStr = nl →
    (∀ s m, 2 ≤ m → m ≤ (st.strs s).length + us.count (.str s) → worthIt m (blen s) nl = false) →
    ∃ st', aggLoop vars k us st = .ok st' ∧ st'.validated = [] ∧ st'.toReplace = [] := by
  induction us with
  | nil => intro k st h1 h2 _ _; exact ⟨st, rfl, h1, h2⟩
  | cons t us ih =>
    intro k st h1 h2 h3 h4
    rw [aggLoop]
    cases hs : t.getStr with
    | none =>
      refine ih (k + 1) st h1 h2 h3 fun s m hm1 hm2 => h4 s m hm1 (Nat.le_trans hm2 ?_)
      rw [List.count_cons]; omega
    | some s =>
      have ht : t = .str s := by cases t <;> simp [Token.getStr] at hs; rw [hs]
      subst ht
      simp only [hv]
      have hw : ((st.strs s ++ [k]).length > 1 && !(st.validated.any fun p => p.1 == s) &&
          worthIt (st.strs s ++ [k]).length (blen s) (blen st.gen.toStr)) = false := by
        by_cases hl : (st.strs s ++ [k]).length > 1
        · rw [h3, h4 s _ hl (by rw [List.count_cons]; simp), Bool.and_false]
        · rw [decide_eq_false hl]; rfl
      rw [hw]
      simp only [Bool.false_eq_true, if_false]
      refine ih (k + 1) _ h1 h2 h3 fun y m hm1 hm2 => h4 y m hm1 (Nat.le_trans hm2 ?_)
      by_cases hy : y = s
      · subst hy
        simp only [if_true, List.length_append, List.length_cons, List.length_nil, List.count_cons_self]; omega
      · simp only [hy, if_false, List.count_cons]; omega

/-- As many numbers as there are in an interval. -/
theorem interval_length {α : Type} [DecidableEq α] (f : α → Nat) (a : Nat) : ∀ (k : Nat) (L : List α), (∀ r, a ≤ r → r < a + k → ∃ n ∈ L, f n = r) →
    k ≤ L.length := by
  intro k
  induction k with
  | zero => intro L _; exact Nat.zero_le _
  | succ k ih =>
    intro L h
    obtain ⟨n, hn, hf⟩ := h (a + k) (by omega) (by omega)
    have := ih (L.erase n) fun r h1 h2 => by
      obtain ⟨x, hx, hr⟩ := h r h1 (by omega)
      exact ⟨x, (List.mem_erase_of_ne (by rintro rfl; omega)).2 hx, hr⟩
    rw [List.length_erase_of_mem hn] at this
    have : 0 < L.length := List.length_pos_of_mem hn
    omega

/-- Names of low rank are short. -/
theorem short_name {n : List Char} (h : GenName n) (hr : nameRank n ≤ 3906) : blen n ≤ 4 := by
  obtain ⟨l, rfl, h1, h2⟩ := h
  have hb : ∀ l : List Char, (∀ c ∈ l, c ∈ alphabet) → blen l = l.length := by
    intro l
    induction l with
    | nil => intro _; rfl
    | cons c l ih =>
      intro hl
      have : ∀ c ∈ alphabet, c.utf8Size = 1 := by decide +kernel
      rw [blen_cons, ih fun d hd => hl d (by simp [hd]), this c (hl c (by simp))]; simp; omega
  have hl : l.length ≤ 2 := by
    refine Nat.le_of_not_lt fun hlt => ?_
    match l, hlt with
    | a :: b :: c :: l, _ =>
      simp only [nameRank, List.drop_succ_cons, List.drop_zero, rank] at hr
      omega
  rw [blen_cons, blen_cons, hb l h2, show ('r' : Char).utf8Size = 1 from rfl, show ('_' : Char).utf8Size = 1 from rfl]
  omega

theorem worth_mono {m c len nl nl' : Nat} (h : worthIt m len nl = true) (hm : m ≤ c) (hn : nl' ≤ nl) : worthIt c len nl' = true := by
  obtain ⟨h1, h2⟩ := worth_final h hm
  unfold worthIt
  simp only [decide_eq_true_eq]
  have a1 : (c + 2) * len = c * len + 2 * len := Nat.add_mul ..
  have a2 := Nat.mul_le_mul_left c hn
  omega

theorem renamed_str {D : List (List Char × List Char)} {t : Token} {s : List Char} (h : renamed D t = .str s) : t = .str s ∧ s ∉ D.map Prod.fst := by
  unfold renamed at h
  cases ht : t.getStr with
  | none =>
    rw [ht] at h; simp only at h; subst h; cases ht
  | some y =>
    have ht' : t = .str y := by cases t <;> simp [Token.getStr] at ht; rw [ht]
    rw [ht] at h
    simp only at h
    cases hl : D.lookup y with
    | some n => rw [hl] at h; cases h
    | none =>
      rw [hl] at h
      simp only at h
      rw [ht'] at h
      cases h
      refine ⟨ht', fun hm => ?_⟩
      obtain ⟨p, hp, he⟩ := List.mem_map.1 hm
      have := List.lookup_eq_none_iff.1 hl p hp
      simp [he] at this

theorem renamed_other {D : List (List Char × List Char)} {t : Token} {x : List Char} (h : renamed D t = .other x) : t = .other x := by
  unfold renamed at h
  cases ht : t.getStr with
  | none => rw [ht] at h; exact h
  | some y =>
    have ht' : t = .str y := by cases t <;> simp [Token.getStr] at ht; rw [ht]
    rw [ht] at h
    simp only at h
    cases hl : D.lookup y with
    | some n => rw [hl] at h; cases h
    | none => rw [hl, ht'] at h; cases h

theorem declare_mem {D : List (List Char × List Char)} {t : Token} (h : t ∈ declare D) : t.isStr = false ∧ t.isOther = false := by
  cases D with
  | nil => cases h
  | cons p D =>
    obtain ⟨s, n⟩ := p
    simp only [declare, List.cons_append, List.mem_cons, List.mem_append, List.mem_flatMap, List.not_mem_nil, or_false] at h
    rcases h with rfl | rfl | ⟨p, -, rfl | rfl⟩ | rfl <;> exact ⟨rfl, rfl⟩

/-- A second round, with no `r_` among the names, adds nothing. -/
theorem aggregate_idle (out : List Token) (sep : Option Token) (hn : ∀ name, .other name ∈ out → ¬(['r', '_'] <+: name))
    (hw : ∀ s m, 2 ≤ m → m ≤ out.count (.str s) → worthIt m (blen s) 4 = false) :
    aggregateStrings out sep = .ok (sep.toList ++ out) := by
  obtain ⟨vars, hv1, hv2, -⟩ := getVariablesName_spec out
  have hval : ∀ s, vars.values s = none := by
    intro s
    cases hs : vars.values s with
    | none => rfl
    | some vw =>
      obtain ⟨name, e1, e2, -⟩ := hv2.value s vw.1 vw.2 hs
      exact absurd e2 (hn name (List.mem_of_getElem? e1))
  have hnames : vars.names = [] := by
    refine List.eq_nil_iff_forall_not_mem.2 fun name hm => ?_
    obtain ⟨h1, n, v, h2, -⟩ := hv2.known name hm
    exact hn name (List.mem_of_getElem? h2) h1
  obtain ⟨st, h1, h2, h3⟩ := aggLoop_idle vars hval 4 out 0 { gen := Gen.new ['r', '_'] 2 } rfl rfl rfl
    (fun s m hm1 hm2 => hw s m hm1 (by simpa using hm2))
  unfold aggregateStrings
  rw [hv1]
  simp only [Out.bind_ok, hnames]
  have hf : freeName [] ([] : List (List Char)).length.succ (Gen.new ['r', '_'] 2) = .ok (Gen.new ['r', '_'] 2) := rfl
  rw [show ([] : List (List Char)).length + 1 = ([] : List (List Char)).length.succ from rfl, hf]
  simp only [Out.bind_ok, h1, h2, h3]
  rfl

/-- What a first round leaves is not worth a second one, if the names were short. -/
theorem aggregate_twice (ts : List Token) (sep sep' : Option Token) (hn : ∀ name, .other name ∈ ts → ¬(['r', '_'] <+: name))
    (hsep : ∀ t, sep = some t → t.isStr = false ∧ t.isOther = false) :
    ∃ (D : List (List Char × List Char)) (body : List Token), aggregateStrings ts sep = .ok (declare D ++ sep.toList ++ body) ∧
      (D.map Prod.fst).Nodup ∧ (∀ s n, (s, n) ∈ D → 2 ≤ ts.count (.str s)) ∧
      (D.length < 3844 → aggregateStrings (declare D ++ sep.toList ++ body) sep' = .ok (sep'.toList ++ (declare D ++ sep.toList ++ body))) := by
  obtain ⟨vars, D, body, hv, -, h1, h2, h3, -, -, ⟨next, -, h4, h5⟩, h6, h7⟩ := aggregate_spec ts sep
  have hval : ∀ s, vars.values s = none := by
    intro s
    cases hs : vars.values s with
    | none => rfl
    | some vw =>
      obtain ⟨name, e1, e2, -⟩ := hv.value s vw.1 vw.2 hs
      exact absurd e2 (hn name (List.mem_of_getElem? e1))
  have hnames : vars.names = [] := by
    refine List.eq_nil_iff_forall_not_mem.2 fun name hm => ?_
    obtain ⟨h1, n, v, h2, -⟩ := hv.known name hm
    exact hn name (List.mem_of_getElem? h2) h1
  have hbody : body = ts.map (renamed D) := by
    apply List.ext_getElem?
    intro i
    rw [List.getElem?_map]
    cases hi : ts[i]? with
    | none => rw [List.getElem?_eq_none (by rw [h6]; exact List.getElem?_eq_none_iff.1 hi)]; rfl
    | some t =>
      rw [h7 i t hi, Option.map_some]
      unfold aggToken
      cases hs : t.getStr with
      | none => simp [renamed, hs]
      | some s => simp [hval]
  refine ⟨D, body, h1, h3, ?_, fun hD => ?_⟩
  · intro s n hm
    obtain ⟨m, hm1, hm2, -⟩ := (h2 s n hm).worth
    rw [occ_count] at hm2
    omega
  · have hnext : next ≤ 3906 := by
      have := interval_length nameRank 63 (next - 63) (D.map Prod.snd) fun r hr1 hr2 => by
        rcases h4 r hr1 (by omega) with ⟨n, hm, -⟩ | h
        · rw [hnames] at hm; cases hm
        · exact h
      rw [List.length_map] at this
      omega
    refine aggregate_idle _ _ ?_ ?_
    · intro name hm
      rcases List.mem_append.1 hm with hm | hm
      · rcases List.mem_append.1 hm with hm | hm
        · exact absurd (declare_mem hm).2 (by simp [Token.isOther])
        · cases sep with
          | none => cases hm
          | some t =>
            simp at hm
            exact absurd (hsep t rfl).2 (by rw [← hm]; simp [Token.isOther])
      · rw [hbody] at hm
        obtain ⟨t, ht1, ht2⟩ := List.mem_map.1 hm
        exact hn name (renamed_other ht2 ▸ ht1)
    · intro s m hm1 hm2
      have hc1 : (declare D).count (.str s) = 0 := List.count_eq_zero.2 fun h => absurd (declare_mem h).1 (by simp [Token.isStr])
      have hc2 : sep.toList.count (.str s) = 0 := List.count_eq_zero.2 fun h => by
        cases sep with
        | none => cases h
        | some t =>
          simp at h
          exact absurd (hsep t rfl).1 (by rw [← h]; simp [Token.isStr])
      rw [List.count_append, List.count_append, hc1, hc2, hbody] at hm2
      have hle : (ts.map (renamed D)).count (.str s) ≤ ts.count (.str s) := by
        show List.countP _ _ ≤ List.countP _ _
        rw [List.countP_map]
        refine List.countP_mono_left fun t _ ht => ?_
        simp only [Function.comp, beq_iff_eq] at ht ⊢
        exact (renamed_str ht).1
      have hD' : s ∉ D.map Prod.fst := by
        have hpos : 0 < (ts.map (renamed D)).count (.str s) := by omega
        obtain ⟨t, -, ht⟩ := List.mem_map.1 (List.count_pos_iff.1 hpos)
        exact (renamed_str ht).2
      obtain ⟨n, e1, -, e3, e4⟩ := h5 s (hval s) hD' (by rw [occ_count]; omega)
      rw [occ_count] at e4
      cases hw : worthIt m (blen s) 4 with
      | false => rfl
      | true =>
        rw [worth_mono hw (show m ≤ ts.count (.str s) by omega) (short_name e1 (Nat.le_trans e3 hnext))] at e4
        cases e4

/-- Twice as many tokens as different literals with two occurrences. -/
theorem twice_length : ∀ (ts : List Token) (S : List (List Char)), S.Nodup → (S.map fun s => ts.count (.str s)).sum ≤ ts.length := by
  intro ts
  induction ts with
  | nil =>
    intro S hS
    clear hS
    induction S with
    | nil => simp
    | cons s S ih => simpa using ih
  | cons t ts ih =>
    intro S hS
    have h1 := ih S hS
    have h2 : ∀ S : List (List Char), S.Nodup → (S.map fun s => (t :: ts).count (.str s)).sum ≤ (S.map fun s => ts.count (.str s)).sum + 1 ∧
        ((∀ s ∈ S, t ≠ .str s) → (S.map fun s => (t :: ts).count (.str s)).sum = (S.map fun s => ts.count (.str s)).sum) := by
      intro S
      induction S with
      | nil => intro _; simp
      | cons s S ih =>
        intro hS
        obtain ⟨i1, i2⟩ := ih (List.nodup_cons.1 hS).2
        have hc : (t :: ts).count (.str s) = ts.count (.str s) + if t = .str s then 1 else 0 := by
          rw [List.count_cons]; simp
        simp only [List.map_cons, List.sum_cons, hc]
        constructor
        · by_cases ht : t = .str s
          · rw [if_pos ht, i2 (fun y hy he => by
              rw [ht] at he; cases he; exact (List.nodup_cons.1 hS).1 hy)]
            omega
          · rw [if_neg ht]; omega
        · intro hall
          rw [if_neg (hall s (by simp)), i2 fun y hy => hall y (by simp [hy])]
          omega
    have := (h2 S hS).1
    simp only [List.length_cons]
    omega

theorem hoisted_length {ts : List Token} {D : List (List Char × List Char)} (h1 : (D.map Prod.fst).Nodup)
    (h2 : ∀ s n, (s, n) ∈ D → 2 ≤ ts.count (.str s)) : 2 * D.length ≤ ts.length := by
  refine Nat.le_trans ?_ (twice_length ts _ h1)
  clear h1
  induction D with
  | nil => simp
  | cons p D ih =>
    have := h2 p.1 p.2 (by simp)
    have := ih fun s n h => h2 s n (by simp [h])
    simp only [List.map_cons, List.sum_cons, List.length_cons]
    omega

end Verif.Js
