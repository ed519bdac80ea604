import Verif.Proofs.JsAggAgain
import Verif.Props.JsAggText
/-!
# Aggregating the strings of a script that was written and read, with blanks and comments
-/
set_option linter.unusedSimpArgs false

namespace Verif.Js
open Spec.Js Spec.JsAgg

theorem keepTok_eq (t : Token) : keepTok t = !useless t := by rw [keepTok, useless_eq]

/-! ## Tokens and the ones that are kept -/

theorem filter_skip {ts : List Token} {i j : Nat} (h : All useless ts i j) (hij : i ≤ j) :
    (ts.drop i).filter keepTok = (ts.drop j).filter keepTok := by
  obtain ⟨d, rfl⟩ := Nat.exists_eq_add_of_le hij
  induction d generalizing i with
  | zero => rfl
  | succ d ih =>
    obtain ⟨t, h1, h2⟩ := h i (Nat.le_refl _) (by omega)
    obtain ⟨h3, h4⟩ := List.getElem?_eq_some_iff.1 h1
    rw [List.drop_eq_getElem_cons h3, h4, List.filter_cons_of_neg (by simp [keepTok_eq, h2])]
    have := ih (i := i + 1) (fun k k1 k2 => h k (by omega) (by omega)) (by omega)
    rw [this]
    congr 2; omega

theorem filter_at {ts : List Token} {i : Nat} {t : Token} (h : ts[i]? = some t) (hk : keepTok t = true) :
    (ts.drop i).filter keepTok = t :: (ts.drop (i + 1)).filter keepTok := by
  obtain ⟨h3, h4⟩ := List.getElem?_eq_some_iff.1 h
  rw [List.drop_eq_getElem_cons h3, h4, List.filter_cons_of_pos hk]

/-- The next token that is kept. -/
theorem filter_next {ts : List Token} : ∀ (d i : Nat) {x : Token} {R : List Token}, ts.length - i ≤ d → (ts.drop i).filter keepTok = x :: R →
    ∃ m, i ≤ m ∧ All useless ts i m ∧ ts[m]? = some x ∧ (ts.drop (m + 1)).filter keepTok = R
  | 0, i, x, R, hd, h => by rw [List.drop_eq_nil_of_le (by omega)] at h; cases h
  | d + 1, i, x, R, hd, h => by
    have hi : i < ts.length := by
      refine Nat.lt_of_not_le fun hle => ?_
      rw [List.drop_eq_nil_of_le hle] at h; cases h
    have hg : ts[i]? = some ts[i] := List.getElem?_eq_getElem hi
    rw [List.drop_eq_getElem_cons hi] at h
    cases hk : keepTok ts[i] with
    | true =>
      rw [List.filter_cons_of_pos hk] at h
      cases h
      exact ⟨i, Nat.le_refl _, all_empty _ _ _, hg, rfl⟩
    | false =>
      rw [List.filter_cons_of_neg (by simp [hk])] at h
      obtain ⟨m, h1, h2, h3, h4⟩ := filter_next d (i + 1) (by omega) h
      refine ⟨m, by omega, fun k k1 k2 => ?_, h3, h4⟩
      by_cases e : k = i
      · subst e
        rw [keepTok_eq] at hk
        exact ⟨_, hg, by simpa using hk⟩
      · exact h2 k (by omega) k2

theorem gap_keep {t : Token} (h : gapToken t = true) : useless t = true := by
  cases t with
  | char c => cases c <;> first | rfl | cases h
  | _ => first | rfl | cases h

theorem value_keep {t : Token} (h : valueToken t = true) : keepTok t = true := by
  cases t <;> first | rfl | cases h

/-- A declaration among the tokens that are kept. -/
theorem declares_filter {ts : List Token} {n v : Nat} {name : List Char} {t : Token} (h : Declares ts n (some v))
    (h1 : ts[n]? = some (.other name)) (h2 : ts[v]? = some t) :
    ∃ A B, ts.filter keepTok = A ++ .other name :: .op .equal :: t :: B := by
  obtain ⟨-, e, e1, e2, e3, e4, e5, t', e6, e7⟩ := h
  rw [h2] at e6
  cases e6
  refine ⟨(ts.take n).filter keepTok, (ts.drop (v + 1)).filter keepTok, ?_⟩
  conv => lhs; rw [← List.take_append_drop n ts, List.filter_append]
  rw [filter_at h1 rfl, filter_skip (j := e) (fun k k1 k2 => ?_) (by omega), filter_at e3 rfl, filter_skip e5 (by omega),
    filter_at h2 (value_keep e7)]
  obtain ⟨t, a1, a2⟩ := e2 k k1 k2
  exact ⟨t, a1, gap_keep a2⟩

/-- There is no line break between a name that begins with `r_` and an equals sign. -/
def GapOk (ts : List Token) : Prop := ∀ (i e : Nat) name, ts[i]? = some (.other name) → ['r', '_'] <+: name → i < e →
  All useless ts (i + 1) e → ts[e]? = some (.op .equal) → All gapToken ts (i + 1) e

/-- A declaration that is found among the tokens that are kept. -/
theorem listed_filter {ts : List Token} (hg : GapOk ts) {A B : List Token} {k t : Token} {name : List Char}
    (h : ts.filter keepTok = A ++ k :: .other name :: .op .equal :: t :: B) (hp : ['r', '_'] <+: name)
    (hk : k = .char .comma ∨ k = .keyword .kLet ∨ k = .keyword .kVar) (ht : valueToken t = true) :
    ∃ n v, Listed ts n v ∧ ts[n]? = some (.other name) ∧ ts[v]? = some t := by
  obtain ⟨l1, l2, rfl, -, h2⟩ := List.filter_eq_append_iff.1 h
  generalize hts : l1 ++ l2 = ts at hg
  have h0 : (ts.drop l1.length).filter keepTok = k :: .other name :: .op .equal :: t :: B := by rw [← hts]; simpa using h2
  obtain ⟨j, a1, a2, a3, a4⟩ := filter_next _ _ (Nat.le_refl _) h0
  obtain ⟨n, b1, b2, b3, b4⟩ := filter_next _ _ (Nat.le_refl _) a4
  obtain ⟨e, c1, c2, c3, c4⟩ := filter_next _ _ (Nat.le_refl _) b4
  obtain ⟨v, d1, d2, d3, -⟩ := filter_next _ _ (Nat.le_refl _) c4
  refine ⟨n, v, ⟨⟨⟨name, b3⟩, e, by omega, hg n e name b3 hp (by omega) c2 c3, c3, by omega, d2, t, d3, ht⟩, j, by omega, b2, ?_⟩, b3, d3⟩
  rw [a3]
  rcases hk with rfl | rfl | rfl <;> simp

theorem pointwise_get {α β : Type} {R : α → β → Prop} {l : List α} {l' : List β} (h : Pointwise R l l') : ∀ i : Nat,
    (∀ a, l[i]? = some a → ∃ b, l'[i]? = some b ∧ R a b) ∧ ∀ b, l'[i]? = some b → ∃ a, l[i]? = some a ∧ R a b := by
  induction h with
  | nil => intro i; simp
  | cons hr _ ih =>
    intro i
    cases i with
    | zero => simpa using hr
    | succ i => simpa using ih i

theorem split_at4 {α : Type} {l : List α} {j : Nat} {a b c d : α} (h1 : l[j]? = some a) (h2 : l[j + 1]? = some b) (h3 : l[j + 2]? = some c)
    (h4 : l[j + 3]? = some d) : l = l.take j ++ a :: b :: c :: d :: l.drop (j + 4) := by
  obtain ⟨a1, a2⟩ := List.getElem?_eq_some_iff.1 h1
  obtain ⟨b1, b2⟩ := List.getElem?_eq_some_iff.1 h2
  obtain ⟨c1, c2⟩ := List.getElem?_eq_some_iff.1 h3
  obtain ⟨d1, d2⟩ := List.getElem?_eq_some_iff.1 h4
  have e1 := List.drop_eq_getElem_cons a1
  have e2 := List.drop_eq_getElem_cons b1
  have e3 := List.drop_eq_getElem_cons c1
  have e4 := List.drop_eq_getElem_cons d1
  rw [a2] at e1; rw [b2] at e2; rw [c2] at e3; rw [d2] at e4
  rw [← e4, ← e3, ← e2, ← e1, List.take_append_drop]

/-- A first round, and what a second one does if the tokens have been written and read in between: then they are the ones that are kept,
with some blanks, and without some semicolons at the beginning of the script. -/
theorem aggregate_reread (ts : List Token) (sep : Option Token) (hr : OnlyListed (ts.filter keepTok)) (hgap : GapOk ts)
    (hc : ∀ t ∈ ts, readTok t = t) (ha : NotAssigned (ts.filter keepTok)) :
    ∃ (vars : Vars) (D : List (List Char × List Char)) (body : List Token), VarsOk ts vars ∧
      aggregateStrings ts sep = .ok (declare D ++ sep.toList ++ body) ∧
      (∀ s n, (s, n) ∈ D → GenName n ∧ 2 ≤ ts.count (.str s)) ∧
      body.length = ts.length ∧ (∀ (i : Nat) t, ts[i]? = some t → body[i]? = some (aggToken ts vars D i t)) ∧
      ∀ (rt S F : List Token) (sep' : Option Token), (∀ t ∈ S, t = .char .semiColon) → (body.map readTok).filter keepTok = S ++ F →
        rt.filter keepTok = declareRead D ++ F → GapOk rt → aggregateStrings rt sep' = .ok (sep'.toList ++ rt) := by
  obtain ⟨vars, D, body, hv, hva, h1, h2, h3, -, -, ⟨next, -, h4, h5⟩, h6, h7⟩ := aggregate_spec ts sep
  have hD : ∀ s n, (s, n) ∈ D → GenName n ∧ 2 ≤ ts.count (.str s) := by
    intro s n hm
    obtain ⟨m, hm1, hm2, -⟩ := (h2 s n hm).worth
    rw [occ_count] at hm2
    exact ⟨(h2 s n hm).name, by omega⟩
  refine ⟨vars, D, body, hv, h1, hD, h6, h7, ?_⟩
  intro rt S F sep' hS hSF hrt hgap2
  generalize hrb : body.map readTok = rb at hSF
  have hpw : Pointwise (fun t t' => ∃ i : Nat, ts[i]? = some t ∧ t' = readTok (aggToken ts vars D i t)) ts rb := by
    refine pointwise_of ts rb (by rw [← hrb, List.length_map, h6]) fun i t t' e1 e2 => ⟨i, e1, ?_⟩
    rw [← hrb, List.getElem?_map, h7 i t e1] at e2
    cases e2; rfl
  have hcase : ∀ t t', (∃ i : Nat, ts[i]? = some t ∧ t' = readTok (aggToken ts vars D i t)) → t' = t ∨ ∃ s n, t = .str s ∧ t' = .other n := by
    rintro t t' ⟨i, e1, e2⟩
    rcases read_cases (D := D) (i := i) hv (hc t (List.mem_of_getElem? e1)) with ⟨e, -⟩ | ⟨s, n, rfl, e, -⟩
    · exact .inl (e2.trans e)
    · exact .inr ⟨s, n, rfl, e2.trans e⟩
  have hpf : Pointwise (fun t t' => t' = t ∨ ∃ s n, t = .str s ∧ t' = .other n) (ts.filter keepTok) (S ++ F) := by
    rw [← hSF]
    refine pointwise_imp (pointwise_filter hpw fun t _ t' h => ?_) fun t _ t' h => hcase t t' h
    rcases hcase t t' h with rfl | ⟨s, n, rfl, rfl⟩ <;> rfl
  have bstr : ∀ (i : Nat) s, rb[i]? = some (.str s) → ts[i]? = some (.str s) ∧
      ((∃ v, vars.values s = some (v, i)) ∨ (vars.values s = none ∧ s ∉ D.map Prod.fst)) := by
    intro i s h
    cases hi : ts[i]? with
    | none =>
      rw [← hrb, List.getElem?_map, List.getElem?_eq_none (by rw [h6]; exact List.getElem?_eq_none_iff.1 hi)] at h
      cases h
    | some t =>
      rw [← hrb, List.getElem?_map, h7 i t hi, Option.map_some, Option.some.injEq] at h
      rcases read_cases (D := D) (i := i) hv (hc t (List.mem_of_getElem? hi)) with ⟨e, g⟩ | ⟨s', n, -, e, -⟩
      · rw [e] at h
        subst h
        exact ⟨rfl, g s rfl⟩
      · rw [e] at h; cases h
  have hcount : ∀ s, rt.count (.str s) = (D.map Prod.fst).count s + rb.count (.str s) := by
    intro s
    have e : ∀ l : List Token, (l.filter keepTok).count (.str s) = l.count (.str s) := fun l => List.count_filter rfl
    have h0 : S.count (.str s) = 0 := List.count_eq_zero.2 fun hm => by cases hS _ hm
    rw [← e rt, hrt, List.count_append, declareRead_count, ← e rb, hSF, List.count_append, h0, Nat.zero_add]
  have hone : ∀ s, s ∈ D.map Prod.fst → rt.count (.str s) ≤ 1 := by
    intro s hs
    have h0 : rb.count (.str s) = 0 := by
      refine List.count_eq_zero.2 fun hm => ?_
      obtain ⟨i, hi⟩ := List.getElem?_of_mem hm
      obtain ⟨-, ⟨v, e⟩ | ⟨-, e⟩⟩ := bstr i s hi
      · obtain ⟨⟨s', n⟩, hp, rfl⟩ := List.mem_map.1 hs
        rw [(h2 s' n hp).noValue] at e; cases e
      · exact e hs
    rw [hcount, h0]
    exact List.nodup_iff_count.1 h3 s
  have hold : ∀ s, vars.values s ≠ none → rt.count (.str s) ≤ 1 := by
    intro s hs
    have hD0 : s ∉ D.map Prod.fst := by
      intro hm
      obtain ⟨⟨s', n⟩, hp, rfl⟩ := List.mem_map.1 hm
      exact hs (h2 s' n hp).noValue
    rw [hcount, List.count_eq_zero.2 hD0, Nat.zero_add]
    refine count_le_one rb _ fun i j hi hj => ?_
    obtain ⟨-, ⟨v, e⟩ | ⟨e, -⟩⟩ := bstr i s hi
    · obtain ⟨-, ⟨v', e'⟩ | ⟨e', -⟩⟩ := bstr j s hj
      · rw [e] at e'; cases e'; rfl
      · exact absurd e' hs
    · exact absurd e hs
  obtain ⟨vars2, hv1, hv2, hv3⟩ := getVariablesName_spec rt
  obtain ⟨g, hg1, hg2, hg3, hg4, hg5⟩ := freeName_ok vars2.names gen0_ok
  have found : ∀ {A B : List Token} {k t : Token} {name : List Char}, rt.filter keepTok = A ++ k :: .other name :: .op .equal :: t :: B →
      ['r', '_'] <+: name → (k = .char .comma ∨ k = .keyword .kLet ∨ k = .keyword .kVar) → valueToken t = true → name ∈ vars2.names := by
    intro A B k t name h hp hk ht
    obtain ⟨n, v, l1, l2, -⟩ := listed_filter hgap2 h hp hk ht
    exact hv3.name n v name (List.getElem?_eq_some_iff.1 l2).1 l1 l2 hp
  have hnew : ∀ s n, (s, n) ∈ D → n ∈ vars2.names := by
    intro s n hm
    obtain ⟨A, k, C, hA, hk⟩ := declareRead_split hm
    refine found (A := A) (k := k) (t := .str s) (B := C ++ F) (by rw [hrt, hA]; simp) ?_ ?_ rfl
    · obtain ⟨l, rfl, -⟩ := (hD s n hm).1
      exact ⟨l, rfl⟩
    · rcases hk with rfl | rfl <;> simp
  have hkeep : ∀ n ∈ vars.names, n ∈ vars2.names := by
    intro n hm
    obtain ⟨hp, i, w, e1, e2⟩ := hv.known n hm
    obtain ⟨-, -, -, -, -, -, -, t, e4, e5⟩ := id e2
    obtain ⟨A, B, hF⟩ := declares_filter e2 e1 e4
    generalize ts.filter keepTok = E at hF hr ha hpf
    have f1 : E[A.length]? = some (.other n) := by rw [hF]; simp
    have f2 : E[A.length + 1]? = some (.op .equal) := by rw [hF]; simp
    have f3 : E[A.length + 2]? = some t := by rw [hF]; simp
    obtain ⟨j, hj, hk⟩ := hr _ n f1 hp f2
    obtain ⟨k, f0, hk'⟩ : ∃ k, E[j]? = some k ∧ (k = .char .comma ∨ k = .keyword .kLet ∨ k = .keyword .kVar) := by
      rcases hk with h | h | h
      · exact ⟨_, h, .inl rfl⟩
      · exact ⟨_, h, .inr (.inl rfl)⟩
      · exact ⟨_, h, .inr (.inr rfl)⟩
    rw [hj] at f1 f2 f3
    obtain ⟨g0, p0, q0⟩ := (pointwise_get hpf j).1 _ f0
    obtain ⟨g1, p1, q1⟩ := (pointwise_get hpf _).1 _ f1
    obtain ⟨g2, p2, q2⟩ := (pointwise_get hpf _).1 _ f2
    obtain ⟨g3, p3, q3⟩ := (pointwise_get hpf _).1 _ f3
    have q0 : g0 = k := by
      rcases q0 with h | ⟨s, n, rfl, -⟩
      · exact h
      · rcases hk' with h | h | h <;> cases h
    have q1 : g1 = .other n := by
      rcases q1 with h | ⟨s, n, h, -⟩
      · exact h
      · cases h
    have q2 : g2 = .op .equal := by
      rcases q2 with h | ⟨s, n, h, -⟩
      · exact h
      · cases h
    have q3 : valueToken g3 = true := by
      rcases q3 with rfl | ⟨s, n, -, rfl⟩
      · exact e5
      · rfl
    subst q0 q1 q2
    have hlt : S.length ≤ j := by
      refine Nat.le_of_not_lt fun hlt => ?_
      rw [List.getElem?_append_left hlt] at p0
      have := hS _ (List.mem_of_getElem? p0)
      subst this
      rcases hk' with h | h | h <;> cases h
    have right : ∀ i, S.length ≤ i → (S ++ F)[i]? = F[i - S.length]? := fun i h => List.getElem?_append_right h
    rw [right _ (by omega)] at p0 p1 p2 p3
    have s1 : j + 1 - S.length = (j - S.length) + 1 := by omega
    have s2 : j + 1 + 1 - S.length = (j - S.length) + 2 := by omega
    have s3 : j + 1 + 2 - S.length = (j - S.length) + 3 := by omega
    rw [s1] at p1; rw [s2] at p2; rw [s3] at p3
    refine found (A := declareRead D ++ F.take (j - S.length)) (k := g0) (t := g3) (B := F.drop (j - S.length + 4)) ?_ hp hk' q3
    rw [hrt, List.append_assoc, ← split_at4 p0 p1 p2 p3]
  have hrank : next ≤ rank g.letters := by
    refine Nat.le_of_not_lt fun hlt => ?_
    rcases h4 (rank g.letters) hg4 hlt with ⟨n, hm, hr, hn⟩ | ⟨n, hm, hr⟩
    · have := gen_inj hn hg2.name (by rw [hg2.nameRank, hr])
      rw [← this] at hg3
      exact hg3 (hkeep n hm)
    · obtain ⟨⟨s, n'⟩, hm', rfl⟩ := List.mem_map.1 hm
      have := gen_inj (hD s n' hm').1 hg2.name (by rw [hg2.nameRank, hr])
      rw [← this] at hg3
      exact hg3 (hnew s n' hm')
  refine aggregate_still rt sep' hv1 (fun s v w hs p hp => ?_) hg1 (fun s m hs hm1 hm2 => ?_)
  · obtain ⟨name, e1, e2, -, e3, e4⟩ := hv2.value s v w hs
    have hle : rt.count (.str s) ≤ 1 := by
      obtain ⟨A, B, hF⟩ := declares_filter e3 e1 e4
      rw [hrt] at hF
      rcases assigned D A.length (x := name) (s := s) (by rw [hF]; simp) (by rw [hF]; simp) (by rw [hF]; simp) with h | ⟨j, j1, j2, j3⟩
      · exact hone s h
      · refine hold s ?_
        have right : ∀ i, (S ++ F)[S.length + i]? = F[i]? := fun i => by rw [List.getElem?_append_right (by omega)]; congr 1; omega
        rw [← right] at j1 j2 j3
        rw [← Nat.add_assoc] at j2 j3
        generalize S.length + j = j at j1 j2 j3
        obtain ⟨t1, k1, q1⟩ := (pointwise_get hpf _).2 _ j1
        obtain ⟨t2, k2, q2⟩ := (pointwise_get hpf _).2 _ j2
        obtain ⟨t3, k3, q3⟩ := (pointwise_get hpf _).2 _ j3
        have q2 : t2 = .op .equal := by
          rcases q2 with h | ⟨s, n, -, h⟩
          · exact h.symm
          · cases h
        have q3 : t3 = .str s := by
          rcases q3 with h | ⟨s, n, -, h⟩
          · exact h.symm
          · cases h
        subst q2 q3
        have q1 : t1 = .other name := by
          rcases q1 with h | ⟨s', n, rfl, h⟩
          · exact h.symm
          · exact absurd k2 (ha j s' k1)
        subst q1
        obtain ⟨i, rfl, hi⟩ := hr j name k1 e2 k2
        obtain ⟨k, f0, hk'⟩ : ∃ k, (ts.filter keepTok)[i]? = some k ∧ (k = .char .comma ∨ k = .keyword .kLet ∨ k = .keyword .kVar) := by
          rcases hi with h | h | h
          · exact ⟨_, h, .inl rfl⟩
          · exact ⟨_, h, .inr (.inl rfl)⟩
          · exact ⟨_, h, .inr (.inr rfl)⟩
        obtain ⟨n', v', l1, l2, l3⟩ := listed_filter hgap (split_at4 f0 k1 k2 k3) e2 hk' rfl
        exact hva.value n' v' name s (List.getElem?_eq_some_iff.1 l2).1 l1 l2 e2 l3
    by_cases hpw : p = w
    · exact hpw
    · have := count_twice rt _ p w hpw hp e4
      omega
  · have hD' : s ∉ D.map Prod.fst := by
      intro hin
      have := hone s hin
      omega
    have hval : vars.values s = none := by
      cases hx : vars.values s with
      | none => rfl
      | some vw =>
        have := hold s (by rw [hx]; simp)
        omega
    rw [hcount, List.count_eq_zero.2 hD', Nat.zero_add] at hm2
    have hle : rb.count (.str s) ≤ ts.count (.str s) := by
      have hl : rb.length = ts.length := by rw [← hrb, List.length_map, h6]
      exact count_le rb ts _ hl fun i h => (bstr i s h).1
    obtain ⟨n, e1, -, e3, e4⟩ := h5 s hval hD' (by rw [occ_count]; omega)
    rw [occ_count] at e4
    cases hw : worthIt m (blen s) (blen g.toStr) with
    | false => rfl
    | true =>
      rw [worth_mono hw (show m ≤ ts.count (.str s) by omega)
        (gen_mono e1 hg2.name (by rw [hg2.nameRank]; exact Nat.le_trans e3 hrank))] at e4
      cases e4

end Verif.Js
