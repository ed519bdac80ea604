import Verif.Proofs.JsAggTwice
/-!
# Aggregating the strings of a script that was written and read
-/
set_option linter.unusedSimpArgs false

namespace Verif.Js
open Spec.JsAgg

/-! ## Names and their ranks -/

theorem rank_inj : ∀ (l l' : List Char), (∀ c ∈ l, c ∈ alphabet) → (∀ c ∈ l', c ∈ alphabet) → rank l = rank l' → l = l'
  | [], [], _, _, _ => rfl
  | [], _ :: _, _, _, h => by simp only [rank] at h; omega
  | _ :: _, [], _, _, h => by simp only [rank] at h; omega
  | a :: l, b :: l', h1, h2, h => by
    have ha := List.idxOf_lt_length_of_mem (h1 a List.mem_cons_self)
    have hb := List.idxOf_lt_length_of_mem (h2 b List.mem_cons_self)
    have hl : alphabet.length = 62 := by decide
    simp only [rank] at h
    have e1 : alphabet.idxOf a = alphabet.idxOf b := by omega
    have e2 : rank l = rank l' := by omega
    rw [rank_inj l l' (fun c hc => h1 c (List.mem_cons_of_mem _ hc)) (fun c hc => h2 c (List.mem_cons_of_mem _ hc)) e2]
    have g1 := List.getElem_idxOf ha
    have g2 := List.getElem_idxOf hb
    simp only [e1] at g1
    rw [g1.symm.trans g2]

theorem rank_length : ∀ (l l' : List Char), (∀ c ∈ l', c ∈ alphabet) → l'.length < l.length → rank l' < rank l
  | [], l', _, h => by simp at h
  | a :: l, [], _, _ => by simp only [rank]; omega
  | a :: l, b :: l', h1, h => by
    have := rank_length l l' (fun c hc => h1 c (List.mem_cons_of_mem _ hc)) (by simpa using h)
    have hb := List.idxOf_lt_length_of_mem (h1 b List.mem_cons_self)
    have hl : alphabet.length = 62 := by decide
    simp only [rank]
    omega

theorem gen_blen {n : List Char} (h : GenName n) : blen n = 2 + (n.drop 2).length := by
  obtain ⟨l, rfl, -, h2⟩ := h
  have hb : ∀ l : List Char, (∀ c ∈ l, c ∈ alphabet) → blen l = l.length := by
    intro l
    induction l with
    | nil => intro _; rfl
    | cons c l ih =>
      intro hl
      have : ∀ c ∈ alphabet, c.utf8Size = 1 := by decide +kernel
      rw [blen_cons, ih fun d hd => hl d (by simp [hd]), this c (hl c (by simp))]; simp; omega
  rw [blen_cons, blen_cons, hb l h2, show ('r' : Char).utf8Size = 1 from rfl, show ('_' : Char).utf8Size = 1 from rfl]
  simp only [List.drop_succ_cons, List.drop_zero]
  omega

theorem gen_word {n : List Char} (h : GenName n) : ∀ c ∈ n.drop 2, c ∈ alphabet := by
  obtain ⟨l, rfl, -, h2⟩ := h
  exact h2

theorem gen_inj {n n' : List Char} (h : GenName n) (h' : GenName n') (e : nameRank n = nameRank n') : n = n' := by
  have := rank_inj _ _ (gen_word h) (gen_word h') e
  obtain ⟨l, rfl, -⟩ := h
  obtain ⟨l', rfl, -⟩ := h'
  simp only [List.drop_succ_cons, List.drop_zero] at this
  rw [this]

/-- Names that come later are not shorter. -/
theorem gen_mono {n n' : List Char} (h : GenName n) (h' : GenName n') (e : nameRank n ≤ nameRank n') : blen n ≤ blen n' := by
  rw [gen_blen h, gen_blen h']
  refine Nat.add_le_add_left (Nat.le_of_not_lt fun hlt => ?_) 2
  have := rank_length _ _ (gen_word h') hlt
  unfold nameRank at e
  omega

/-! ## A loop that finds nothing -/

/-- Nothing is replaced if a literal with a name is only there where it is declared, and no other literal is worth the first name. -/
theorem aggLoop_still (vars : Vars) (ts : List Token) (hv : ∀ s v w, vars.values s = some (v, w) → ∀ p, ts[p]? = some (.str s) → p = w)
    (nl : Nat) : ∀ (us : List Token) (k : Nat) (st : Agg), ts.drop k = us → st.validated = [] → st.toReplace = [] → blen st.gen.toStr = nl →
    (∀ s m, vars.values s = none → 2 ≤ m → m ≤ (st.strs s).length + us.count (.str s) → worthIt m (blen s) nl = false) →
    ∃ st', aggLoop vars k us st = .ok st' ∧ st'.validated = [] ∧ st'.toReplace = [] := by
  intro us
  induction us with
  | nil => intro k st _ h1 h2 _ _; exact ⟨st, rfl, h1, h2⟩
  | cons t us ih =>
    intro k st hk h1 h2 h3 h4
    have hget : ts[k]? = some t := by
      have := congrArg List.head? hk
      rw [List.head?_drop] at this
      simpa using this
    have hk' : ts.drop (k + 1) = us := by
      rw [← List.drop_drop, hk]; rfl
    rw [aggLoop]
    cases hs : t.getStr with
    | none =>
      refine ih (k + 1) st hk' h1 h2 h3 fun s m h0 hm1 hm2 => h4 s m h0 hm1 (Nat.le_trans hm2 ?_)
      rw [List.count_cons]; omega
    | some s =>
      have ht : t = .str s := by cases t <;> simp [Token.getStr] at hs; rw [hs]
      subst ht
      cases hval : vars.values s with
      | some vw =>
        obtain ⟨v, w⟩ := vw
        have := hv s v w hval k hget
        simp only [hval, this, ne_eq, not_true_eq_false, if_false]
        subst this
        refine ih (k + 1) st hk' h1 h2 h3 fun s m h0 hm1 hm2 => h4 s m h0 hm1 (Nat.le_trans hm2 ?_)
        rw [List.count_cons]; omega
      | none =>
        simp only [hval]
        have hw : ((st.strs s ++ [k]).length > 1 && !(st.validated.any fun p => p.1 == s) &&
            worthIt (st.strs s ++ [k]).length (blen s) (blen st.gen.toStr)) = false := by
          by_cases hl : (st.strs s ++ [k]).length > 1
          · rw [h3, h4 s _ hval hl (by rw [List.count_cons]; simp), Bool.and_false]
          · rw [decide_eq_false hl]; rfl
        rw [hw]
        simp only [Bool.false_eq_true, if_false]
        refine ih (k + 1) _ hk' h1 h2 h3 fun y m h0 hm1 hm2 => h4 y m h0 hm1 (Nat.le_trans hm2 ?_)
        by_cases hy : y = s
        · subst hy
          simp only [if_true, List.length_append, List.length_cons, List.length_nil, List.count_cons_self]; omega
        · simp only [hy, if_false, List.count_cons]; omega

/-- So the tokens stay as they are. -/
theorem aggregate_still (ts : List Token) (sep : Option Token) {vars : Vars} (h0 : getVariablesName ts = .ok vars)
    (hv : ∀ s v w, vars.values s = some (v, w) → ∀ p, ts[p]? = some (.str s) → p = w) {g : Gen}
    (hg : freeName vars.names (vars.names.length + 1) (Gen.new ['r', '_'] 2) = .ok g)
    (hw : ∀ s m, vars.values s = none → 2 ≤ m → m ≤ ts.count (.str s) → worthIt m (blen s) (blen g.toStr) = false) :
    aggregateStrings ts sep = .ok (sep.toList ++ ts) := by
  obtain ⟨st, h1, h2, h3⟩ := aggLoop_still vars ts hv (blen g.toStr) ts 0 { gen := g } rfl rfl rfl rfl
    (fun s m hn hm1 hm2 => hw s m hn hm1 (by simpa using hm2))
  unfold aggregateStrings
  rw [h0]
  simp only [Out.bind_ok, hg, h1, h2, h3]
  rfl

/-! ## Declarations that were read -/

/-- `,n=s`, again and again. -/
def moreRead (D : List (List Char × List Char)) : List Token :=
  D.flatMap fun p => [.char .comma, .other p.2, .op .equal, .str p.1]

/-- The tokens of `declare D` after they were written and read. -/
def declareRead : List (List Char × List Char) → List Token
  | [] => []
  | (s, n) :: D => .keyword .kVar :: .other n :: .op .equal :: .str s :: (moreRead D ++ [.char .semiColon])

/-- A token of the script after it was written and read. -/
def readTok : Token → Token
  | .createdVar n => .other n
  | t => t

theorem getStr_some' {t : Token} {s : List Char} (h : t.getStr = some s) : t = .str s := by
  cases t <;> simp [Token.getStr] at h; rw [h]

/-- What stands in the place of a token: the token itself, or a name for a literal. -/
theorem read_cases {ts : List Token} {vars : Vars} {D : List (List Char × List Char)} (hv : VarsOk ts vars) {i : Nat} {t : Token}
    (ht : readTok t = t) :
    (readTok (aggToken ts vars D i t) = t ∧
      ∀ s, t = .str s → (∃ v, vars.values s = some (v, i)) ∨ (vars.values s = none ∧ s ∉ D.map Prod.fst)) ∨
    ∃ s n, t = .str s ∧ readTok (aggToken ts vars D i t) = .other n ∧
      ((vars.values s = none ∧ (s, n) ∈ D ∧ aggToken ts vars D i t = .createdVar n) ∨
        ∃ v w, vars.values s = some (v, w) ∧ i ≠ w ∧ ts[v]? = some (.other n) ∧ aggToken ts vars D i t = .other n) := by
  unfold aggToken
  cases hs : t.getStr with
  | none => exact .inl ⟨ht, fun s e => by subst e; cases hs⟩
  | some s =>
    obtain rfl := getStr_some' hs
    simp only
    cases hval : vars.values s with
    | some vw =>
      obtain ⟨v, w⟩ := vw
      simp only
      by_cases hw : i = w
      · rw [if_pos hw]
        refine .inl ⟨rfl, fun y e => ?_⟩
        cases e
        exact .inl ⟨v, by rw [hval, hw]⟩
      · rw [if_neg hw]
        obtain ⟨n, e1, -⟩ := hv.value s v w hval
        rw [e1]
        exact .inr ⟨s, n, rfl, rfl, .inr ⟨v, w, hval, hw, e1, rfl⟩⟩
    | none =>
      simp only [renamed, hs]
      cases hl : D.lookup s with
      | some n =>
        refine .inr ⟨s, n, rfl, rfl, .inl ⟨hval, ?_, rfl⟩⟩
        obtain ⟨l1, l2, h1, -⟩ := List.lookup_eq_some_iff.1 hl
        simp [h1]
      | none =>
        refine .inl ⟨rfl, fun y e => ?_⟩
        cases e
        refine .inr ⟨hval, fun hm => ?_⟩
        obtain ⟨p, hp, he⟩ := List.mem_map.1 hm
        have := List.lookup_eq_none_iff.1 hl p hp
        simp [he] at this

/-- An assignment to a name is one of the new declarations, or one of the script. -/
private theorem assigned_more {bt : List Token} {x s : List Char} : ∀ (D : List (List Char × List Char)) (i : Nat),
    (moreRead D ++ .char .semiColon :: bt)[i]? = some (.other x) → (moreRead D ++ .char .semiColon :: bt)[i + 1]? = some (.op .equal) →
    (moreRead D ++ .char .semiColon :: bt)[i + 2]? = some (.str s) →
    s ∈ D.map Prod.fst ∨ ∃ j, bt[j]? = some (.other x) ∧ bt[j + 1]? = some (.op .equal) ∧ bt[j + 2]? = some (.str s)
  | [], 0, h, _, _ => by simp [moreRead] at h
  | [], i + 1, h1, h2, h3 => by
    simp only [moreRead, List.flatMap_nil, List.nil_append, List.getElem?_cons_succ] at h1 h2 h3
    exact .inr ⟨i, h1, h2, h3⟩
  | p :: D, 0, h, _, _ => by simp [moreRead] at h
  | p :: D, 1, _, _, h => by
    simp [moreRead] at h
    exact .inl (by simp [h])
  | p :: D, 2, h, _, _ => by simp [moreRead] at h
  | p :: D, 3, h, _, _ => by simp [moreRead] at h
  | p :: D, i + 4, h1, h2, h3 => by
    rcases assigned_more D i h1 h2 h3 with h | h
    · exact .inl (List.mem_cons_of_mem _ h)
    · exact .inr h

theorem assigned {bt : List Token} {x s : List Char} (D : List (List Char × List Char)) (i : Nat)
    (h1 : (declareRead D ++ bt)[i]? = some (.other x)) (h2 : (declareRead D ++ bt)[i + 1]? = some (.op .equal))
    (h3 : (declareRead D ++ bt)[i + 2]? = some (.str s)) :
    s ∈ D.map Prod.fst ∨ ∃ j, bt[j]? = some (.other x) ∧ bt[j + 1]? = some (.op .equal) ∧ bt[j + 2]? = some (.str s) := by
  cases D with
  | nil => exact .inr ⟨i, h1, h2, h3⟩
  | cons p D =>
    obtain ⟨s', n⟩ := p
    simp only [declareRead, List.cons_append, List.append_assoc, List.nil_append] at h1 h2 h3
    match i, h1, h2, h3 with
    | 0, h1, _, _ => simp at h1
    | 1, _, _, h3 =>
      simp at h3
      exact .inl (by simp [h3])
    | 2, h1, _, _ => simp at h1
    | 3, h1, _, _ => simp at h1
    | i + 4, h1, h2, h3 =>
      rcases assigned_more D i h1 h2 h3 with h | h
      · exact .inl (List.mem_cons_of_mem _ h)
      · exact .inr h

theorem moreRead_count (D : List (List Char × List Char)) (s : List Char) : (moreRead D).count (.str s) = (D.map Prod.fst).count s := by
  induction D with
  | nil => rfl
  | cons p D ih =>
    rw [moreRead, List.flatMap_cons, List.count_append, List.map_cons, List.count_cons]
    rw [moreRead] at ih
    rw [ih]
    simp [List.count_cons]
    omega

theorem declareRead_count (D : List (List Char × List Char)) (s : List Char) : (declareRead D).count (.str s) = (D.map Prod.fst).count s := by
  cases D with
  | nil => rfl
  | cons p D =>
    obtain ⟨s', n⟩ := p
    simp only [declareRead, List.map_cons, List.count_cons, List.count_append, moreRead_count, List.count_nil]
    simp

theorem declareRead_split {D : List (List Char × List Char)} {s n : List Char} (h : (s, n) ∈ D) :
    ∃ A k C, declareRead D = A ++ k :: .other n :: .op .equal :: .str s :: C ∧ (k = .char .comma ∨ k = .keyword .kVar) := by
  cases D with
  | nil => cases h
  | cons p D =>
    obtain ⟨s', n'⟩ := p
    rcases List.mem_cons.1 h with h | h
    · cases h
      exact ⟨[], _, _, rfl, .inr rfl⟩
    · obtain ⟨D1, D2, rfl⟩ := List.append_of_mem h
      refine ⟨.keyword .kVar :: .other n' :: .op .equal :: .str s' :: moreRead D1, .char .comma, moreRead D2 ++ [.char .semiColon], ?_, .inl rfl⟩
      simp [declareRead, moreRead]

theorem declareRead_useful {D : List (List Char × List Char)} {t : Token} (h : t ∈ declareRead D) : useless t = false := by
  cases D with
  | nil => cases h
  | cons p D =>
    obtain ⟨s, n⟩ := p
    simp only [declareRead, moreRead, List.cons_append, List.mem_cons, List.mem_append, List.mem_flatMap, List.not_mem_nil, or_false] at h
    rcases h with rfl | rfl | rfl | rfl | ⟨p, -, rfl | rfl | rfl | rfl⟩ | rfl <;> rfl

/-! ## Without blanks and comments -/

private theorem gap_useless' {t : Token} (h : gapToken t = true) : useless t = true := by
  cases t with
  | char c => cases c <;> first | rfl | cases h
  | _ => first | rfl | cases h

private theorem all_none {p : Token → Bool} {ts : List Token} {i j : Nat} (hp : ∀ t ∈ ts, p t = false) (hij : i ≤ j) (h : All p ts i j) :
    i = j := by
  refine Nat.le_antisymm hij (Nat.le_of_not_lt fun hlt => ?_)
  obtain ⟨t, h1, h2⟩ := h i (Nat.le_refl _) hlt
  rw [hp t (List.mem_of_getElem? h1)] at h2
  cases h2

theorem declares_next {ts : List Token} (hu : ∀ t ∈ ts, useless t = false) {n v : Nat} (h : Declares ts n (some v)) :
    ts[n + 1]? = some (.op .equal) ∧ v = n + 2 := by
  obtain ⟨-, e, h1, h2, h3, h4, h5, -⟩ := h
  have hg : ∀ t ∈ ts, gapToken t = false := by
    intro t ht
    cases hx : gapToken t with
    | false => rfl
    | true =>
      have := gap_useless' hx
      rw [hu t ht] at this
      cases this
  obtain rfl := all_none hg h1 h2
  have := all_none hu h4 h5
  exact ⟨h3, this.symm⟩

theorem count_twice : ∀ (l : List Token) (a : Token) (i j : Nat), i ≠ j → l[i]? = some a → l[j]? = some a → 2 ≤ l.count a
  | [], _, _, _, _, h, _ => by simp at h
  | x :: l, a, 0, 0, h, _, _ => absurd rfl h
  | x :: l, a, 0, j + 1, _, h1, h2 => by
    simp only [List.getElem?_cons_zero, Option.some.injEq, List.getElem?_cons_succ] at h1 h2
    subst h1
    have := List.count_pos_iff.2 (List.mem_of_getElem? h2)
    rw [List.count_cons_self]; omega
  | x :: l, a, i + 1, 0, _, h1, h2 => by
    simp only [List.getElem?_cons_zero, Option.some.injEq, List.getElem?_cons_succ] at h1 h2
    subst h2
    have := List.count_pos_iff.2 (List.mem_of_getElem? h1)
    rw [List.count_cons_self]; omega
  | x :: l, a, i + 1, j + 1, h, h1, h2 => by
    simp only [List.getElem?_cons_succ] at h1 h2
    have := count_twice l a i j (by omega) h1 h2
    rw [List.count_cons]; omega

/-- No literal is assigned to. -/
def NotAssigned (ts : List Token) : Prop := ∀ (i : Nat) s, ts[i]? = some (.str s) → ts[i + 1]? ≠ some (.op .equal)

/-- Names that begin with `r_` are only assigned to behind `var`, `let` or a comma. -/
def OnlyListed (ts : List Token) : Prop := ∀ (i : Nat) name, ts[i]? = some (.other name) → ['r', '_'] <+: name →
  ts[i + 1]? = some (.op .equal) →
  ∃ j, i = j + 1 ∧ (ts[j]? = some (.char .comma) ∨ ts[j]? = some (.keyword .kLet) ∨ ts[j]? = some (.keyword .kVar))

theorem all_empty (p : Token → Bool) (ts : List Token) (i : Nat) : All p ts i i := fun k h1 h2 => by omega

theorem count_le_one : ∀ (l : List Token) (a : Token), (∀ i j : Nat, l[i]? = some a → l[j]? = some a → i = j) → l.count a ≤ 1
  | [], _, _ => by simp
  | x :: l, a, h => by
    rw [List.count_cons]
    by_cases hx : x = a
    · subst hx
      have : l.count x = 0 := by
        refine List.count_eq_zero.2 fun hm => ?_
        obtain ⟨j, hj⟩ := List.getElem?_of_mem hm
        have := h 0 (j + 1) rfl hj
        omega
      simp [this]
    · have := count_le_one l a fun i j h1 h2 => by
        have := h (i + 1) (j + 1) h1 h2
        omega
      simp [hx, this]

theorem count_le : ∀ (l l' : List Token) (a : Token), l.length = l'.length → (∀ i : Nat, l[i]? = some a → l'[i]? = some a) →
    l.count a ≤ l'.count a
  | [], _, _, _, _ => by simp
  | x :: l, [], _, h, _ => by simp at h
  | x :: l, y :: l', a, h, h' => by
    have := count_le l l' a (by simpa using h) fun i hi => h' (i + 1) hi
    rw [List.count_cons, List.count_cons]
    by_cases hx : x = a
    · subst hx
      have := h' 0 rfl
      simp only [List.getElem?_cons_zero, Option.some.injEq] at this
      subst this
      simp; assumption
    · simp [hx]; omega

end Verif.Js
