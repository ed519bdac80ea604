import Verif.Proofs.JsAggSize
/-!
# Facts about `aggregate_strings_into_array`
-/
set_option linter.unusedSimpArgs false
namespace Verif.Js
open Spec.JsAgg

theorem inner_quoted {s : List Char} (h : Quoted s) : inner s = .ok (content s) := by
  obtain ⟨q, c, q', rfl, h1, h2⟩ := h
  have hc : content (q :: (c ++ [q'])) = c := by simp [content]
  rw [hc]
  unfold inner
  have hb : blen (q :: (c ++ [q'])) = blen c + 2 := by simp [h1, h2]; omega
  rw [hb, if_neg (by omega)]
  unfold sub
  rw [slice_append' (s := q :: (c ++ [q'])) (p := [q]) (m := c) (t := [q']) (by simp) (by simp [h1]) (by simp [h1]; omega)]
  rfl

/-- The content of the literal at a position. -/
def litAt (ts : List Token) (p : Nat) : Option (List Char) := (ts[p]?.bind Token.getStr).map content

theorem litAt_some {ts : List Token} {p : Nat} {c : List Char} : litAt ts p = some c ↔ ∃ s, ts[p]? = some (.str s) ∧ content s = c := by
  unfold litAt
  cases h : ts[p]? with
  | none => simp
  | some t => cases t <;> simp [Token.getStr]

/-! ## The array that is there already -/

structure OldInv (ts : List Token) (ps : List Nat) (O : List (List Char)) (st : Arr) : Prop where
  strs : ∀ c e, st.strs c = some e → e.poss = [] ∧ e.create = false ∧ O[e.index]? = some c
  mem : ∀ c, c ∈ O → st.strs c ≠ none
  validated : ∀ c, c ∈ st.validated ↔ c ∈ O
  nodup : st.validated.Nodup
  ignore : ∀ p, p ∈ st.ignore ↔ p ∈ ps ∧ litAt ts p ≠ none
  arrayPos : st.arrayPos = O.length

theorem oldLoop_spec (ts : List Token) : ∀ (ps done : List Nat) (O : List (List Char)) (st : Arr),
    (∀ p ∈ ps, p < ts.length) → (∀ p ∈ ps, ∀ s, ts[p]? = some (.str s) → Quoted s) → OldInv ts done O st →
    ∃ st', oldLoop ts ps st = .ok st' ∧ OldInv ts (done ++ ps) (O ++ ps.filterMap (litAt ts)) st' := by
  intro ps
  induction ps with
  | nil =>
    intro done O st _ _ hinv
    exact ⟨st, rfl, by simpa using hinv⟩
  | cons p ps ih =>
    intro done O st hlt hq hinv
    have hq' := fun q h => hq q (List.mem_cons_of_mem p h)
    have hp := hlt p List.mem_cons_self
    rw [oldLoop, List.getElem?_eq_getElem hp]
    simp only
    cases hs : ts[p].getStr with
    | none =>
      have hl : litAt ts p = none := by simp [litAt, List.getElem?_eq_getElem hp, hs]
      simp only
      obtain ⟨st', h1, h2⟩ := ih (done ++ [p]) O st (fun q h => hlt q (List.mem_cons_of_mem _ h)) hq'
        ⟨hinv.strs, hinv.mem, hinv.validated, hinv.nodup, by
          intro q
          rw [hinv.ignore q]
          constructor
          · rintro ⟨a, b⟩; exact ⟨by simp [a], b⟩
          · rintro ⟨a, b⟩
            rcases List.mem_append.1 a with a | a
            · exact ⟨a, b⟩
            · simp at a; subst a; exact absurd hl b, hinv.arrayPos⟩
      refine ⟨st', h1, ?_⟩
      simpa [List.filterMap_cons, hl] using h2
    | some s =>
      have ht : ts[p] = .str s := by
        generalize ts[p] = t at hs
        cases t <;> simp [Token.getStr] at hs; rw [hs]
      have hl : litAt ts p = some (content s) := by simp [litAt, List.getElem?_eq_getElem hp, hs]
      simp only
      rw [inner_quoted (hq p List.mem_cons_self s (by rw [List.getElem?_eq_getElem hp, ht]))]
      simp only [Out.bind_ok]
      obtain ⟨st', h1, h2⟩ := ih (done ++ [p]) (O ++ [content s])
        { strs := fun x => if x = content s then some ⟨st.arrayPos, [], false⟩ else st.strs x
          validated := if st.validated.contains (content s) then st.validated else content s :: st.validated
          ignore := p :: st.ignore
          arrayPos := st.arrayPos + 1 } (fun q h => hlt q (List.mem_cons_of_mem _ h)) hq'
        (by
          refine ⟨?_, ?_, ?_, ?_, ?_, ?_⟩
          · intro c e h
            simp only at h
            by_cases hc : c = content s
            · rw [if_pos hc] at h
              cases h
              refine ⟨rfl, rfl, ?_⟩
              simp [hinv.arrayPos, hc]
            · rw [if_neg hc] at h
              obtain ⟨a1, a2, a3⟩ := hinv.strs c e h
              refine ⟨a1, a2, ?_⟩
              have : e.index < O.length := by
                refine Nat.lt_of_not_le fun hle => ?_
                rw [List.getElem?_eq_none hle] at a3; cases a3
              rw [List.getElem?_append_left this]; exact a3
          · intro c hc
            simp only
            by_cases hcs : c = content s
            · rw [if_pos hcs]; simp
            · rw [if_neg hcs]
              refine hinv.mem c ?_
              rcases List.mem_append.1 hc with h | h
              · exact h
              · simp at h; exact absurd h hcs
          · intro c
            simp only
            by_cases hcs : st.validated.contains (content s) = true
            · rw [if_pos hcs]
              have : content s ∈ O := (hinv.validated _).1 (by simpa using hcs)
              rw [hinv.validated c]
              constructor
              · intro h; simp [h]
              · intro h
                rcases List.mem_append.1 h with h | h
                · exact h
                · simp at h; subst h; exact this
            · rw [if_neg hcs]
              simp only [List.mem_cons, List.mem_append, hinv.validated c, List.mem_singleton, List.not_mem_nil, or_false]
              exact Or.comm
          · simp only
            by_cases hcs : st.validated.contains (content s) = true
            · rw [if_pos hcs]; exact hinv.nodup
            · rw [if_neg hcs]
              exact List.nodup_cons.2 ⟨by simpa using hcs, hinv.nodup⟩
          · intro q
            simp only [Arr.put, List.mem_cons, List.mem_append, hinv.ignore q, List.not_mem_nil, or_false]
            constructor
            · rintro (rfl | ⟨a, b⟩)
              · exact ⟨.inr rfl, by rw [hl]; simp⟩
              · exact ⟨.inl a, b⟩
            · rintro ⟨a | a, b⟩
              · exact .inr ⟨a, b⟩
              · exact .inl a
          · simp [Arr.put, hinv.arrayPos])
      refine ⟨st', h1, ?_⟩
      simpa [List.filterMap_cons, hl] using h2

/-! ## The loop over the tokens -/

/-- The positions below `k` that are considered for the content `c`. -/
def seen (ts : List Token) (ok : Nat → Bool) (c : List Char) (k : Nat) : List Nat :=
  (List.range k).filter fun p => ok p && decide (litAt ts p = some c)

theorem seen_succ (ts : List Token) (ok : Nat → Bool) (c : List Char) (k : Nat) :
    seen ts ok c (k + 1) = if ok k = true ∧ litAt ts k = some c then seen ts ok c k ++ [k] else seen ts ok c k := by
  unfold seen
  rw [List.range_succ, List.filter_append, List.filter_cons]
  by_cases h1 : ok k = true <;> by_cases h2 : litAt ts k = some c <;> simp [h1, h2]

theorem mem_seen {ts : List Token} {ok : Nat → Bool} {c : List Char} {k p : Nat} :
    p ∈ seen ts ok c k ↔ p < k ∧ ok p = true ∧ litAt ts p = some c := by
  unfold seen
  simp [List.mem_filter]

/-- `R` are the new contents, the latest first. -/
structure ArrInv (ts : List Token) (name : List Char) (ok : Nat → Bool) (O V : List (List Char)) (k : Nat) (st : Arr)
    (R : List (List Char)) : Prop where
  some_ : ∀ c e, st.strs c = some e → e.poss = seen ts ok c k ∧ e.create = !decide (c ∈ O) ∧ (c ∈ O → O[e.index]? = some c)
  none_ : ∀ c, st.strs c = none → seen ts ok c k = [] ∧ c ∉ O
  new : ∀ r1 c r2, R = r1 ++ c :: r2 → ∃ e, st.strs c = some e ∧ e.index = O.length + r2.length ∧ c ∉ O ∧ c ∉ r2 ∧
    ∃ m, 2 ≤ m ∧ m ≤ (seen ts ok c k).length ∧ arrayWorthIt m (blen c) (blen name) (blen (natDisplay (O.length + r2.length))) = true
  validated : st.validated = R ++ V
  arrayPos : st.arrayPos = O.length + R.length
  left : ∀ c, c ∉ R → c ∉ O → 2 ≤ (seen ts ok c k).length → ∃ q, q ≤ O.length + R.length ∧
    arrayWorthIt (seen ts ok c k).length (blen c) (blen name) (blen (natDisplay q)) = false

theorem seen_length_mono (ts : List Token) (ok : Nat → Bool) (c : List Char) (k : Nat) :
    (seen ts ok c k).length ≤ (seen ts ok c (k + 1)).length := by
  rw [seen_succ]; split <;> simp

theorem arrLoop_spec (ts : List Token) (name : List Char) (filter : Nat → Bool)
    (O V : List (List Char)) (hV : ∀ c, c ∈ V ↔ c ∈ O) (ig : List Nat) (ok : Nat → Bool)
    (hok : ∀ p, ok p = (!ig.contains p && filter p)) (hq : ∀ p s, ts[p]? = some (.str s) → filter p = true → Quoted s) :
    ∀ (us : List Token) (k : Nat) (st : Arr) (R : List (List Char)), ts.drop k = us → k ≤ ts.length → st.ignore = ig →
      ArrInv ts name ok O V k st R →
      ∃ st' R', arrLoop name filter k us st = .ok st' ∧ ArrInv ts name ok O V ts.length st' R' := by
  intro us
  induction us with
  | nil =>
    intro k st R hd hk hi hinv
    have : k = ts.length := by
      have := List.drop_eq_nil_iff.1 hd
      omega
    subst this
    exact ⟨st, R, rfl, hinv⟩
  | cons t us ih =>
    intro k st R hd hk hi hinv
    have htk : ts[k]? = some t := by
      have := congrArg (fun l => l[0]?) hd
      simpa using this
    have hlt : k < ts.length := by
      refine Nat.lt_of_not_le fun hle => ?_
      rw [List.getElem?_eq_none hle] at htk; cases htk
    have hd' : ts.drop (k + 1) = us := by rw [← List.tail_drop, hd]; rfl
    -- nothing is seen at `k`
    have skip : (∀ c, ¬(ok k = true ∧ litAt ts k = some c)) → ArrInv ts name ok O V (k + 1) st R := by
      intro h
      have hs : ∀ c, seen ts ok c (k + 1) = seen ts ok c k := fun c => by rw [seen_succ, if_neg (h c)]
      refine ⟨?_, ?_, ?_, hinv.validated, hinv.arrayPos, fun c => by rw [hs]; exact hinv.left c⟩
      · intro c e he; rw [hs]; exact hinv.some_ c e he
      · intro c he; rw [hs]; exact hinv.none_ c he
      · intro r1 c r2 hR; rw [hs]; exact hinv.new r1 c r2 hR
    rw [arrLoop, hi]
    by_cases hig : ig.contains k = true
    · rw [if_pos hig]
      exact ih (k + 1) st R hd' hlt hi (skip fun c h => by rw [hok, hig] at h; simp at h)
    · rw [if_neg hig]
      cases hs : t.getStr with
      | none =>
        refine ih (k + 1) st R hd' hlt hi (skip fun c h => ?_)
        have := h.2
        simp [litAt, htk, hs] at this
      | some s =>
        have ht : t = .str s := by cases t <;> simp [Token.getStr] at hs; rw [hs]
        subst ht
        simp only
        have hl : litAt ts k = some (content s) := by simp [litAt, htk, hs]
        by_cases hf : filter k = true
        · rw [hf]
          simp only [Bool.not_true, Bool.false_eq_true, if_false]
          rw [inner_quoted (hq k s htk hf)]
          simp only [Out.bind_ok]
          have hokk : ok k = true := by rw [hok, hf]; simp only [Bool.and_true, Bool.not_eq_true']; exact Bool.eq_false_iff.2 hig
          generalize content s = c at hl
          have hself : seen ts ok c (k + 1) = seen ts ok c k ++ [k] := by rw [seen_succ, if_pos ⟨hokk, hl⟩]
          have hother : ∀ d, d ≠ c → seen ts ok d (k + 1) = seen ts ok d k := by
            intro d hd
            rw [seen_succ, if_neg]
            rintro ⟨-, h⟩
            rw [hl] at h; cases h; exact hd rfl
          generalize hx : (st.strs c).getD ⟨0, [], true⟩ = x
          have hxp : x.poss = seen ts ok c k ∧ x.create = !decide (c ∈ O) ∧ (c ∈ O → O[x.index]? = some c) := by
            cases hsc : st.strs c with
            | none =>
              rw [hsc] at hx; simp only [Option.getD_none] at hx; subst hx
              obtain ⟨h1, h2⟩ := hinv.none_ c hsc
              exact ⟨h1.symm, by simp [h2], fun h => absurd h h2⟩
            | some e =>
              rw [hsc] at hx; simp only [Option.getD_some] at hx; subst hx
              exact hinv.some_ c e hsc
          obtain ⟨hx1, hx2, hx3⟩ := hxp
          rw [hx1, ← hself]
          by_cases hc : (decide ((seen ts ok c (k + 1)).length > 1) && !st.validated.contains c &&
              arrayWorthIt (seen ts ok c (k + 1)).length (blen c) (blen name) (blen (natDisplay st.arrayPos))) = true
          · rw [if_pos hc]
            simp only [Bool.and_eq_true, Bool.not_eq_true', decide_eq_true_eq] at hc
            obtain ⟨⟨hc1, hc2⟩, hc3⟩ := hc
            have hcv : c ∉ st.validated := by
              intro h
              have : st.validated.contains c = true := by simpa using h
              rw [hc2] at this; cases this
            rw [hinv.validated, List.mem_append, not_or] at hcv
            have hcO : c ∉ O := fun h => hcv.2 ((hV c).2 h)
            refine ih (k + 1) _ (c :: R) hd' hlt hi ⟨?_, ?_, ?_, ?_, ?_, ?_⟩
            · intro d e he
              simp only [Arr.put] at he
              by_cases hdc : d = c
              · rw [if_pos hdc] at he
                cases he
                subst hdc
                exact ⟨rfl, hx2, fun h => absurd h hcO⟩
              · rw [if_neg hdc] at he
                rw [hother d hdc]; exact hinv.some_ d e he
            · intro d he
              simp only [Arr.put] at he
              by_cases hdc : d = c
              · rw [if_pos hdc] at he; cases he
              · rw [if_neg hdc] at he
                rw [hother d hdc]; exact hinv.none_ d he
            · intro r1 d r2 hR
              cases r1 with
              | nil =>
                cases hR
                refine ⟨⟨st.arrayPos, seen ts ok c (k + 1), x.create⟩, ?_, ?_, hcO, hcv.1, _, hc1, Nat.le_refl _, ?_⟩
                · simp only [Arr.put, if_pos]
                · exact hinv.arrayPos
                · rw [← hinv.arrayPos]; exact hc3
              | cons a r1 =>
                simp only [List.cons_append, List.cons.injEq] at hR
                obtain ⟨e, e1, e2, e3, e4, m, e5, e6, e7⟩ := hinv.new r1 d r2 hR.2
                have hdc : d ≠ c := by
                  rintro rfl
                  exact hcv.1 (by rw [hR.2]; simp)
                refine ⟨e, ?_, e2, e3, e4, m, e5, Nat.le_trans e6 (seen_length_mono ..), e7⟩
                simp only [Arr.put, if_neg hdc]
                exact e1
            · simp [Arr.put, hinv.validated]
            · simp [Arr.put, hinv.arrayPos]; omega
            · intro d hd hdO hd2
              simp only [List.mem_cons, not_or] at hd
              rw [hother d hd.1] at hd2 ⊢
              obtain ⟨q, h1, h2⟩ := hinv.left d hd.2 hdO hd2
              exact ⟨q, by simp; omega, h2⟩
          · rw [if_neg hc]
            refine ih (k + 1) _ R hd' hlt hi ⟨?_, ?_, ?_, hinv.validated, hinv.arrayPos, fun d hd hdO hd2 => ?_⟩
            rotate_right 1
            · by_cases hdc : d = c
              · subst hdc
                refine ⟨st.arrayPos, Nat.le_of_eq hinv.arrayPos, Bool.eq_false_iff.2 fun hw => hc ?_⟩
                have hv : st.validated.contains d = false := by
                  rw [hinv.validated, Bool.eq_false_iff]
                  intro h
                  rw [List.contains_iff_mem, List.mem_append] at h
                  rcases h with h | h
                  · exact hd h
                  · exact hdO ((hV d).1 h)
                rw [hw, hv]
                simp; omega
              · rw [hother d hdc] at hd2 ⊢
                exact hinv.left d hd hdO hd2
            · intro d e he
              simp only [Arr.put] at he
              by_cases hdc : d = c
              · rw [if_pos hdc] at he
                cases he
                subst hdc
                exact ⟨rfl, hx2, hx3⟩
              · rw [if_neg hdc] at he
                rw [hother d hdc]; exact hinv.some_ d e he
            · intro d he
              simp only [Arr.put] at he
              by_cases hdc : d = c
              · rw [if_pos hdc] at he; cases he
              · rw [if_neg hdc] at he
                rw [hother d hdc]; exact hinv.none_ d he
            · intro r1 d r2 hR
              obtain ⟨e, e1, e2, e3, e4, m, e5, e6, e7⟩ := hinv.new r1 d r2 hR
              by_cases hdc : d = c
              · subst hdc
                rw [e1] at hx
                simp only [Option.getD_some] at hx
                subst hx
                refine ⟨{ e with poss := seen ts ok d (k + 1) }, ?_, ?_, e3, e4, m, e5, Nat.le_trans e6 (seen_length_mono ..), e7⟩
                · simp only [Arr.put, if_pos]
                · exact e2
              · refine ⟨e, ?_, e2, e3, e4, m, e5, Nat.le_trans e6 (seen_length_mono ..), e7⟩
                simp only [Arr.put, if_neg hdc]; exact e1
        · have hf : filter k = false := Bool.eq_false_iff.2 hf
          rw [hf]
          simp only [Bool.not_false, if_true]
          exact ih (k + 1) st R hd' hlt hi (skip fun c h => by rw [hok, hf] at h; simp at h)

/-! ## The plan -/

/-- New contents with their indices, the latest first. -/
def down (b : Nat) : List (List Char) → List (Nat × List Char)
  | [] => []
  | c :: r => (b + r.length, c) :: down b r

theorem insertBy_head {α : Type} {le : α → α → Bool} {a : α} {l : List α} (h : ∀ b ∈ l, le a b = true) : insertBy le a l = a :: l := by
  cases l with
  | nil => rfl
  | cons b l => rw [insertBy, if_pos (h b List.mem_cons_self)]

theorem sort_down (b : Nat) (L : List (Nat × List Char)) (hL : ∀ p ∈ L, p.1 < b) : ∀ R,
    sortBy (fun x y => decide (y.1 ≤ x.1)) (down b R ++ L) = down b R ++ sortBy (fun x y => decide (y.1 ≤ x.1)) L ∧
      ∀ p ∈ down b R, p.1 < b + R.length := by
  intro R
  induction R with
  | nil => exact ⟨rfl, by intro p h; cases h⟩
  | cons c r ih =>
    refine ⟨?_, ?_⟩
    · rw [down, List.cons_append, sortBy, ih.1, insertBy_head]
      · rfl
      · intro p hp
        simp only [decide_eq_true_eq]
        rcases List.mem_append.1 hp with h | h
        · have := ih.2 p h; omega
        · have := hL p ((sortBy_perm _ _).mem_iff.1 h); omega
    · intro p hp
      rcases List.mem_cons.1 hp with rfl | hp
      · simp
      · have := ih.2 p hp; simp; omega

theorem indexed_old (strs : List Char → Option Entry) : ∀ V : List (List Char), (∀ c ∈ V, strs c ≠ none) →
    ∃ L, indexed strs V = .ok L ∧ ∀ i c, (i, c) ∈ L ↔ c ∈ V ∧ ∃ e, strs c = some e ∧ e.index = i := by
  intro V
  induction V with
  | nil => intro _; exact ⟨[], rfl, by simp⟩
  | cons c V ih =>
    intro h
    obtain ⟨L, h1, h2⟩ := ih fun c hc => h c (List.mem_cons_of_mem _ hc)
    rw [indexed]
    cases hs : strs c with
    | none => exact absurd hs (h c List.mem_cons_self)
    | some e =>
      simp only
      rw [h1]
      refine ⟨(e.index, c) :: L, rfl, fun i d => ?_⟩
      simp only [List.mem_cons, h2, Prod.mk.injEq]
      constructor
      · rintro (⟨rfl, rfl⟩ | ⟨a, b⟩)
        · exact ⟨.inl rfl, e, hs, rfl⟩
        · exact ⟨.inr a, b⟩
      · rintro ⟨rfl | a, b⟩
        · obtain ⟨e', e1, e2⟩ := b
          rw [hs] at e1; cases e1
          exact .inl ⟨e2.symm, rfl⟩
        · exact .inr ⟨a, b⟩

theorem indexed_down (strs : List Char → Option Entry) (b : Nat) (V : List (List Char)) (L : List (Nat × List Char))
    (hV : indexed strs V = .ok L) : ∀ R : List (List Char),
    (∀ r1 c r2, R = r1 ++ c :: r2 → ∃ e, strs c = some e ∧ e.index = b + r2.length) →
    indexed strs (R ++ V) = .ok (down b R ++ L) := by
  intro R
  induction R with
  | nil => intro _; exact hV
  | cons c r ih =>
    intro h
    obtain ⟨e, e1, e2⟩ := h [] c r rfl
    rw [List.cons_append, indexed, e1]
    simp only
    rw [ih fun r1 d r2 hr => h (c :: r1) d r2 (by rw [hr]; rfl)]
    simp only [Out.bind_ok, e2]
    rfl

/-- The tokens that go into the array, in the order of insertion. -/
def toInsert (noOld : Bool) : List (List Char) → List Token
  | [] => []
  | c :: r => entry c :: ((if r.isEmpty && noOld then [] else [.char .comma]) ++ toInsert noOld r)

theorem toInsert_false (R : List (List Char)) : (toInsert false R).reverse = entriesAfter R.reverse := by
  induction R with
  | nil => rfl
  | cons c r ih => simp [toInsert, ih, entriesAfter]

theorem entries_snoc (l : List (List Char)) (c : List Char) (h : l ≠ []) : entries (l ++ [c]) = entries l ++ [.char .comma, entry c] := by
  induction l with
  | nil => exact absurd rfl h
  | cons a l ih =>
    cases l with
    | nil => rfl
    | cons b l =>
      have := ih (by simp)
      have e : entries (a :: b :: l ++ [c]) = entry a :: .char .comma :: entries (b :: l ++ [c]) := rfl
      rw [e, this]
      rfl

theorem toInsert_true (R : List (List Char)) : (toInsert true R).reverse = entries R.reverse := by
  induction R with
  | nil => rfl
  | cons c r ih =>
    cases r with
    | nil => rfl
    | cons d r =>
      have e : (c :: d :: r).reverse = (d :: r).reverse ++ [c] := by simp
      rw [e, entries_snoc _ _ (by simp), ← ih]
      simp [toInsert]

/-- What is replaced: the positions of the contents in the list. -/
def Planned (name : List Char) (strs : List Char → Option Entry) (L : List (Nat × List Char)) (rep : List (Nat × Token)) : Prop :=
  ∀ p t, (p, t) ∈ rep ↔ ∃ i c e, (i, c) ∈ L ∧ strs c = some e ∧ p ∈ e.poss ∧ t = .createdVar (arrayRef name i)

private theorem planned_cons {name : List Char} {strs : List Char → Option Entry} {L : List (Nat × List Char)} {rep : List (Nat × Token)}
    (h : Planned name strs L rep) (i : Nat) (c : List Char) {e : Entry} (he : strs c = some e) :
    Planned name strs ((i, c) :: L) (e.poss.map (fun p => (p, .createdVar (arrayRef name i))) ++ rep) := by
  intro p t
  rw [List.mem_append, h p t]
  constructor
  · rintro (h | ⟨j, d, e', a, b⟩)
    · obtain ⟨q, hq, he'⟩ := List.mem_map.1 h
      cases he'
      exact ⟨i, c, e, List.mem_cons_self, he, hq, rfl⟩
    · exact ⟨j, d, e', List.mem_cons_of_mem _ a, b⟩
  · rintro ⟨j, d, e', a, b1, b2, b3⟩
    rcases List.mem_cons.1 a with a | a
    · cases a
      rw [he] at b1; cases b1
      exact .inl (List.mem_map.2 ⟨p, b2, by rw [b3]⟩)
    · exact .inr ⟨j, d, e', a, b1, b2, b3⟩

theorem plan_old (name : List Char) (strs : List Char → Option Entry) (noOld : Bool) (eb : Nat) : ∀ L : List (Nat × List Char),
    (∀ i c, (i, c) ∈ L → ∃ e, strs c = some e ∧ e.create = false) →
    ∃ rep, planLoop name strs noOld eb L = .ok (rep, []) ∧ Planned name strs L rep := by
  intro L
  induction L with
  | nil => intro _; exact ⟨[], rfl, by intro p t; simp⟩
  | cons a L ih =>
    intro h
    obtain ⟨i, c⟩ := a
    obtain ⟨rep, h1, h2⟩ := ih fun i c hc => h i c (List.mem_cons_of_mem _ hc)
    obtain ⟨e, he, hc⟩ := h i c List.mem_cons_self
    rw [planLoop, he]
    simp only
    rw [h1]
    simp only [Out.bind_ok, hc, Bool.not_false, if_true]
    exact ⟨_, rfl, planned_cons h2 i c he⟩

theorem plan_new (name : List Char) (strs : List Char → Option Entry) (noOld : Bool) (eb b : Nat) (L : List (Nat × List Char))
    (hL : noOld = true → L = []) (rep0 : List (Nat × Token)) (h0 : planLoop name strs noOld eb L = .ok (rep0, []))
    (h0' : Planned name strs L rep0) : ∀ R : List (List Char), (∀ c ∈ R, ∃ e, strs c = some e ∧ e.create = true) →
    ∃ rep, planLoop name strs noOld eb (down b R ++ L) = .ok (rep, (toInsert noOld R).map fun t => (eb, t)) ∧
      Planned name strs (down b R ++ L) rep := by
  intro R
  induction R with
  | nil => intro _; exact ⟨rep0, h0, h0'⟩
  | cons c r ih =>
    intro h
    obtain ⟨rep, h1, h2⟩ := ih fun c hc => h c (List.mem_cons_of_mem _ hc)
    obtain ⟨e, he, hc⟩ := h c List.mem_cons_self
    rw [down, List.cons_append, planLoop, he]
    simp only
    rw [h1]
    simp only [Out.bind_ok, hc, Bool.not_true, Bool.false_eq_true, if_false]
    have hemp : ((down b r ++ L).isEmpty && noOld) = (r.isEmpty && noOld) := by
      cases noOld with
      | false => simp
      | true =>
        rw [hL rfl]
        cases r <;> rfl
    rw [hemp]
    by_cases hb : (r.isEmpty && noOld) = true
    · rw [if_pos hb]
      refine ⟨_, ?_, planned_cons h2 _ c he⟩
      rw [toInsert, if_pos hb]
      rfl
    · rw [if_neg hb]
      refine ⟨_, ?_, planned_cons h2 _ c he⟩
      rw [toInsert, if_neg hb]
      rfl

theorem replaceAll_spec : ∀ (l : List (Nat × Token)) (ts : List Token), (∀ p t, (p, t) ∈ l → p < ts.length) →
    (∀ p t t', (p, t) ∈ l → (p, t') ∈ l → t = t') →
    ∃ ts', replaceAll l ts = .ok ts' ∧ ts'.length = ts.length ∧ (∀ p t, (p, t) ∈ l → ts'[p]? = some t) ∧
      ∀ i, (∀ t, (i, t) ∉ l) → ts'[i]? = ts[i]? := by
  intro l
  induction l with
  | nil => intro ts _ _; exact ⟨ts, rfl, rfl, by simp, by simp⟩
  | cons a l ih =>
    intro ts h1 h2
    obtain ⟨p, t⟩ := a
    have hp := h1 p t List.mem_cons_self
    rw [replaceAll, setTok, if_pos hp]
    simp only [Out.bind_ok]
    obtain ⟨ts', e1, e2, e3, e4⟩ := ih (ts.set p t) (fun q u hq => by
      rw [List.length_set]; exact h1 q u (List.mem_cons_of_mem _ hq))
      (fun q u u' a b => h2 q u u' (List.mem_cons_of_mem _ a) (List.mem_cons_of_mem _ b))
    refine ⟨ts', e1, by rw [e2, List.length_set], ?_, ?_⟩
    · intro q u hq
      rcases List.mem_cons.1 hq with h | h
      · cases h
        by_cases hin : ∃ u', (p, u') ∈ l
        · obtain ⟨u', hu'⟩ := hin
          have := h2 p t u' List.mem_cons_self (List.mem_cons_of_mem _ hu')
          subst this
          exact e3 p t hu'
        · rw [e4 p fun u' hu' => hin ⟨u', hu'⟩, List.getElem?_set_self hp]
      · exact e3 q u h
    · intro i hi
      rw [e4 i fun u hu => hi u (List.mem_cons_of_mem _ hu), List.getElem?_set_ne]
      rintro rfl
      exact hi t List.mem_cons_self

theorem insertAll_append : ∀ (a b : List (Nat × Token)) (ts : List Token), insertAll (a ++ b) ts = insertAll a ts >>= insertAll b := by
  intro a
  induction a with
  | nil => intro b ts; rfl
  | cons x a ih =>
    intro b ts
    obtain ⟨p, t⟩ := x
    rw [List.cons_append, insertAll, insertAll]
    split
    · exact ih ..
    · rfl

theorem insertAll_same : ∀ (xs : List Token) (p : Nat) (ts : List Token), p ≤ ts.length →
    insertAll (xs.map fun t => (p, t)) ts = .ok (ts.take p ++ xs.reverse ++ ts.drop p) := by
  intro xs
  induction xs with
  | nil => intro p ts _; simp [insertAll]
  | cons x xs ih =>
    intro p ts hp
    rw [List.map_cons, insertAll, if_pos hp, ih p _ (by simp; omega)]
    have hl : (ts.take p).length = p := by simp; omega
    rw [List.take_append_of_le_length (by omega), List.drop_append_of_le_length (by omega),
      List.take_of_length_le (by omega), List.drop_of_length_le (by omega)]
    simp

/-! ## `get_array` -/

theorem arrayScan_bounds (name : List Char) : ∀ (us : List Token) (ph : Phase) (pos : Nat) (ret : List Nat) (vs : List Nat) (eb : Nat),
    arrayScan name ph pos ret us = some (vs, eb) → (∀ p ∈ ret, p < pos) → (∀ p ∈ vs, p < pos + us.length) ∧ eb < pos + us.length := by
  intro us
  induction us with
  | nil => intro ph pos ret vs eb h; cases ph <;> cases h
  | cons t us ih =>
    intro ph pos ret vs eb h hr
    have step : ∀ ph' ret', arrayScan name ph' (pos + 1) ret' us = some (vs, eb) → (∀ p ∈ ret', p < pos + 1) →
        (∀ p ∈ vs, p < pos + (t :: us).length) ∧ eb < pos + (t :: us).length := by
      intro ph' ret' h hr
      obtain ⟨h1, h2⟩ := ih ph' (pos + 1) ret' vs eb h hr
      simp only [List.length_cons]
      exact ⟨fun p hp => by have := h1 p hp; omega, by omega⟩
    have hr' : ∀ p ∈ ret, p < pos + 1 := fun p hp => by have := hr p hp; omega
    cases ph with
    | start => rw [arrayScan.eq_def] at h; simp only at h; split at h <;> exact step _ _ h hr'
    | var => rw [arrayScan.eq_def] at h; simp only at h; split at h <;> exact step _ _ h hr'
    | equal => rw [arrayScan.eq_def] at h; simp only at h; split at h <;> exact step _ _ h hr'
    | array => rw [arrayScan.eq_def] at h; simp only at h; split at h <;> exact step _ _ h hr'
    | values =>
      rw [arrayScan.eq_def] at h; simp only at h
      split at h
      · cases h
        refine ⟨fun p hp => ?_, by simp⟩
        have := hr p (by simpa using hp)
        omega
      · refine step _ _ h ?_
        split
        · exact hr'
        · intro p hp
          rcases List.mem_cons.1 hp with rfl | hp
          · omega
          · exact hr' p hp

/-! ## All together -/

/-- The new token list, from the positions of the values and of the closing bracket of an array that is there already. -/
def assemble (name : List Char) (sep : Option Token) (old : Option (List Nat × Nat)) (N : List (List Char)) (body : List Token) : List Token :=
  match old with
  | some (vs, eb) => body.take eb ++ (if vs = [] then entries N else entriesAfter N) ++ body.drop eb
  | none =>
    if N = [] then body
    else .createdVarDecl ("var ".toList ++ name ++ ['=']) :: .char .openBracket :: entries N ++ [.char .closeBracket, .char .semiColon] ++
      sep.toList ++ body

theorem array_spec (ts : List Token) (name : List Char) (sep : Option Token) (filter : Nat → Bool)
    (hq : ∀ (p : Nat) (s : List Char), ts[p]? = some (.str s) → p ∈ ((getArray ts name).map Prod.fst).getD [] ∨ filter p = true → Quoted s) :
    ∃ (O N : List (List Char)) (body : List Token) (ok : Nat → Bool),
      O = (((getArray ts name).map Prod.fst).getD []).filterMap (litAt ts) ∧
      (∀ p, ok p = true ↔ filter p = true ∧ ¬(p ∈ ((getArray ts name).map Prod.fst).getD [] ∧ litAt ts p ≠ none)) ∧
      aggregateIntoArray ts name sep filter = .ok (assemble name sep (getArray ts name) N body) ∧
      N.Nodup ∧ (∀ c ∈ N, c ∉ O) ∧
      (∀ (j : Nat) (c : List Char), N[j]? = some c → ∃ m, 2 ≤ m ∧ m ≤ (seen ts ok c ts.length).length ∧
        arrayWorthIt m (blen c) (blen name) (blen (natDisplay (O.length + j))) = true) ∧
      (∀ c, c ∉ O ++ N → 2 ≤ (seen ts ok c ts.length).length → ∃ q, q ≤ (O ++ N).length ∧
        arrayWorthIt (seen ts ok c ts.length).length (blen c) (blen name) (blen (natDisplay q)) = false) ∧
      body.length = ts.length ∧
      (∀ (i : Nat) (t : Token), ts[i]? = some t →
        (∃ s k, t = .str s ∧ ok i = true ∧ (O ++ N)[k]? = some (content s) ∧ body[i]? = some (.createdVar (arrayRef name k))) ∨
        (body[i]? = some t ∧ ∀ s, t = .str s → ok i = true → content s ∉ O ++ N)) := by
  have lt_of : ∀ (i : Nat) (t : Token), ts[i]? = some t → i < ts.length := by
    intro i t hi
    refine Nat.lt_of_not_le fun hle => ?_
    rw [List.getElem?_eq_none hle] at hi; cases hi
  generalize hold : ((getArray ts name).map Prod.fst).getD [] = vs at hq
  have hvs : ∀ p ∈ vs, p < ts.length := by
    cases hg : getArray ts name with
    | none => rw [hg] at hold; subst hold; intro p h; cases h
    | some r =>
      obtain ⟨a, b⟩ := r
      rw [hg] at hold; simp at hold; subst hold
      have := (arrayScan_bounds name ts .start 0 [] a b hg (by simp)).1
      simpa using this
  obtain ⟨st0, ho1, ho2⟩ := oldLoop_spec ts vs [] [] {} hvs (fun p h s hs => hq p s hs (.inl h))
    ⟨by simp, by simp, by simp, List.nodup_nil, by simp, rfl⟩
  simp only [List.nil_append] at ho2
  generalize hO : vs.filterMap (litAt ts) = O at ho2
  obtain ⟨st, R, ha1, ha2⟩ := arrLoop_spec ts name filter O st0.validated (fun c => ho2.validated c) st0.ignore
    (fun p => !st0.ignore.contains p && filter p) (fun p => rfl) (fun p s hs h => hq p s hs (.inr h)) ts 0 st0 [] rfl (Nat.zero_le _) rfl
    ⟨by
      intro c e h
      obtain ⟨h1, h2, h3⟩ := ho2.strs c e h
      refine ⟨by rw [h1]; rfl, ?_, fun _ => h3⟩
      rw [h2]; simp [List.mem_of_getElem? h3], by
      intro c h
      refine ⟨rfl, fun hc => ho2.mem c hc h⟩, by
      intro r1 c r2 h; simp at h, rfl, by simp [ho2.arrayPos], by intro c _ _ h; simp [seen] at h⟩
  generalize hok : (fun p => !st0.ignore.contains p && filter p) = ok at ha2
  have hokp : ∀ p, ok p = true ↔ filter p = true ∧ ¬(p ∈ vs ∧ litAt ts p ≠ none) := by
    intro p
    rw [← hok, ← ho2.ignore p]
    simp only [Bool.and_eq_true, Bool.not_eq_true', List.contains_eq_mem, decide_eq_false_iff_not]
    exact And.comm
  have hV : ∀ c ∈ st0.validated, ∃ e, st.strs c = some e := by
    intro c hc
    cases hs : st.strs c with
    | some e => exact ⟨e, rfl⟩
    | none => exact absurd ((ho2.validated c).1 hc) (ha2.none_ c hs).2
  obtain ⟨L, hL1, hL2⟩ := indexed_old st.strs st0.validated fun c hc h => by
    obtain ⟨e, he⟩ := hV c hc
    rw [he] at h; cases h
  have hLlt : ∀ p ∈ L, p.1 < O.length := by
    rintro ⟨i, c⟩ hp
    obtain ⟨hc, e, he, hi⟩ := (hL2 i c).1 hp
    have := (ha2.some_ c e he).2.2 ((ho2.validated c).1 hc)
    refine Nat.lt_of_not_le fun hle => ?_
    simp only at hle
    rw [← hi] at hle
    rw [List.getElem?_eq_none hle] at this; cases this
  have hidx := indexed_down st.strs O.length st0.validated L hL1 R fun r1 c r2 h => by
    obtain ⟨e, e1, e2, -⟩ := ha2.new r1 c r2 h
    exact ⟨e, e1, e2⟩
  have hsort := (sort_down O.length L hLlt R).1
  generalize hL' : sortBy (fun x y => decide (y.1 ≤ x.1)) L = L' at hsort
  have hL'mem : ∀ x, x ∈ L' ↔ x ∈ L := fun x => hL' ▸ (sortBy_perm _ _).mem_iff
  -- the elements of the plan
  have hRdown : ∀ i c, (i, c) ∈ down O.length R ↔ ∃ r1 r2, R = r1 ++ c :: r2 ∧ i = O.length + r2.length := by
    clear hidx hsort ha1 ha2
    intro i c
    induction R with
    | nil => simp [down]
    | cons d r ih =>
      rw [down, List.mem_cons, ih]
      constructor
      · rintro (h | ⟨r1, r2, h1, h2⟩)
        · cases h; exact ⟨[], r, rfl, rfl⟩
        · exact ⟨d :: r1, r2, by rw [h1]; rfl, h2⟩
      · rintro ⟨r1, r2, h1, h2⟩
        cases r1 with
        | nil => simp at h1; obtain ⟨rfl, rfl⟩ := h1; exact .inl (by rw [h2])
        | cons a r1 => simp at h1; exact .inr ⟨r1, r2, h1.2, h2⟩
  -- index and content
  have hplan : ∀ i c, (i, c) ∈ down O.length R ++ L' → (O ++ R.reverse)[i]? = some c ∧ ∃ e, st.strs c = some e ∧ e.index = i := by
    intro i c h
    rcases List.mem_append.1 h with h | h
    · obtain ⟨r1, r2, h1, h2⟩ := (hRdown i c).1 h
      obtain ⟨e, e1, e2, -⟩ := ha2.new r1 c r2 h1
      refine ⟨?_, e, e1, by rw [e2, h2]⟩
      rw [h1, h2, List.getElem?_append_right (by omega)]
      simp
    · obtain ⟨hc, e, he, hi⟩ := (hL2 i c).1 ((hL'mem _).1 h)
      have h3 := (ha2.some_ c e he).2.2 ((ho2.validated c).1 hc)
      refine ⟨?_, e, he, hi⟩
      rw [hi] at h3
      rw [List.getElem?_append_left]
      · exact h3
      · refine Nat.lt_of_not_le fun hle => ?_
        rw [List.getElem?_eq_none hle] at h3; cases h3
  have hplan' : ∀ c, c ∈ O ++ R.reverse → ∃ i, (i, c) ∈ down O.length R ++ L' := by
    intro c hc
    rcases List.mem_append.1 hc with hc | hc
    · have hc' := (ho2.validated c).2 hc
      obtain ⟨e, he⟩ := hV c hc'
      exact ⟨e.index, List.mem_append_right _ ((hL'mem _).2 ((hL2 _ _).2 ⟨hc', e, he, rfl⟩))⟩
    · obtain ⟨r1, r2, h⟩ := List.append_of_mem (List.mem_reverse.1 hc)
      exact ⟨_, List.mem_append_left _ ((hRdown _ c).2 ⟨r1, r2, h, rfl⟩)⟩
  have hnoOld : vs.isEmpty = true → L' = [] := by
    intro h
    have : vs = [] := by simpa using h
    subst this
    have : O = [] := hO.symm
    subst this
    cases hL'e : L' with
    | nil => rfl
    | cons x l =>
      have := hLlt x ((hL'mem x).1 (by rw [hL'e]; exact List.mem_cons_self))
      simp at this
  have plan : ∀ eb, ∃ rep, planLoop name st.strs vs.isEmpty eb (down O.length R ++ L') =
      .ok (rep, (toInsert vs.isEmpty R).map fun t => (eb, t)) ∧ Planned name st.strs (down O.length R ++ L') rep := by
    intro eb
    obtain ⟨rep0, h0, h0'⟩ := plan_old name st.strs vs.isEmpty eb L' fun i c h => by
      obtain ⟨hc, e, he, hi⟩ := (hL2 i c).1 ((hL'mem _).1 h)
      refine ⟨e, he, ?_⟩
      rw [(ha2.some_ c e he).2.1]
      simp [(ho2.validated c).1 hc]
    refine plan_new name st.strs vs.isEmpty eb O.length L' hnoOld rep0 h0 h0' R fun c hc => ?_
    obtain ⟨r1, r2, h⟩ := List.append_of_mem hc
    obtain ⟨e, e1, -, e3, -⟩ := ha2.new r1 c r2 h
    exact ⟨e, e1, by rw [(ha2.some_ c e e1).2.1]; simp [e3]⟩
  -- the replaced tokens
  have hrep : ∀ rep, Planned name st.strs (down O.length R ++ L') rep → ∃ body, replaceAll rep ts = .ok body ∧ body.length = ts.length ∧
      (∀ (i : Nat) (t : Token), ts[i]? = some t →
        (∃ s k, t = .str s ∧ ok i = true ∧ (O ++ R.reverse)[k]? = some (content s) ∧ body[i]? = some (.createdVar (arrayRef name k))) ∨
        (body[i]? = some t ∧ ∀ s, t = .str s → ok i = true → content s ∉ O ++ R.reverse)) := by
    intro rep hp
    have hin : ∀ p t, (p, t) ∈ rep → p < ts.length ∧ ok p = true ∧ ∃ c k e, litAt ts p = some c ∧ (O ++ R.reverse)[k]? = some c ∧
        st.strs c = some e ∧ e.index = k ∧ t = .createdVar (arrayRef name k) := by
      intro p t h
      obtain ⟨i, c, e, h1, h2, h3, h4⟩ := (hp p t).1 h
      rw [(ha2.some_ c e h2).1, mem_seen] at h3
      obtain ⟨e1, e', e2, e3⟩ := hplan i c h1
      exact ⟨h3.1, h3.2.1, c, i, e', h3.2.2, e1, e2, e3, h4⟩
    obtain ⟨body, b1, b2, b3, b4⟩ := replaceAll_spec rep ts (fun p t h => (hin p t h).1) (by
      intro p t t' h h'
      obtain ⟨-, -, c, k, e, a1, a2, a3, a4, a5⟩ := hin p t h
      obtain ⟨-, -, c', k', e', a1', a2', a3', a4', a5'⟩ := hin p t' h'
      rw [a1] at a1'; cases a1'
      rw [a3] at a3'; cases a3'
      rw [a5, a5', ← a4, ← a4'])
    refine ⟨body, b1, b2, fun i t hi => ?_⟩
    by_cases hmem : ∃ u, (i, u) ∈ rep
    · obtain ⟨u, hu⟩ := hmem
      obtain ⟨-, h2, c, k, e, h3, h4, -, -, h5⟩ := hin i u hu
      obtain ⟨s, hs1, hs2⟩ := litAt_some.1 h3
      rw [hi] at hs1; cases hs1
      exact .inl ⟨s, k, rfl, h2, by rw [hs2]; exact h4, by rw [b3 i u hu, h5]⟩
    · refine .inr ⟨by rw [b4 i fun u hu => hmem ⟨u, hu⟩, hi], ?_⟩
      rintro s rfl hoki hc
      obtain ⟨k, hk⟩ := hplan' _ hc
      obtain ⟨-, e, he, -⟩ := hplan k _ hk
      refine hmem ⟨.createdVar (arrayRef name k), (hp _ _).2 ⟨k, content s, e, hk, he, ?_, rfl⟩⟩
      rw [(ha2.some_ _ e he).1, mem_seen]
      exact ⟨lt_of i _ hi, hoki, litAt_some.2 ⟨s, hi, rfl⟩⟩
  have hnd : R.Nodup := by
    have : ∀ r1 r2, R = r1 ++ r2 → r2.Nodup := by
      intro r1 r2
      induction r2 generalizing r1 with
      | nil => intro _; exact List.nodup_nil
      | cons c r2 ih =>
        intro h
        obtain ⟨e, -, -, -, h4, -⟩ := ha2.new r1 c r2 h
        exact List.nodup_cons.2 ⟨h4, ih (r1 ++ [c]) (by rw [h]; simp)⟩
    exact this [] R rfl
  have hmain : ∃ body, aggregateIntoArray ts name sep filter = .ok (assemble name sep (getArray ts name) R.reverse body) ∧
      body.length = ts.length ∧
      (∀ (i : Nat) (t : Token), ts[i]? = some t →
        (∃ s k, t = .str s ∧ ok i = true ∧ (O ++ R.reverse)[k]? = some (content s) ∧ body[i]? = some (.createdVar (arrayRef name k))) ∨
        (body[i]? = some t ∧ ∀ s, t = .str s → ok i = true → content s ∉ O ++ R.reverse)) := by
    unfold aggregateIntoArray
    cases hg : getArray ts name with
    | some r =>
      obtain ⟨vs', eb⟩ := r
      rw [hg] at hold
      simp only [Option.map_some, Option.getD_some] at hold
      subst hold
      have heb : eb ≤ ts.length := by
        have := (arrayScan_bounds name ts .start 0 [] vs' eb hg (by simp)).2
        omega
      simp only
      rw [ho1]
      simp only [Out.bind_ok]
      rw [ha1]
      simp only [Out.bind_ok]
      rw [ha2.validated, hidx]
      simp only [Out.bind_ok]
      rw [hsort]
      simp only [Bool.false_and, Bool.false_eq_true, if_false, List.nil_append]
      obtain ⟨rep, p1, p2⟩ := plan eb
      obtain ⟨body, b1, b2, b3⟩ := hrep rep p2
      rw [p1]
      simp only [Out.bind_ok]
      rw [b1]
      simp only [Out.bind_ok]
      rw [insertAll_same _ _ _ (by omega)]
      refine ⟨body, ?_, b2, b3⟩
      unfold assemble
      simp only
      cases vs' with
      | nil => rw [if_pos rfl]; simp only [List.isEmpty_nil, toInsert_true]
      | cons a l => rw [if_neg (by simp)]; simp only [List.isEmpty_cons, toInsert_false]
    | none =>
      rw [hg] at hold
      simp only [Option.map_none, Option.getD_none] at hold
      subst hold
      simp only
      rw [ho1]
      simp only [Out.bind_ok]
      rw [ha1]
      simp only [Out.bind_ok]
      rw [ha2.validated, hidx]
      simp only [Out.bind_ok]
      rw [hsort]
      have hL'e := hnoOld rfl
      have hOe : O = [] := hO.symm
      simp only [Bool.true_and]
      cases hR : R with
      | nil =>
        have : (down O.length [] ++ L').isEmpty = true := by rw [hL'e]; rfl
        obtain ⟨rep, p1, p2⟩ := plan 0
        obtain ⟨body, b1, b2, b3⟩ := hrep rep p2
        rw [hR] at p1 b3
        simp only [this, Bool.not_true, Bool.false_eq_true, if_false, List.nil_append]
        simp only [List.isEmpty_nil] at p1 ⊢
        rw [p1]
        simp only [Out.bind_ok]
        rw [b1]
        exact ⟨body, rfl, b2, b3⟩
      | cons c r =>
        have : (down O.length (c :: r) ++ L').isEmpty = false := rfl
        obtain ⟨rep, p1, p2⟩ := plan 2
        obtain ⟨body, b1, b2, b3⟩ := hrep rep p2
        rw [hR] at p1 b3
        simp only [this, Bool.not_false, if_true]
        simp only [List.isEmpty_nil] at p1 ⊢
        rw [p1]
        simp only [Out.bind_ok]
        rw [b1]
        simp only [Out.bind_ok]
        have hhead : ((sep.toList.map fun t => ((0 : Nat), t)) ++ [(0, .char .semiColon), (0, .char .closeBracket), (0, .char .openBracket),
            (0, .createdVarDecl ("var ".toList ++ name ++ ['=']))]) = (sep.toList ++ [Token.char .semiColon, Token.char .closeBracket,
            Token.char .openBracket, Token.createdVarDecl ("var ".toList ++ name ++ ['='])]).map fun t => ((0 : Nat), t) := by simp
        rw [hhead, insertAll_append, insertAll_same _ 0 _ (Nat.zero_le _)]
        simp only [Out.bind_ok]
        rw [insertAll_same _ 2 _ (by simp)]
        refine ⟨body, ?_, b2, b3⟩
        unfold assemble
        simp only
        rw [if_neg (by simp), toInsert_true]
        have hs : sep.toList.reverse = sep.toList := by cases sep <;> rfl
        simp [hs]
  obtain ⟨body, m1, m2, m3⟩ := hmain
  refine ⟨O, R.reverse, body, ok, rfl, hokp, m1, (List.reverse_perm R).nodup_iff.2 hnd, ?_, ?_, ?_, m2, m3⟩
  rotate_right 1
  · intro c hc hc2
    rw [List.mem_append, not_or, List.mem_reverse] at hc
    obtain ⟨q, h1, h2⟩ := ha2.left c hc.2 hc.1 hc2
    exact ⟨q, by simpa using h1, h2⟩
  · intro c hc
    obtain ⟨r1, r2, h⟩ := List.append_of_mem (List.mem_reverse.1 hc)
    obtain ⟨e, -, -, h3, -⟩ := ha2.new r1 c r2 h
    exact h3
  · intro j c hj
    have hjl : j < R.length := by
      refine Nat.lt_of_not_le fun hle => ?_
      rw [List.getElem?_eq_none (by simpa using hle)] at hj; cases hj
    rw [List.getElem?_reverse hjl] at hj
    have hsplit : R = R.take (R.length - 1 - j) ++ c :: R.drop (R.length - 1 - j + 1) := by
      have hlt : R.length - 1 - j < R.length := by omega
      rw [List.getElem?_eq_getElem hlt] at hj
      simp only [Option.some.injEq] at hj
      rw [← hj, List.getElem_cons_drop, List.take_append_drop]
    obtain ⟨e, -, -, -, -, m, h1, h2, h3⟩ := ha2.new _ c _ hsplit
    refine ⟨m, h1, h2, ?_⟩
    have : (R.drop (R.length - 1 - j + 1)).length = j := by rw [List.length_drop]; omega
    rwa [this] at h3

/-! ## When it does not panic -/

theorem cutAt_some : ∀ {s : List Char} {n : Nat} {p t : List Char}, cutAt s n = some (p, t) → s = p ++ t ∧ blen p = n := by
  intro s
  induction s with
  | nil =>
    intro n p t h
    cases n with
    | zero => cases h; exact ⟨rfl, rfl⟩
    | succ n => cases h
  | cons c s ih =>
    intro n p t h
    cases n with
    | zero => cases h; exact ⟨rfl, rfl⟩
    | succ n =>
      rw [cutAt] at h
      split at h
      · cases hc : cutAt s (n + 1 - c.utf8Size) with
        | none => rw [hc] at h; cases h
        | some r =>
          obtain ⟨a, b⟩ := r
          rw [hc] at h
          cases h
          obtain ⟨h1, h2⟩ := ih hc
          exact ⟨by rw [h1]; rfl, by simp; omega⟩
      · cases h

theorem sub_ok {s c : List Char} {a b : Nat} (h : sub s a b = .ok c) : ∃ p t, s = p ++ c ++ t ∧ blen p = a ∧ blen p + blen c = b := by
  unfold sub at h
  cases hs : slice s a b with
  | none => rw [hs] at h; cases h
  | some m =>
    rw [hs] at h
    cases h
    unfold slice at hs
    split at hs
    · rename_i hab
      cases h1 : cutAt s a with
      | none => rw [h1] at hs; cases hs
      | some r =>
        obtain ⟨p, t⟩ := r
        rw [h1] at hs
        simp only at hs
        cases h2 : cutAt t (b - a) with
        | none => rw [h2] at hs; cases hs
        | some r2 =>
          obtain ⟨m', t'⟩ := r2
          rw [h2] at hs
          cases hs
          obtain ⟨e1, e2⟩ := cutAt_some h1
          obtain ⟨e3, e4⟩ := cutAt_some h2
          exact ⟨p, t', by rw [e1, e3]; simp, e2, by show blen p + blen m' = b; omega⟩
    · cases hs

theorem inner_ok {s c : List Char} (h : inner s = .ok c) : Quoted s := by
  unfold inner at h
  by_cases h0 : blen s = 0
  · rw [if_pos h0] at h; cases h
  · rw [if_neg h0] at h
    obtain ⟨p, t, h1, h2, h3⟩ := sub_ok h
    have hb := congrArg blen h1
    simp only [blen_append] at hb
    have one : ∀ l : List Char, blen l = 1 → ∃ q, l = [q] ∧ q.utf8Size = 1 := by
      intro l hl
      cases l with
      | nil => cases hl
      | cons a l =>
        cases l with
        | nil => exact ⟨a, rfl, by simpa using hl⟩
        | cons b l =>
          have := Char.utf8Size_pos a
          have := Char.utf8Size_pos b
          simp at hl; omega
    obtain ⟨q, rfl, hq⟩ := one p h2
    obtain ⟨q', rfl, hq'⟩ := one t (by omega)
    exact ⟨q, c, q', by rw [h1]; simp, hq, hq'⟩

theorem oldLoop_quoted (ts : List Token) : ∀ (ps : List Nat) (st st' : Arr), oldLoop ts ps st = .ok st' →
    ∀ p ∈ ps, ∀ s, ts[p]? = some (.str s) → Quoted s := by
  intro ps
  induction ps with
  | nil => intro _ _ _ p h; cases h
  | cons p ps ih =>
    intro st st' h q hq s hs
    rw [oldLoop] at h
    rcases List.mem_cons.1 hq with rfl | hq
    · rw [hs] at h
      simp only [Token.getStr] at h
      cases hi : inner s with
      | ok c => exact inner_ok hi
      | err => rw [hi] at h; cases h
      | panic => rw [hi] at h; cases h
    · cases ht : ts[p]? with
      | none => rw [ht] at h; cases h
      | some t =>
        rw [ht] at h
        simp only at h
        split at h
        · exact ih _ _ h q hq s hs
        · rename_i u _
          cases hi : inner u with
          | ok c => rw [hi] at h; exact ih _ _ h q hq s hs
          | err => rw [hi] at h; cases h
          | panic => rw [hi] at h; cases h

theorem arrLoop_quoted (name : List Char) (filter : Nat → Bool) : ∀ (us : List Token) (k : Nat) (st st' : Arr),
    arrLoop name filter k us st = .ok st' → ∀ (j : Nat) (s : List Char), us[j]? = some (.str s) → k + j ∉ st.ignore → filter (k + j) = true → Quoted s := by
  intro us
  induction us with
  | nil => intro k st st' _ j s h; simp at h
  | cons t us ih =>
    intro k st st' h j s hs hig hf
    rw [arrLoop] at h
    cases j with
    | zero =>
      simp only [List.getElem?_cons_zero, Option.some.injEq] at hs
      subst hs
      rw [if_neg (by simpa using hig)] at h
      simp only [Token.getStr] at h
      rw [if_neg (by simpa using hf)] at h
      cases hi : inner s with
      | ok c => exact inner_ok hi
      | err => rw [hi] at h; cases h
      | panic => rw [hi] at h; cases h
    | succ j =>
      have e : k + (j + 1) = k + 1 + j := by omega
      rw [e] at hig hf
      have go : ∀ st1, st1.ignore = st.ignore → arrLoop name filter (k + 1) us st1 = .ok st' → Quoted s :=
        fun st1 h1 h2 => ih (k + 1) st1 st' h2 j s (by simpa using hs) (by rw [h1]; exact hig) hf
      split at h
      · exact go _ rfl h
      · split at h
        · exact go _ rfl h
        · rename_i u _
          split at h
          · exact go _ rfl h
          · cases hi : inner u with
            | ok c =>
              rw [hi] at h
              simp only [Out.bind_ok] at h
              split at h
              · refine go _ ?_ h; rfl
              · refine go _ ?_ h; rfl
            | err => rw [hi] at h; cases h
            | panic => rw [hi] at h; cases h

/-- The literals that are looked at have delimiters of one byte. -/
theorem array_quoted {ts : List Token} {name : List Char} {sep : Option Token} {filter : Nat → Bool} {out : List Token}
    (h : aggregateIntoArray ts name sep filter = .ok out) (p : Nat) (s : List Char) (hs : ts[p]? = some (.str s))
    (hp : p ∈ ((getArray ts name).map Prod.fst).getD [] ∨ filter p = true) : Quoted s := by
  unfold aggregateIntoArray at h
  have hvs : ∀ q ∈ ((getArray ts name).map Prod.fst).getD [], q < ts.length := by
    cases hg : getArray ts name with
    | none => intro q h; cases h
    | some r =>
      obtain ⟨a, b⟩ := r
      have := (arrayScan_bounds name ts .start 0 [] a b hg (by simp)).1
      simpa using this
  have key : ∀ vs (f : Arr → Out (List Token)), (∀ q ∈ vs, q < ts.length) → p ∈ vs ∨ filter p = true →
      (oldLoop ts vs {} >>= fun st => arrLoop name filter 0 ts st >>= f) = .ok out → Quoted s := by
    intro vs f hvs hp h
    cases ho : oldLoop ts vs {} with
    | err => rw [ho] at h; cases h
    | panic => rw [ho] at h; cases h
    | ok st0 =>
      have hold := oldLoop_quoted ts vs {} st0 ho
      by_cases hpv : p ∈ vs
      · exact hold p hpv s hs
      · obtain ⟨st1, e1, e2⟩ := oldLoop_spec ts vs [] [] {} hvs hold ⟨by simp, by simp, by simp, List.nodup_nil, by simp, rfl⟩
        rw [ho] at e1; cases e1
        rw [ho] at h
        simp only [Out.bind_ok] at h
        cases ha : arrLoop name filter 0 ts st0 with
        | err => rw [ha] at h; cases h
        | panic => rw [ha] at h; cases h
        | ok st =>
          refine arrLoop_quoted name filter ts 0 st0 st ha p s hs ?_ ?_
          · rw [Nat.zero_add]
            intro hmem
            exact hpv (by simpa using ((e2.ignore p).1 hmem).1)
          · rw [Nat.zero_add]; exact hp.resolve_left hpv
  cases hg : getArray ts name with
  | none => rw [hg] at h hp hvs; exact key _ _ hvs hp h
  | some r =>
    obtain ⟨a, b⟩ := r
    rw [hg] at h hp hvs
    exact key _ _ hvs hp h

end Verif.Js
