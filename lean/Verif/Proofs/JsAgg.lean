import Verif.Model.JsAgg
import Verif.Spec.JsAgg
import Verif.Props.JsTokens
/-!
# Proofs about `aggregate_strings`
-/
set_option linter.unusedSimpArgs false
namespace Verif.Js
open Spec.JsAgg

/-! ## Names -/

/-- Letters only, and at least one. -/
def Word (l : List Char) : Prop := l ≠ [] ∧ ∀ c ∈ l, c ∈ alphabet

private theorem letter_table : ∀ c ∈ alphabet, (c = 'z' ∨ c = 'Z' ∨ c = '9') ∨
    (Char.ofNat (c.toNat % 256 + 1) ∈ alphabet ∧ alphabet.idxOf (Char.ofNat (c.toNat % 256 + 1)) = alphabet.idxOf c + 1) := by
  decide +kernel

private theorem letter_special : alphabet.idxOf 'z' = 25 ∧ alphabet.idxOf 'A' = 26 ∧ alphabet.idxOf 'Z' = 51 ∧
    alphabet.idxOf '0' = 52 ∧ alphabet.idxOf '9' = 61 ∧ alphabet.idxOf 'a' = 0 ∧ 'A' ∈ alphabet ∧ '0' ∈ alphabet ∧
    'a' ∈ alphabet := by decide +kernel

theorem incr_spec : ∀ l, Word l → Word (incrLetters l) ∧ rank (incrLetters l) = rank l + 1 := by
  obtain ⟨hz, hA, hZ, h0, h9, ha, mA, m0, ma⟩ := letter_special
  intro l
  induction l with
  | nil => rintro ⟨h, -⟩; exact absurd rfl h
  | cons c r ih =>
    rintro ⟨-, hc⟩
    have hr : ∀ x ∈ r, x ∈ alphabet := fun x hx => hc x (List.mem_cons_of_mem _ hx)
    have word : ∀ d, d ∈ alphabet → Word (d :: r) := by
      intro d hd
      refine ⟨by simp, fun x hx => ?_⟩
      rcases List.mem_cons.1 hx with rfl | hx
      · exact hd
      · exact hr x hx
    rw [incrLetters.eq_def]
    simp only
    by_cases h1 : c = 'z'
    · subst h1
      rw [if_pos (by rfl)]
      exact ⟨word _ mA, by simp only [rank, hz, hA]; omega⟩
    · rw [if_neg (by simpa using h1)]
      by_cases h2 : c = 'Z'
      · subst h2
        rw [if_pos (by rfl)]
        exact ⟨word _ m0, by simp only [rank, hZ, h0]; omega⟩
      · rw [if_neg (by simpa using h2)]
        by_cases h3 : c = '9'
        · subst h3
          rw [if_pos (by rfl)]
          cases r with
          | nil =>
            refine ⟨⟨by simp, ?_⟩, ?_⟩
            · intro x hx; simp at hx; subst hx; exact ma
            · simp only [rank, h9, ha]
          | cons d r =>
            obtain ⟨h4, h5⟩ := ih ⟨by simp, hr⟩
            refine ⟨⟨by simp, ?_⟩, ?_⟩
            · intro x hx
              rcases List.mem_cons.1 hx with rfl | hx
              · exact ma
              · exact h4.2 x hx
            · show alphabet.idxOf 'a' + 1 + 62 * rank (incrLetters (d :: r)) = alphabet.idxOf '9' + 1 + 62 * rank (d :: r) + 1
              rw [h5, ha, h9]; omega
        · rw [if_neg (by simpa using h3)]
          rcases letter_table c (hc c List.mem_cons_self) with h | ⟨h, h'⟩
          · rcases h with h | h | h
            · exact absurd h h1
            · exact absurd h h2
            · exact absurd h h3
          · exact ⟨word _ h, by simp only [rank, h']; omega⟩

/-- A generator of names `r_...`. -/
def Gen.Ok (g : Gen) : Prop := g.prepend = ['r', '_'] ∧ Word g.letters

theorem Gen.Ok.next {g : Gen} (h : g.Ok) : g.next.Ok ∧ rank g.next.letters = rank g.letters + 1 := by
  obtain ⟨h1, h2⟩ := incr_spec _ h.2
  exact ⟨⟨h.1, h1⟩, h2⟩

theorem Gen.Ok.name {g : Gen} (h : g.Ok) : GenName g.toStr := by
  refine ⟨g.letters, ?_, h.2.1, h.2.2⟩
  unfold Gen.toStr
  rw [h.1]; rfl

theorem gen0_ok : (Gen.new ['r', '_'] 2).Ok := by
  refine ⟨rfl, by decide, ?_⟩
  intro c hc
  simp [Gen.new] at hc
  subst hc
  exact letter_special.2.2.2.2.2.2.2.2

/-- The rank of a name. -/
def nameRank (n : List Char) : Nat := rank (n.drop 2)

theorem Gen.Ok.nameRank {g : Gen} (h : g.Ok) : nameRank g.toStr = rank g.letters := by
  unfold Js.nameRank Gen.toStr
  rw [h.1]; rfl

theorem freeName_spec (names : List (List Char)) : ∀ (fuel : Nat) (g : Gen), g.Ok →
    (names.filter fun x => decide (rank g.letters ≤ nameRank x)).length < fuel →
    ∃ g', freeName names fuel g = .ok g' ∧ g'.Ok ∧ g'.toStr ∉ names ∧ rank g.letters ≤ rank g'.letters ∧
      ∀ r, rank g.letters ≤ r → r < rank g'.letters → ∃ n ∈ names, nameRank n = r ∧ GenName n := by
  intro fuel
  induction fuel with
  | zero => intro g _ h; omega
  | succ n ih =>
    intro g hg h
    rw [freeName]
    by_cases hc : names.contains g.toStr = true
    · rw [if_pos hc]
      obtain ⟨h1, h2⟩ := hg.next
      have hmem : g.toStr ∈ names := by simpa using hc
      have hlt : (names.filter fun x => decide (rank g.next.letters ≤ nameRank x)).length <
          (names.filter fun x => decide (rank g.letters ≤ nameRank x)).length := by
        have gen : ∀ l : List (List Char), (l.filter fun x => decide (rank g.next.letters ≤ nameRank x)).length ≤
            (l.filter fun x => decide (rank g.letters ≤ nameRank x)).length ∧ (g.toStr ∈ l →
            (l.filter fun x => decide (rank g.next.letters ≤ nameRank x)).length <
              (l.filter fun x => decide (rank g.letters ≤ nameRank x)).length) := by
          intro l
          induction l with
          | nil => exact ⟨Nat.le_refl _, by simp⟩
          | cons x l ih =>
            rw [List.filter_cons, List.filter_cons, h2] at *
            refine ⟨?_, fun hx => ?_⟩
            · by_cases h3 : rank g.letters + 1 ≤ nameRank x
              · have h4 : rank g.letters ≤ nameRank x := by omega
                simp only [h3, h4, decide_true, if_true, List.length_cons]
                have := ih.1; omega
              · by_cases h4 : rank g.letters ≤ nameRank x
                · simp only [h3, h4, decide_true, decide_false, if_true, List.length_cons]
                  have := ih.1
                  simp only [Bool.false_eq_true, if_false]; omega
                · simp only [h3, h4, decide_false, Bool.false_eq_true, if_false]
                  exact ih.1
            · rcases List.mem_cons.1 hx with rfl | hx
              · have h3 : ¬(rank g.letters + 1 ≤ nameRank g.toStr) := by rw [hg.nameRank]; omega
                have h4 : rank g.letters ≤ nameRank g.toStr := by rw [hg.nameRank]; exact Nat.le_refl _
                simp only [h3, h4, decide_true, decide_false, if_true, List.length_cons]
                have := ih.1
                simp only [Bool.false_eq_true, if_false]; omega
              · by_cases h3 : rank g.letters + 1 ≤ nameRank x
                · have h4 : rank g.letters ≤ nameRank x := by omega
                  simp only [h3, h4, decide_true, if_true, List.length_cons]
                  have := ih.2 hx; omega
                · by_cases h4 : rank g.letters ≤ nameRank x
                  · simp only [h3, h4, decide_true, decide_false, if_true, List.length_cons]
                    have := ih.1
                    simp only [Bool.false_eq_true, if_false]; omega
                  · simp only [h3, h4, decide_false, Bool.false_eq_true, if_false]
                    exact ih.2 hx
        exact (gen names).2 hmem
      obtain ⟨g', e1, e2, e3, e4, e5⟩ := ih g.next h1 (by omega)
      refine ⟨g', e1, e2, e3, by omega, fun r hr1 hr2 => ?_⟩
      by_cases he : r = rank g.letters
      · exact ⟨g.toStr, hmem, by rw [hg.nameRank, he], hg.name⟩
      · exact e5 r (by omega) hr2
    · rw [if_neg hc]
      exact ⟨g, rfl, hg, by simpa using hc, Nat.le_refl _, fun r h1 h2 => by omega⟩

theorem freeName_ok (names : List (List Char)) {g : Gen} (hg : g.Ok) :
    ∃ g', freeName names (names.length + 1) g = .ok g' ∧ g'.Ok ∧ g'.toStr ∉ names ∧ rank g.letters ≤ rank g'.letters ∧
      ∀ r, rank g.letters ≤ r → r < rank g'.letters → ∃ n ∈ names, nameRank n = r ∧ GenName n :=
  freeName_spec names _ g hg (Nat.lt_succ_of_le (List.length_filter_le _ _))

/-! ## Variables of the source -/

/-- A name that is assigned a value in a declaration: it follows `var`, `let` or a comma (but for comments and blanks). -/
def Listed (ts : List Token) (n v : Nat) : Prop :=
  Declares ts n (some v) ∧ ∃ j, j < n ∧ All useless ts (j + 1) n ∧
    (ts[j]? = some (.char .comma) ∨ ts[j]? = some (.keyword .kLet) ∨ ts[j]? = some (.keyword .kVar))

/-- What is known of the collected variables. -/
structure VarsOk (ts : List Token) (vars : Vars) : Prop where
  value : ∀ s v w, vars.values s = some (v, w) → ∃ name, ts[v]? = some (.other name) ∧ ['r', '_'] <+: name ∧
    name ∈ vars.names ∧ Declares ts v (some w) ∧ ts[w]? = some (.str s)
  known : ∀ name ∈ vars.names, ['r', '_'] <+: name ∧ ∃ n v, ts[n]? = some (.other name) ∧ Declares ts n (some v)

/-- All names declared before `pos` have been collected. -/
structure VarsAll (ts : List Token) (pos : Nat) (vars : Vars) : Prop where
  name : ∀ n v name, n < pos → Listed ts n v → ts[n]? = some (.other name) → ['r', '_'] <+: name → name ∈ vars.names
  value : ∀ n v name s, n < pos → Listed ts n v → ts[n]? = some (.other name) → ['r', '_'] <+: name →
    ts[v]? = some (.str s) → vars.values s ≠ none

private theorem listed_starts {ts : List Token} {n v : Nat} (h : Listed ts n v) : getVarPositions ts n = some (n, some v) := by
  obtain ⟨h1, j, h2, h3, h4⟩ := h
  refine (C42_positions ts n n (some v)).2 ⟨n, .inr ⟨h1.1, rfl, j, h2, h3, .inr h4⟩, Nat.le_refl _, h1, ?_⟩
  intro m; omega

/-- A jump of the loop leaves no declaration out. -/
private theorem jump {ts : List Token} {pos n w : Nat} (h : getVarPositions ts pos = some (n, some w)) {n' v' : Nat}
    (hl : Listed ts n' v') (h1 : pos ≤ n') (h2 : n' ≤ w) : n' = n ∧ v' = w := by
  obtain ⟨start, hs, hsn, hd, hfirst⟩ := (C42_positions ts pos n (some w)).1 h
  obtain ⟨hd', j, hj1, hj2, hj3⟩ := hl
  obtain ⟨⟨name', hn'⟩, -⟩ := id hd'
  have hst : start ≤ n' := by
    rcases hs with ⟨hk, rfl⟩ | ⟨-, rfl, -⟩
    · by_cases he : pos = n'
      · subst he; rw [hn'] at hk; rcases hk with hk | hk <;> cases hk
      · omega
    · exact h1
  have heq : n' = n := by
    rcases Nat.lt_trichotomy n' n with hlt | heq | hgt
    · exact absurd hd' (hfirst n' hst hlt _)
    · exact heq
    · exfalso
      obtain ⟨-, e, he1, he2, he3, he4, he5, -⟩ := hd
      -- `n'` is the value
      have hw : n' = w := by
        by_cases hx : n' < e
        · obtain ⟨t, ht, hg⟩ := he2 n' (by omega) hx
          rw [hn'] at ht; cases ht; cases hg
        · by_cases hx2 : n' = e
          · rw [hx2, he3] at hn'; cases hn'
          · by_cases hx3 : n' < w
            · obtain ⟨t, ht, hg⟩ := he5 n' (by omega) hx3
              rw [hn'] at ht; cases ht; cases hg
            · omega
      by_cases hje : j < e
      · obtain ⟨t, ht, hg⟩ := hj2 e (by omega) (by omega)
        rw [he3] at ht; cases ht; cases hg
      · by_cases hje2 : j = e
        · rw [hje2, he3] at hj3; rcases hj3 with h | h | h <;> cases h
        · obtain ⟨t, ht, hg⟩ := he5 j (by omega) (by omega)
          rw [ht] at hj3
          rcases hj3 with h | h | h <;> cases h <;> cases hg
  subst heq
  refine ⟨rfl, ?_⟩
  -- the value is determined
  have := listed_starts (ts := ts) (n := n') (v := v') ⟨⟨⟨name', hn'⟩, hd'.2⟩, j, hj1, hj2, hj3⟩
  have h' := listed_starts (ts := ts) (n := n') (v := w) ⟨hd, j, hj1, hj2, hj3⟩
  rw [this] at h'
  cases h'
  rfl

theorem varsLoop_spec (ts : List Token) : ∀ (fuel pos : Nat) (acc : Vars), pos ≤ ts.length → ts.length + 1 ≤ fuel + pos →
    VarsOk ts acc → VarsAll ts pos acc →
    ∃ vars, varsLoop ts fuel pos acc = .ok vars ∧ VarsOk ts vars ∧ VarsAll ts ts.length vars := by
  intro fuel
  induction fuel with
  | zero => intro pos acc h1 h2; omega
  | succ fuel ih =>
    intro pos acc hpos hf hok hall
    rw [varsLoop]
    cases ht : ts[pos]? with
    | none =>
      have : ts.length ≤ pos := List.getElem?_eq_none_iff.1 ht
      have : pos = ts.length := by omega
      subst this
      exact ⟨acc, rfl, hok, hall⟩
    | some t =>
      have hlt : pos < ts.length := by
        refine Nat.lt_of_not_le fun hle => ?_
        rw [List.getElem?_eq_none hle] at ht; cases ht
      simp only
      -- one step without a jump
      have step : (∀ n w, getVarPositions ts pos ≠ some (n, some w)) →
          ∃ vars, varsLoop ts fuel (pos + 1) acc = .ok vars ∧ VarsOk ts vars ∧ VarsAll ts ts.length vars := by
        intro hno
        refine ih (pos + 1) acc (by omega) (by omega) hok ⟨?_, ?_⟩
        · intro n v name hn hl
          by_cases he : n = pos
          · subst he; exact absurd (listed_starts hl) (hno _ _)
          · exact hall.name n v name (by omega) hl
        · intro n v name s hn hl
          by_cases he : n = pos
          · subst he; exact absurd (listed_starts hl) (hno _ _)
          · exact hall.value n v name s (by omega) hl
      by_cases hk : (t.isKeyword || t.isOther) = true
      · rw [if_pos hk]
        cases hg : getVarPositions ts pos with
        | none => exact step (by intro n w h; rw [hg] at h; cases h)
        | some r =>
          obtain ⟨n, r⟩ := r
          cases r with
          | none => exact step (by intro n w h; rw [hg] at h; cases h)
          | some w =>
            simp only
            obtain ⟨start, hs, hsn, hd, -⟩ := (C42_positions ts pos n (some w)).1 hg
            obtain ⟨⟨name, hn⟩, e, he1, he2, he3, he4, he5, tw, htw, hv⟩ := id hd
            have hwlt : w < ts.length := by
              refine Nat.lt_of_not_le fun hle => ?_
              rw [List.getElem?_eq_none hle] at htw; cases htw
            have hpn : pos ≤ n := by
              rcases hs with ⟨-, rfl⟩ | ⟨-, rfl, -⟩ <;> omega
            rw [hn, htw]
            simp only [Token.getOther]
            by_cases hp : ['r', '_'].isPrefixOf name = true
            · have hp' : ['r', '_'] <+: name := List.isPrefixOf_iff_prefix.1 hp
              rw [hp]
              simp only [Bool.not_true, Bool.false_eq_true, if_false]
              refine ih (w + 1) _ (by omega) (by omega) ⟨?_, ?_⟩ ⟨?_, ?_⟩
              · intro s v' w' h
                cases hts : tw.getStr with
                | none =>
                  rw [hts] at h
                  obtain ⟨nm, a1, a2, a3, a4⟩ := hok.value s v' w' h
                  exact ⟨nm, a1, a2, List.mem_cons_of_mem _ a3, a4⟩
                | some s' =>
                  rw [hts] at h
                  simp only at h
                  by_cases hss : s = s'
                  · rw [if_pos hss] at h
                    cases h
                    subst hss
                    refine ⟨name, hn, hp', ?_, hd, ?_⟩
                    · simp only; exact List.mem_cons_self
                    · cases tw <;> simp [Token.getStr] at hts
                      subst hts; exact htw
                  · rw [if_neg hss] at h
                    obtain ⟨nm, a1, a2, a3, a4⟩ := hok.value s v' w' h
                    exact ⟨nm, a1, a2, by simp only; exact List.mem_cons_of_mem _ a3, a4⟩
              · intro nm hnm
                have : nm ∈ name :: acc.names := by
                  cases hts : tw.getStr <;> rw [hts] at hnm <;> exact hnm
                rcases List.mem_cons.1 this with rfl | h
                · exact ⟨hp', n, w, hn, hd⟩
                · exact hok.known nm h
              · intro n' v' name' hn' hl hname' hpre
                have : name' ∈ name :: acc.names := by
                  by_cases hlt' : n' < pos
                  · exact List.mem_cons_of_mem _ (hall.name n' v' name' hlt' hl hname' hpre)
                  · obtain ⟨rfl, -⟩ := jump hg hl (by omega) (by omega)
                    rw [hn] at hname'; cases hname'
                    exact List.mem_cons_self
                cases tw.getStr <;> exact this
              · intro n' v' name' s hn' hl hname' hpre hvs
                by_cases hlt' : n' < pos
                · have := hall.value n' v' name' s hlt' hl hname' hpre hvs
                  cases hts : tw.getStr with
                  | none => exact this
                  | some s' =>
                    simp only
                    by_cases hss : s = s'
                    · rw [if_pos hss]; simp
                    · rw [if_neg hss]; exact this
                · obtain ⟨rfl, rfl⟩ := jump hg hl (by omega) (by omega)
                  rw [htw] at hvs
                  cases hvs
                  simp [Token.getStr]
            · have hp1 : ['r', '_'].isPrefixOf name = false := Bool.eq_false_iff.2 hp
              rw [hp1]
              simp only [Bool.not_false, if_true]
              refine ih (w + 1) acc (by omega) (by omega) hok ⟨?_, ?_⟩
              · intro n' v' name' hn' hl hname' hpre
                by_cases hlt' : n' < pos
                · exact hall.name n' v' name' hlt' hl hname' hpre
                · obtain ⟨rfl, -⟩ := jump hg hl (by omega) (by omega)
                  rw [hn] at hname'; cases hname'
                  exact absurd (List.isPrefixOf_iff_prefix.2 hpre) hp
              · intro n' v' name' s hn' hl hname' hpre
                by_cases hlt' : n' < pos
                · exact hall.value n' v' name' s hlt' hl hname' hpre
                · obtain ⟨rfl, -⟩ := jump hg hl (by omega) (by omega)
                  rw [hn] at hname'; cases hname'
                  exact absurd (List.isPrefixOf_iff_prefix.2 hpre) hp
      · rw [if_neg hk]
        refine step ?_
        intro n w h
        obtain ⟨start, hs, -⟩ := (C42_positions ts pos n (some w)).1 h
        apply hk
        rcases hs with ⟨h | h, -⟩ | ⟨⟨nm, h⟩, -⟩ <;> rw [ht] at h <;> cases h <;> rfl

theorem getVariablesName_spec (ts : List Token) :
    ∃ vars, getVariablesName ts = .ok vars ∧ VarsOk ts vars ∧ VarsAll ts ts.length vars := by
  refine varsLoop_spec ts _ 0 {} (Nat.zero_le _) (Nat.le_refl _) ⟨?_, ?_⟩ ⟨?_, ?_⟩
  · intro s v w h; cases h
  · intro n h; cases h
  · intro n v name h; omega
  · intro n v name s h; omega

/-! ## The loop -/

/-- The positions of a literal among the first `k` tokens. -/
def occ (ts : List Token) (s : List Char) (k : Nat) : List Nat := (List.range k).filter fun p => decide (ts[p]? = some (.str s))

theorem occ_succ (ts : List Token) (s : List Char) (k : Nat) :
    occ ts s (k + 1) = if ts[k]? = some (.str s) then occ ts s k ++ [k] else occ ts s k := by
  unfold occ
  rw [List.range_succ, List.filter_append, List.filter_cons]
  by_cases h : ts[k]? = some (.str s) <;> simp [h]

theorem mem_occ {ts : List Token} {s : List Char} {k p : Nat} : p ∈ occ ts s k ↔ p < k ∧ ts[p]? = some (.str s) := by
  unfold occ
  simp [List.mem_filter]

/-- What is known of a chosen literal and its name after `k` tokens. -/
structure Chosen (ts : List Token) (vars : Vars) (k : Nat) (s n : List Char) : Prop where
  noValue : vars.values s = none
  free : n ∉ vars.names
  name : GenName n
  worth : ∃ m, 2 ≤ m ∧ m ≤ (occ ts s k).length ∧ worthIt m (blen s) (blen n) = true

/-- A literal with `m` occurrences is not worth one of the names of `P` that are free. -/
def Left (vars : Vars) (P : List Char → Prop) (m : Nat) (s : List Char) : Prop :=
  ∃ n, GenName n ∧ n ∉ vars.names ∧ P n ∧ worthIt m (blen s) (blen n) = false

structure AggInv (ts : List Token) (vars : Vars) (k : Nat) (st : Agg) : Prop where
  strs : ∀ s, st.strs s = if vars.values s = none then occ ts s k else []
  chosen : ∀ s n, (s, n) ∈ st.validated → Chosen ts vars k s n ∧ nameRank n < rank st.gen.letters
  keys : (st.validated.map Prod.fst).Nodup
  names : (st.validated.map Prod.snd).Nodup
  gen : st.gen.Ok
  fresh : st.gen.toStr ∉ vars.names
  dense : ∀ r, 63 ≤ r → r < rank st.gen.letters → (∃ n ∈ vars.names, nameRank n = r ∧ GenName n) ∨
    ∃ n ∈ st.validated.map Prod.snd, nameRank n = r
  left : ∀ s, vars.values s = none → s ∉ st.validated.map Prod.fst → 2 ≤ (occ ts s k).length →
    Left vars (nameRank · ≤ rank st.gen.letters) (occ ts s k).length s
  replace : ∀ p v, (p, v) ∈ st.toReplace ↔ p < k ∧ ∃ s w, ts[p]? = some (.str s) ∧ vars.values s = some (v, w) ∧ p ≠ w

theorem Chosen.mono {ts : List Token} {vars : Vars} {k : Nat} {s n : List Char} (h : Chosen ts vars k s n) :
    Chosen ts vars (k + 1) s n := by
  refine ⟨h.noValue, h.free, h.name, ?_⟩
  obtain ⟨m, h1, h2, h3⟩ := h.worth
  refine ⟨m, h1, Nat.le_trans h2 ?_, h3⟩
  rw [occ_succ]
  split <;> simp

theorem aggLoop_spec (ts : List Token) (vars : Vars) : ∀ (us : List Token) (k : Nat) (st : Agg), ts.drop k = us →
    AggInv ts vars k st → ∃ st', aggLoop vars k us st = .ok st' ∧ AggInv ts vars ts.length st' := by
  intro us
  induction us with
  | nil =>
    intro k st hd hinv
    refine ⟨st, rfl, ?_⟩
    have hk : ts.length ≤ k := List.drop_eq_nil_iff.1 hd
    have hocc : ∀ s, occ ts s k = occ ts s ts.length := by
      intro s
      have : ∀ d, occ ts s (ts.length + d) = occ ts s ts.length := by
        intro d
        induction d with
        | zero => rfl
        | succ d ih => rw [← Nat.add_assoc, occ_succ, List.getElem?_eq_none (by omega)]; simpa using ih
      have h := this (k - ts.length)
      rwa [show ts.length + (k - ts.length) = k by omega] at h
    refine ⟨?_, ?_, hinv.keys, hinv.names, hinv.gen, hinv.fresh, hinv.dense, fun s h1 h2 h3 => by
      rw [← hocc] at h3 ⊢; exact hinv.left s h1 h2 h3, ?_⟩
    · intro s; rw [hinv.strs s, hocc]
    · intro s n h
      obtain ⟨h1, h2⟩ := hinv.chosen s n h
      exact ⟨⟨h1.noValue, h1.free, h1.name, by rw [← hocc]; exact h1.worth⟩, h2⟩
    · intro p v
      rw [hinv.replace p v]
      constructor
      · rintro ⟨-, s, w, h1, h2⟩
        refine ⟨?_, s, w, h1, h2⟩
        refine Nat.lt_of_not_le fun hle => ?_
        rw [List.getElem?_eq_none hle] at h1; cases h1
      · rintro ⟨h0, h⟩; exact ⟨by omega, h⟩
  | cons t us ih =>
    intro k st hd hinv
    have hk : ts[k]? = some t := by
      have := congrArg (fun l => l[0]?) hd
      simpa using this
    have hd' : ts.drop (k + 1) = us := by
      rw [← List.tail_drop, hd]; rfl
    rw [aggLoop]
    cases hs : t.getStr with
    | none =>
      have hno : ∀ s, ts[k]? ≠ some (.str s) := by
        intro s h; rw [hk] at h; cases h; simp [Token.getStr] at hs
      refine ih (k + 1) st hd' ⟨?_, ?_, hinv.keys, hinv.names, hinv.gen, hinv.fresh, hinv.dense, fun s h1 h2 h3 => by
        rw [occ_succ, if_neg (hno s)] at h3 ⊢; exact hinv.left s h1 h2 h3, ?_⟩
      · intro s; rw [hinv.strs s, occ_succ, if_neg (hno s)]
      · intro s n h; obtain ⟨h1, h2⟩ := hinv.chosen s n h; exact ⟨h1.mono, h2⟩
      · intro p v
        rw [hinv.replace p v]
        constructor
        · rintro ⟨h0, h⟩; exact ⟨by omega, h⟩
        · rintro ⟨h0, s, w, h1, h2⟩
          refine ⟨?_, s, w, h1, h2⟩
          by_cases he : p = k
          · subst he; exact absurd h1 (hno s)
          · omega
    | some s =>
      have htk : ts[k]? = some (.str s) := by
        cases t <;> simp [Token.getStr] at hs
        subst hs; exact hk
      have hother : ∀ y, y ≠ s → occ ts y (k + 1) = occ ts y k := by
        intro y hy
        rw [occ_succ, if_neg]
        rw [htk]; intro h; cases h; exact hy rfl
      have hself : occ ts s (k + 1) = occ ts s k ++ [k] := by rw [occ_succ, if_pos htk]
      simp only
      cases hv : vars.values s with
      | some vw =>
        obtain ⟨v, w⟩ := vw
        simp only
        have hstrs : ∀ y, st.strs y = if vars.values y = none then occ ts y (k + 1) else [] := by
          intro y
          rw [hinv.strs y]
          by_cases hy : y = s
          · subst hy; rw [hv]; rfl
          · rw [hother y hy]
        have hleft : ∀ y, vars.values y = none → y ∉ st.validated.map Prod.fst → 2 ≤ (occ ts y (k + 1)).length →
            Left vars (nameRank · ≤ rank st.gen.letters) (occ ts y (k + 1)).length y := by
          intro y h1 h2 h3
          have hy : y ≠ s := by rintro rfl; rw [hv] at h1; cases h1
          rw [hother y hy] at h3 ⊢
          exact hinv.left y h1 h2 h3
        by_cases hkw : k ≠ w
        · rw [if_pos hkw]
          refine ih (k + 1) _ hd' ⟨hstrs, ?_, hinv.keys, hinv.names, hinv.gen, hinv.fresh, hinv.dense, hleft, ?_⟩
          · intro y n h; obtain ⟨h1, h2⟩ := hinv.chosen y n h; exact ⟨h1.mono, h2⟩
          · intro p v'
            simp only [List.mem_append, List.mem_singleton]
            rw [hinv.replace p v']
            constructor
            · rintro (⟨h0, h⟩ | h)
              · exact ⟨by omega, h⟩
              · cases h; exact ⟨by omega, s, w, htk, hv, hkw⟩
            · rintro ⟨h0, y, w', h1, h2, h3⟩
              by_cases he : p = k
              · subst he
                rw [htk] at h1; cases h1
                rw [hv] at h2; cases h2
                exact .inr rfl
              · exact .inl ⟨by omega, y, w', h1, h2, h3⟩
        · rw [if_neg hkw]
          have hkw : k = w := by simpa using hkw
          refine ih (k + 1) st hd' ⟨hstrs, ?_, hinv.keys, hinv.names, hinv.gen, hinv.fresh, hinv.dense, hleft, ?_⟩
          · intro y n h; obtain ⟨h1, h2⟩ := hinv.chosen y n h; exact ⟨h1.mono, h2⟩
          · intro p v'
            rw [hinv.replace p v']
            constructor
            · rintro ⟨h0, h⟩; exact ⟨by omega, h⟩
            · rintro ⟨h0, y, w', h1, h2, h3⟩
              refine ⟨?_, y, w', h1, h2, h3⟩
              by_cases he : p = k
              · subst he
                rw [htk] at h1; cases h1
                rw [hv] at h2; cases h2
                exact absurd hkw h3
              · omega
      | none =>
        simp only
        have hx : st.strs s ++ [k] = occ ts s (k + 1) := by rw [hinv.strs s, hv, hself]; rfl
        rw [hx]
        have hstrs : ∀ y, (if y = s then occ ts s (k + 1) else st.strs y) = if vars.values y = none then occ ts y (k + 1) else [] := by
          intro y
          by_cases hy : y = s
          · subst hy; rw [if_pos rfl, hv]; rfl
          · rw [if_neg hy, hinv.strs y, hother y hy]
        have hrep : ∀ p v, (p, v) ∈ st.toReplace ↔ p < k + 1 ∧ ∃ s w, ts[p]? = some (.str s) ∧ vars.values s = some (v, w) ∧ p ≠ w := by
          intro p v'
          rw [hinv.replace p v']
          constructor
          · rintro ⟨h0, h⟩; exact ⟨by omega, h⟩
          · rintro ⟨h0, y, w', h1, h2, h3⟩
            refine ⟨?_, y, w', h1, h2, h3⟩
            by_cases he : p = k
            · subst he
              rw [htk] at h1; cases h1
              rw [hv] at h2; cases h2
            · omega
        by_cases hc : (decide ((occ ts s (k + 1)).length > 1) && !(st.validated.any fun p => p.1 == s) &&
            worthIt (occ ts s (k + 1)).length (blen s) (blen st.gen.toStr)) = true
        · rw [if_pos hc]
          simp only [Bool.and_eq_true, Bool.not_eq_true', decide_eq_true_eq] at hc
          obtain ⟨⟨hc1, hc2⟩, hc3⟩ := hc
          obtain ⟨hn1, hn2⟩ := hinv.gen.next
          obtain ⟨g, hg1, hg2, hg3, hg4, hg5⟩ := freeName_ok vars.names hn1
          rw [hg1]
          simp only [Out.bind_ok]
          have hnew : s ∉ st.validated.map Prod.fst := by
            intro h
            obtain ⟨p, hp, rfl⟩ := List.mem_map.1 h
            have : (st.validated.any fun q => q.1 == p.1) = true := List.any_eq_true.2 ⟨p, hp, by simp⟩
            rw [hc2] at this; cases this
          have hrank : nameRank st.gen.toStr = rank st.gen.letters := hinv.gen.nameRank
          refine ih (k + 1) _ hd' ⟨hstrs, ?_, ?_, ?_, hg2, hg3, ?_, ?_, hrep⟩
          · intro y n h
            rcases List.mem_cons.1 h with h | h
            · cases h
              exact ⟨⟨hv, hinv.fresh, hinv.gen.name, _, hc1, Nat.le_refl _, hc3⟩, by simp only; omega⟩
            · obtain ⟨h1, h2⟩ := hinv.chosen y n h; exact ⟨h1.mono, by simp only; omega⟩
          · simp only [List.map_cons, List.nodup_cons]
            exact ⟨hnew, hinv.keys⟩
          · simp only [List.map_cons, List.nodup_cons]
            refine ⟨fun h => ?_, hinv.names⟩
            obtain ⟨⟨y, n⟩, hp, he⟩ := List.mem_map.1 h
            simp only at he
            have := (hinv.chosen y n hp).2
            rw [he, hrank] at this
            omega
          · intro r hr1 hr2
            by_cases h1 : r < rank st.gen.letters
            · rcases hinv.dense r hr1 h1 with h | ⟨n, h, h'⟩
              · exact .inl h
              · exact .inr ⟨n, List.mem_cons_of_mem _ h, h'⟩
            · by_cases h2 : r = rank st.gen.letters
              · exact .inr ⟨st.gen.toStr, List.mem_cons_self, by rw [hrank, h2]⟩
              · exact .inl (hg5 r (by omega) hr2)
          · intro y h1 h2 h3
            have hy : y ≠ s := fun h => h2 (by rw [h]; exact List.mem_cons_self)
            rw [hother y hy] at h3 ⊢
            obtain ⟨n, e1, e2, e3, e4⟩ := hinv.left y h1 (fun h => h2 (List.mem_cons_of_mem _ h)) h3
            exact ⟨n, e1, e2, by simp only at e3 ⊢; omega, e4⟩
        · rw [if_neg hc]
          refine ih (k + 1) _ hd' ⟨hstrs, ?_, hinv.keys, hinv.names, hinv.gen, hinv.fresh, hinv.dense, ?_, hrep⟩
          · intro y n h; obtain ⟨h1, h2⟩ := hinv.chosen y n h; exact ⟨h1.mono, h2⟩
          · intro y h1 h2 h3
            by_cases hy : y = s
            · subst hy
              refine ⟨st.gen.toStr, hinv.gen.name, hinv.fresh, Nat.le_of_eq hinv.gen.nameRank, ?_⟩
              have h4 : (st.validated.any fun p => p.1 == y) = false := by
                rw [Bool.eq_false_iff]
                intro h
                obtain ⟨p, hp, he⟩ := List.any_eq_true.1 h
                exact h2 (List.mem_map.2 ⟨p, hp, by simpa using he⟩)
              have h5 : (occ ts y (k + 1)).length > 1 := h3
              simp only [h4, h5, decide_true, Bool.not_false, Bool.true_and, Bool.not_eq_true] at hc
              exact hc
            · rw [hother y hy] at h3 ⊢
              exact hinv.left y h1 h2 h3

/-! ## Sorting -/

theorem insertBy_perm {α : Type} (le : α → α → Bool) (a : α) (l : List α) : (insertBy le a l).Perm (a :: l) := by
  induction l with
  | nil => exact List.Perm.refl _
  | cons b l ih =>
    rw [insertBy]
    split
    · exact List.Perm.refl _
    · exact (ih.cons b).trans (List.Perm.swap a b l)

theorem sortBy_perm {α : Type} (le : α → α → Bool) (l : List α) : (sortBy le l).Perm l := by
  induction l with
  | nil => exact List.Perm.refl _
  | cons a l ih => exact (insertBy_perm le a _).trans (ih.cons a)

theorem insertBy_sorted {α : Type} {le : α → α → Bool} (trans : ∀ a b c, le a b = true → le b c = true → le a c = true)
    (total : ∀ a b, le a b = true ∨ le b a = true) (a : α) (l : List α) (h : l.Pairwise (fun x y => le x y = true)) :
    (insertBy le a l).Pairwise (fun x y => le x y = true) := by
  induction l with
  | nil => simp [insertBy]
  | cons b l ih =>
    rw [insertBy]
    rw [List.pairwise_cons] at h
    by_cases hab : le a b = true
    · rw [if_pos hab, List.pairwise_cons]
      refine ⟨fun x hx => ?_, List.pairwise_cons.2 h⟩
      rcases List.mem_cons.1 hx with rfl | hx
      · exact hab
      · exact trans _ _ _ hab (h.1 x hx)
    · rw [if_neg hab, List.pairwise_cons]
      refine ⟨fun x hx => ?_, ih h.2⟩
      rcases List.mem_cons.1 ((insertBy_perm le a l).mem_iff.1 hx) with rfl | hx
      · exact (total x b).resolve_left hab
      · exact h.1 x hx

theorem sortBy_sorted {α : Type} {le : α → α → Bool} (trans : ∀ a b c, le a b = true → le b c = true → le a c = true)
    (total : ∀ a b, le a b = true ∨ le b a = true) (l : List α) : (sortBy le l).Pairwise (fun x y => le x y = true) := by
  induction l with
  | nil => exact List.Pairwise.nil
  | cons a l ih => exact insertBy_sorted trans total a _ ih

/-! ## Applying the changes -/

theorem setAll_spec (t : Token) : ∀ (ps : List Nat) (ts : List Token), (∀ p ∈ ps, p < ts.length) →
    ∃ ts', setAll t ps ts = .ok ts' ∧ ts'.length = ts.length ∧ ∀ i, ts'[i]? = if i ∈ ps then some t else ts[i]? := by
  intro ps
  induction ps with
  | nil => intro ts _; exact ⟨ts, rfl, rfl, by simp⟩
  | cons p ps ih =>
    intro ts h
    have hp := h p List.mem_cons_self
    rw [setAll, setTok, if_pos hp]
    simp only [Out.bind_ok]
    obtain ⟨ts', h1, h2, h3⟩ := ih (ts.set p t) (fun q hq => by
      rw [List.length_set]; exact h q (List.mem_cons_of_mem _ hq))
    refine ⟨ts', h1, by rw [h2, List.length_set], fun i => ?_⟩
    rw [h3 i, List.getElem?_set]
    by_cases hi : i ∈ ps
    · simp [hi]
    · by_cases hip : p = i
      · subst hip; simp [hi, hp]
      · have : ¬(i = p) := fun h => hip h.symm
        simp [hi, hip, this]

/-- Replacing the literals of `D` by their names. -/
def renamed (D : List (List Char × List Char)) (t : Token) : Token :=
  match t.getStr with
  | none => t
  | some s =>
    match D.lookup s with
    | some n => .createdVar n
    | none => t

private theorem renamed_append {D : List (List Char × List Char)} {s n : List Char} (h : s ∉ D.map Prod.fst) (t : Token) :
    renamed (D ++ [(s, n)]) t = if t = .str s then .createdVar n else renamed D t := by
  unfold renamed
  cases hs : t.getStr with
  | none =>
    have : t ≠ .str s := by rintro rfl; simp [Token.getStr] at hs
    simp [this]
  | some y =>
    have ht : t = .str y := by cases t <;> simp [Token.getStr] at hs; rw [hs]
    subst ht
    simp only
    rw [List.lookup_append]
    by_cases hy : y = s
    · subst hy
      have : D.lookup y = none := by
        rw [List.lookup_eq_none_iff]
        intro p hp
        have : ¬(p.1 = y) := fun he => h (List.mem_map.2 ⟨p, hp, he⟩)
        simp
        exact fun h => this h.symm
      rw [this]
      simp [List.lookup]
    · have h1 : ¬(Token.str y = Token.str s) := by intro h; cases h; exact hy rfl
      have h2 : (List.lookup y [(s, n)]) = none := by
        rw [List.lookup_eq_none_iff]; simp [hy]
      rw [if_neg h1, h2]
      cases D.lookup y <;> rfl

/-- The declaration as it is built, without the semicolon. -/
private def open_ : List (List Char × List Char) → List Token
  | [] => []
  | (s, n) :: l => .keyword .kVar :: .createdVarDecl (n ++ ['='] ++ s) ::
      (l.flatMap fun p => [.char .comma, .createdVarDecl (p.2 ++ ['='] ++ p.1)])

private theorem open_append (D : List (List Char × List Char)) (s n : List Char) :
    open_ (D ++ [(s, n)]) = open_ D ++ [if (open_ D).isEmpty then .keyword .kVar else .char .comma, .createdVarDecl (n ++ ['='] ++ s)] := by
  cases D with
  | nil => rfl
  | cons p D =>
    obtain ⟨s', n'⟩ := p
    simp [open_, List.flatMap_append]

theorem applyNew_spec (ts : List Token) : ∀ (l done : List (List Char × List Char)) (cur : List Token)
    (new : List (List Char × List Nat)),
    ((done ++ l).map Prod.fst).Nodup →
    cur = ts.map (renamed done) →
    new.length = l.length →
    (∀ (i : Nat) (s n : List Char), l[i]? = some (s, n) → new[i]? = some (n, occ ts s ts.length) ∧ occ ts s ts.length ≠ []) →
    applyNew new (open_ done) cur = .ok (open_ (done ++ l), ts.map (renamed (done ++ l))) := by
  intro l
  induction l with
  | nil =>
    intro done cur new hnd hcur hlen hnew
    cases new with
    | nil => rw [applyNew, List.append_nil, hcur]
    | cons a b => simp at hlen
  | cons p l ih =>
    intro done cur new hnd hcur hlen hnew
    obtain ⟨s, n⟩ := p
    cases new with
    | nil => simp at hlen
    | cons q new =>
      obtain ⟨hq, hne⟩ := hnew 0 s n rfl
      simp only [List.getElem?_cons_zero, Option.some.injEq] at hq
      subst hq
      rw [applyNew]
      cases ho : occ ts s ts.length with
      | nil => exact absurd ho hne
      | cons o os =>
        simp only [List.head?_cons]
        have ho1 : o ∈ occ ts s ts.length := by rw [ho]; exact List.mem_cons_self
        have hsn : s ∉ done.map Prod.fst := by
          intro h
          rw [List.map_append, List.map_cons] at hnd
          exact absurd (List.nodup_append.1 hnd).2.2 (fun hd => hd s h s List.mem_cons_self rfl)
        obtain ⟨holt, hot⟩ := mem_occ.1 ho1
        have hcuro : cur[o]? = some (.str s) := by
          rw [hcur, List.getElem?_map, hot]
          simp only [Option.map_some, renamed, Token.getStr]
          have : done.lookup s = none := by
            rw [List.lookup_eq_none_iff]
            intro p hp
            have : ¬(p.1 = s) := fun he => hsn (List.mem_map.2 ⟨p, hp, he⟩)
            simp
            exact fun h => this h.symm
          rw [this]
        rw [hcuro]
        simp only
        obtain ⟨ts', h1, h2, h3⟩ := setAll_spec (.createdVar n) (o :: os) cur (by
          intro p hp
          rw [← ho] at hp
          rw [hcur, List.length_map]
          exact (mem_occ.1 hp).1)
        rw [h1]
        simp only [Out.bind_ok]
        have hd : (Token.str s).display = s := rfl
        rw [hd, ← open_append]
        have hts' : ts' = ts.map (renamed (done ++ [(s, n)])) := by
          apply List.ext_getElem?
          intro i
          rw [h3 i, List.getElem?_map, hcur, List.getElem?_map]
          cases hi : ts[i]? with
          | none =>
            have : i ∉ o :: os := by
              rw [← ho]
              intro h
              rw [(mem_occ.1 h).2] at hi; cases hi
            rw [if_neg this]; rfl
          | some t =>
            simp only [Option.map_some]
            rw [renamed_append hsn]
            have hilt : i < ts.length := by
              refine Nat.lt_of_not_le fun hle => ?_
              rw [List.getElem?_eq_none hle] at hi; cases hi
            by_cases hti : t = .str s
            · have : i ∈ o :: os := by rw [← ho]; exact mem_occ.2 ⟨hilt, by rw [hi, hti]⟩
              rw [if_pos this, if_pos hti]
            · have : i ∉ o :: os := by
                rw [← ho]
                intro h
                have := (mem_occ.1 h).2
                rw [hi] at this; cases this; exact hti rfl
              rw [if_neg this, if_neg hti]
        have := ih (done ++ [(s, n)]) ts' new (by simpa using hnd) hts' (by simpa using hlen)
          (fun i s' n' h => by have := hnew (i + 1) s' n' (by simpa using h); simpa using this)
        simpa using this

theorem collectNew_spec (strs : List Char → List Nat) : ∀ (l : List (List Char × List Char)), (∀ p ∈ l, strs p.1 ≠ []) →
    ∃ new, collectNew strs l = .ok new ∧ new.length = l.length ∧
      ∀ (i : Nat) (s n : List Char), l[i]? = some (s, n) → new[i]? = some (n, strs s) := by
  intro l
  induction l with
  | nil => intro _; exact ⟨[], rfl, rfl, by simp⟩
  | cons p l ih =>
    intro h
    obtain ⟨s, n⟩ := p
    obtain ⟨new, h1, h2, h3⟩ := ih fun p hp => h p (List.mem_cons_of_mem _ hp)
    have hs : strs s ≠ [] := h (s, n) List.mem_cons_self
    rw [collectNew]
    cases hc : strs s with
    | nil => exact absurd hc hs
    | cons o os =>
      simp only
      rw [h1]
      refine ⟨(n, o :: os) :: new, rfl, by simp [h2], fun i s' n' hi => ?_⟩
      cases i with
      | zero => simp at hi; obtain ⟨rfl, rfl⟩ := hi; simp [hc]
      | succ i => simpa using h3 i s' n' (by simpa using hi)

theorem applyReplace_spec : ∀ (l : List (Nat × Nat)) (ts : List Token), (∀ p v, (p, v) ∈ l → p < ts.length ∧ v < ts.length) →
    (∀ p v q w, (p, v) ∈ l → (q, w) ∈ l → p ≠ w) →
    (∀ p v v', (p, v) ∈ l → (p, v') ∈ l → v = v') →
    ∃ ts', applyReplace l ts = .ok ts' ∧ ts'.length = ts.length ∧
      (∀ p v, (p, v) ∈ l → ts'[p]? = ts[v]?) ∧ ∀ i, (∀ v, (i, v) ∉ l) → ts'[i]? = ts[i]? := by
  intro l
  induction l with
  | nil => intro ts _ _ _; exact ⟨ts, rfl, rfl, by simp, by simp⟩
  | cons a l ih =>
    intro ts h1 h2 h3
    obtain ⟨p, v⟩ := a
    obtain ⟨hp, hv⟩ := h1 p v List.mem_cons_self
    rw [applyReplace, List.getElem?_eq_getElem hv]
    simp only
    rw [setTok, if_pos hp]
    simp only [Out.bind_ok]
    obtain ⟨ts', e1, e2, e3, e4⟩ := ih (ts.set p ts[v]) (fun q w hq => by
      rw [List.length_set]; exact h1 q w (List.mem_cons_of_mem _ hq))
      (fun p v q w hp hq => h2 p v q w (List.mem_cons_of_mem _ hp) (List.mem_cons_of_mem _ hq))
      (fun p v v' hp hq => h3 p v v' (List.mem_cons_of_mem _ hp) (List.mem_cons_of_mem _ hq))
    have hset : ∀ w, p ≠ w → (ts.set p ts[v])[w]? = ts[w]? := by
      intro w hw; rw [List.getElem?_set_ne hw]
    have hpp : (ts.set p ts[v])[p]? = ts[v]? := by
      rw [List.getElem?_set_self hp, List.getElem?_eq_getElem hv]
    refine ⟨ts', e1, by rw [e2, List.length_set], ?_, ?_⟩
    · intro q w hq
      rcases List.mem_cons.1 hq with hq' | hq'
      · cases hq'
        by_cases hin : ∃ w', (p, w') ∈ l
        · obtain ⟨w', hw'⟩ := hin
          have : v = w' := h3 p v w' List.mem_cons_self (List.mem_cons_of_mem _ hw')
          subst this
          rw [e3 p v hw', hset v (h2 p v p v List.mem_cons_self List.mem_cons_self)]
        · rw [e4 p (fun w' hw' => hin ⟨w', hw'⟩), hpp]
      · rw [e3 q w hq', hset w (h2 p v q w List.mem_cons_self hq)]
    · intro i hi
      rw [e4 i (fun w hw => hi w (List.mem_cons_of_mem _ hw)), hset]
      rintro rfl
      exact hi v List.mem_cons_self

/-! ## All together -/

/-- What becomes of the token `t` at position `i`. -/
def aggToken (ts : List Token) (vars : Vars) (D : List (List Char × List Char)) (i : Nat) (t : Token) : Token :=
  match t.getStr with
  | none => t
  | some s =>
    match vars.values s with
    | some (v, w) => if i = w then t else ts[v]?.getD t
    | none => renamed D t

theorem strLe_trans : ∀ a b c, strLe a b = true → strLe b c = true → strLe a c = true := by
  intro a
  induction a with
  | nil => intro b c _ _; rfl
  | cons x a ih =>
    intro b c h1 h2
    cases b with
    | nil => cases h1
    | cons y b =>
      cases c with
      | nil => cases h2
      | cons z c =>
        rw [strLe] at h1 h2 ⊢
        have inj : ∀ x y : Char, x.toNat = y.toNat → x = y := fun x y h => Char.toNat_inj.1 h
        by_cases hxy : x = y
        · subst hxy
          rw [if_pos rfl] at h1
          by_cases hxz : x = z
          · rw [if_pos hxz] at h2 ⊢; exact ih b c h1 h2
          · rw [if_neg hxz] at h2 ⊢; exact h2
        · rw [if_neg hxy] at h1
          by_cases hyz : y = z
          · subst hyz; rw [if_neg hxy]; exact h1
          · rw [if_neg hyz] at h2
            simp only [decide_eq_true_eq] at h1 h2
            have : x ≠ z := by rintro rfl; omega
            rw [if_neg this]
            simp only [decide_eq_true_eq]; omega

theorem strLe_precedes : ∀ a b, strLe a b = true → a ≠ b → Spec.JsAgg.Precedes a b := by
  intro a
  induction a with
  | nil => intro b _ h; exact .inl ⟨b, fun e => h e.symm, rfl⟩
  | cons x a ih =>
    intro b h hne
    cases b with
    | nil => simp [strLe] at h
    | cons y b =>
      rw [strLe] at h
      by_cases he : x = y
      · rw [if_pos he] at h
        subst he
        rcases ih b h (fun e => hne (by rw [e])) with ⟨r, h1, h2⟩ | ⟨p, c, d, r, r', h1, h2, h3⟩
        · exact .inl ⟨r, h1, by rw [h2]; rfl⟩
        · exact .inr ⟨x :: p, c, d, r, r', by rw [h1]; rfl, by rw [h2]; rfl, h3⟩
      · rw [if_neg he] at h
        exact .inr ⟨[], x, y, a, b, rfl, rfl, of_decide_eq_true h⟩

theorem strLe_total : ∀ a b, strLe a b = true ∨ strLe b a = true := by
  intro a
  induction a with
  | nil => intro b; exact .inl rfl
  | cons x a ih =>
    intro b
    cases b with
    | nil => exact .inr rfl
    | cons y b =>
      rw [strLe, strLe]
      by_cases hxy : x = y
      · subst hxy; simpa using ih b
      · have hyx : ¬(y = x) := fun h => hxy h.symm
        rw [if_neg hxy, if_neg hyx]
        have : x.toNat ≠ y.toNat := fun h => hxy (Char.toNat_inj.1 h)
        simp only [decide_eq_true_eq]; omega

/-- Everything there is to know about `aggregate_strings`. -/
theorem aggregate_spec (ts : List Token) (sep : Option Token) :
    ∃ (vars : Vars) (D : List (List Char × List Char)) (body : List Token),
      VarsOk ts vars ∧ VarsAll ts ts.length vars ∧
      aggregateStrings ts sep = .ok (declare D ++ sep.toList ++ body) ∧
      (∀ s n, (s, n) ∈ D → Chosen ts vars ts.length s n) ∧
      (D.map Prod.fst).Nodup ∧ (D.map Prod.snd).Nodup ∧ D.Pairwise (fun a b => strLe a.2 b.2 = true) ∧
      (∃ next, (∀ p ∈ D, nameRank p.2 < next) ∧
        (∀ r, 63 ≤ r → r < next → (∃ n ∈ vars.names, nameRank n = r ∧ GenName n) ∨ ∃ n ∈ D.map Prod.snd, nameRank n = r) ∧
        ∀ s, vars.values s = none → s ∉ D.map Prod.fst → 2 ≤ (occ ts s ts.length).length →
          Left vars (nameRank · ≤ next) (occ ts s ts.length).length s) ∧
      body.length = ts.length ∧ ∀ i t, ts[i]? = some t → body[i]? = some (aggToken ts vars D i t) := by
  obtain ⟨vars, hv1, hv2, hv3⟩ := getVariablesName_spec ts
  obtain ⟨g, hg1, hg2, hg3, hg4, hg5⟩ := freeName_ok vars.names gen0_ok
  have hinit : AggInv ts vars 0 { gen := g } := by
    refine ⟨?_, ?_, List.nodup_nil, List.nodup_nil, hg2, hg3, ?_, ?_, ?_⟩
    · intro s; split <;> rfl
    · intro s n h; cases h
    · intro r h1 h2
      exact .inl (hg5 r h1 h2)
    · intro s h1 h2 h3; simp [occ] at h3
    · intro p v
      constructor
      · intro h; cases h
      · rintro ⟨h, -⟩; omega
  obtain ⟨st, hst1, hst2⟩ := aggLoop_spec ts vars ts 0 { gen := g } rfl hinit
  generalize hD : sortBy (fun a b => strLe a.2 b.2) st.validated = D
  have hperm : D.Perm st.validated := hD ▸ sortBy_perm _ _
  have hch : ∀ s n, (s, n) ∈ D → Chosen ts vars ts.length s n := fun s n h =>
    (hst2.chosen s n (hperm.mem_iff.1 h)).1
  have hkeys : (D.map Prod.fst).Nodup := (hperm.map Prod.fst).nodup_iff.2 hst2.keys
  have hnames : (D.map Prod.snd).Nodup := (hperm.map Prod.snd).nodup_iff.2 hst2.names
  have hocc : ∀ s n, (s, n) ∈ D → st.strs s = occ ts s ts.length ∧ occ ts s ts.length ≠ [] := by
    intro s n h
    have hc := hch s n h
    refine ⟨by rw [hst2.strs s, hc.noValue]; rfl, ?_⟩
    obtain ⟨m, h1, h2, -⟩ := hc.worth
    intro h
    rw [h] at h2
    simp at h2
    omega
  obtain ⟨new, hn1, hn2, hn3⟩ := collectNew_spec st.strs D (by
    rintro ⟨s, n⟩ hp
    have := hocc s n hp
    rw [this.1]; exact this.2)
  have happ := applyNew_spec ts D [] ts new (by simpa using hkeys)
    (by
      have : ∀ t, renamed [] t = t := by intro t; unfold renamed; cases t.getStr <;> rfl
      exact ((List.map_congr_left fun t _ => this t).trans (List.map_id ts)).symm)
    hn2 (by
      intro i s n hi
      have hmem : (s, n) ∈ D := List.mem_of_getElem? hi
      have := hocc s n hmem
      exact ⟨by rw [hn3 i s n hi, this.1], this.2⟩)
  simp only [List.nil_append] at happ
  have hmid : ∀ i, (ts.map (renamed D))[i]? = (ts[i]?).map (renamed D) := fun i => List.getElem?_map
  -- positions to be replaced and the names put there
  have hpos : ∀ p v, (p, v) ∈ st.toReplace → ∃ s w name, ts[p]? = some (.str s) ∧ vars.values s = some (v, w) ∧ p ≠ w ∧
      ts[v]? = some (.other name) := by
    intro p v h
    obtain ⟨-, s, w, h1, h2, h3⟩ := (hst2.replace p v).1 h
    obtain ⟨name, h4, -⟩ := hv2.value s v w h2
    exact ⟨s, w, name, h1, h2, h3, h4⟩
  have lt_of : ∀ (i : Nat) (t : Token), ts[i]? = some t → i < ts.length := by
    intro i t hi
    refine Nat.lt_of_not_le fun hle => ?_
    rw [List.getElem?_eq_none hle] at hi; cases hi
  obtain ⟨body, hb1, hb2, hb3, hb4⟩ := applyReplace_spec st.toReplace (ts.map (renamed D))
    (by
      intro p v h
      obtain ⟨s, w, name, h1, -, -, h4⟩ := hpos p v h
      rw [List.length_map]
      exact ⟨lt_of p _ h1, lt_of v _ h4⟩)
    (by
      intro p v q w hp hq
      obtain ⟨s, -, -, h1, -, -, -⟩ := hpos p v hp
      obtain ⟨-, -, name, -, -, -, h4⟩ := hpos q w hq
      rintro rfl
      rw [h1] at h4; cases h4)
    (by
      intro p v v' hp hq
      obtain ⟨s, w, -, h1, h2, -⟩ := hpos p v hp
      obtain ⟨s', w', -, h1', h2', -⟩ := hpos p v' hq
      rw [h1] at h1'; cases h1'
      rw [h2] at h2'; cases h2'
      rfl)
  refine ⟨vars, D, body, hv2, hv3, ?_, hch, hkeys, hnames, ?_, ⟨rank st.gen.letters, ?_, ?_, ?_⟩, ?_, ?_⟩
  · unfold aggregateStrings
    rw [hv1]
    simp only [Out.bind_ok]
    rw [hg1]
    simp only [Out.bind_ok]
    rw [hst1]
    simp only [Out.bind_ok]
    rw [hD, hn1]
    simp only [Out.bind_ok]
    have : applyNew new [] ts = .ok (open_ D, ts.map (renamed D)) := happ
    rw [this]
    simp only [Out.bind_ok]
    rw [hb1]
    simp only [Out.bind_ok]
    have : (if (open_ D).isEmpty = true then open_ D else open_ D ++ [.char .semiColon]) = declare D := by
      cases D with
      | nil => rfl
      | cons p D => obtain ⟨s, n⟩ := p; simp [open_, declare]
    rw [this]
  · rw [← hD]
    exact sortBy_sorted (fun a b c => strLe_trans a.2 b.2 c.2) (fun a b => strLe_total a.2 b.2) _
  · rintro ⟨s, n⟩ h
    exact (hst2.chosen s n (hperm.mem_iff.1 h)).2
  · intro r h1 h2
    rcases hst2.dense r h1 h2 with h | ⟨n, h, h'⟩
    · exact .inl h
    · exact .inr ⟨n, (hperm.map Prod.snd).mem_iff.2 h, h'⟩
  · intro s h1 h2
    exact hst2.left s h1 fun h => h2 ((hperm.map Prod.fst).mem_iff.2 h)
  · rw [hb2, List.length_map]
  · intro i t hi
    have hilt := lt_of i t hi
    unfold aggToken
    cases hs : t.getStr with
    | none =>
      simp only
      rw [hb4 i, hmid, hi]
      · simp [renamed, hs]
      · intro v hv
        obtain ⟨s, -, -, h1, -⟩ := hpos i v hv
        rw [hi] at h1; cases h1; simp [Token.getStr] at hs
    | some s =>
      have ht : t = .str s := by cases t <;> simp [Token.getStr] at hs; rw [hs]
      subst ht
      simp only
      cases hvs : vars.values s with
      | none =>
        simp only
        rw [hb4 i, hmid, hi]
        · rfl
        · intro v hv
          obtain ⟨s', w', -, h1, h2, -⟩ := hpos i v hv
          rw [hi] at h1; cases h1
          rw [hvs] at h2; cases h2
      | some vw =>
        obtain ⟨v, w⟩ := vw
        simp only
        obtain ⟨name, hname, -⟩ := hv2.value s v w hvs
        have hnoD : D.lookup s = none := by
          rw [List.lookup_eq_none_iff]
          rintro ⟨s', n'⟩ hp
          rw [bne_iff_ne]
          rintro rfl
          have := (hch s n' hp).noValue
          rw [hvs] at this; cases this
        by_cases hiw : i = w
        · rw [if_pos hiw, hb4 i, hmid, hi]
          · simp [renamed, Token.getStr, hnoD]
          · intro v' hv'
            obtain ⟨s', w', -, h1, h2, h3, -⟩ := hpos i v' hv'
            rw [hi] at h1; cases h1
            rw [hvs] at h2; cases h2
            exact h3 hiw
        · rw [if_neg hiw, hb3 i v ((hst2.replace i v).2 ⟨hilt, s, w, hi, hvs, hiw⟩), hmid, hname]
          rfl

end Verif.Js
