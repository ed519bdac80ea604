import Verif.Proofs.JsBig
/-!
# Aggregating strings into an array twice
-/
set_option linter.unusedSimpArgs false

namespace Verif.Js
open Spec.JsAgg

/-- The literals with this content. -/
def withContent (c : List Char) (t : Token) : Bool := decide (t.getStr.map content = some c)

theorem seen_le (ts : List Token) (ok : Nat → Bool) (c : List Char) : (seen ts ok c ts.length).length ≤ ts.countP (withContent c) := by
  have h : ∀ k, k ≤ ts.length → (seen ts ok c k).length ≤ (ts.take k).countP (withContent c) := by
    intro k
    induction k with
    | zero => intro _; simp [seen]
    | succ k ih =>
      intro hk
      have := ih (by omega)
      rw [seen_succ, List.take_add_one, List.countP_append]
      split
      · rename_i h
        have h2 := h.2
        unfold litAt at h2
        cases ht : ts[k]? with
        | none => rw [ht] at h2; cases h2
        | some t =>
          rw [ht] at h2
          have hw : withContent c t = true := by
            simp only [Option.bind_some] at h2
            simp [withContent, h2]
          simp [hw]; omega
      · omega
  have := h ts.length (Nat.le_refl _)
  rwa [List.take_length] at this

theorem seen_eq (ts : List Token) (ok : Nat → Bool) (c : List Char) (h : ∀ p, litAt ts p = some c → ok p = true) :
    (seen ts ok c ts.length).length = ts.countP (withContent c) := by
  have h : ∀ k, k ≤ ts.length → (seen ts ok c k).length = (ts.take k).countP (withContent c) := by
    intro k
    induction k with
    | zero => intro _; simp [seen]
    | succ k ih =>
      intro hk
      have := ih (by omega)
      rw [seen_succ, List.take_add_one, List.countP_append]
      have hl : litAt ts k = ts[k].getStr.map content := by
        unfold litAt
        rw [List.getElem?_eq_getElem hk]; rfl
      by_cases hc : litAt ts k = some c
      · rw [if_pos ⟨h k hc, hc⟩, List.getElem?_eq_getElem hk]
        have hw : withContent c ts[k] = true := by simp [withContent, ← hl, hc]
        simp [hw]; omega
      · rw [if_neg (fun h => hc h.2), List.getElem?_eq_getElem hk]
        have hw : withContent c ts[k] = false := by simp [withContent, ← hl, hc]
        simp [hw]; omega
  have := h ts.length (Nat.le_refl _)
  rwa [List.take_length] at this

theorem arrayWorth_mono {m n len nl p q : Nat} (h : arrayWorthIt m len nl p = true) (hm : m ≤ n) (hq : q ≤ p) :
    arrayWorthIt n len nl q = true := by
  unfold arrayWorthIt at h ⊢
  simp only [decide_eq_true_eq] at h ⊢
  have h1 : nl + p + 2 < len := by
    refine Nat.lt_of_not_le fun hle => ?_
    have := Nat.mul_le_mul_right m hle
    omega
  obtain ⟨k, rfl⟩ := Nat.exists_eq_add_of_le hm
  have h2 : (nl + q + 2) * (m + k) ≤ (nl + p + 2) * (m + k) := Nat.mul_le_mul_right _ (by omega)
  have h3 : (nl + p + 2) * k ≤ len * k := Nat.mul_le_mul_right _ (by omega)
  have h4 : (nl + p + 2) * (m + k) = (nl + p + 2) * m + (nl + p + 2) * k := Nat.mul_add ..
  have h5 : len * (m + k) = len * m + len * k := Nat.mul_add ..
  omega

/-- The second run does nothing if no literal is worth an element. -/
theorem array_idle (out : List Token) (name : List Char) (sep : Option Token) (vs : List Nat)
    (hvs : vs = ((getArray out name).map Prod.fst).getD [])
    (hq : ∀ (p : Nat) (s : List Char), out[p]? = some (.str s) → Quoted s)
    (hk : ∀ (j : Nat) (s : List Char), out[j]? = some (.str s) → j ∉ vs → content s ∉ vs.filterMap (litAt out))
    (hw : ∀ c m, c ∉ vs.filterMap (litAt out) → 2 ≤ m → m ≤ out.countP (withContent c) →
      arrayWorthIt m (blen c) (blen name) (blen (natDisplay (vs.filterMap (litAt out)).length)) = false) :
    aggregateIntoArray out name sep (fun _ => true) = .ok out := by
  obtain ⟨O, N, body, ok, hO, hok, hout, hnd, hdis, hN, -, hlen, hbody⟩ := array_spec out name sep (fun _ => true) (fun p s h _ => hq p s h)
  rw [← hvs] at hO hok
  have hNe : N = [] := by
    cases hNe : N with
    | nil => rfl
    | cons c N' =>
      exfalso
      obtain ⟨m, h1, h2, h3⟩ := hN 0 c (by rw [hNe]; rfl)
      have hc : c ∉ O := hdis c (by rw [hNe]; simp)
      rw [hO] at hc
      rw [Nat.add_zero, hO, hw c m hc h1 (Nat.le_trans h2 (seen_le out ok c))] at h3
      cases h3
  subst hNe
  have hb : body = out := by
    refine List.ext_getElem? fun i => ?_
    cases hi : out[i]? with
    | none => rw [List.getElem?_eq_none (by rw [hlen]; exact List.getElem?_eq_none_iff.1 hi)]
    | some t =>
      rcases hbody i t hi with ⟨s, k, rfl, h2, h3, -⟩ | ⟨h, -⟩
      · exfalso
        rw [List.append_nil] at h3
        have h4 := ((hok i).1 h2).2
        have h5 : litAt out i = some (content s) := litAt_some.2 ⟨s, hi, rfl⟩
        refine hk i s hi (fun hm => h4 ⟨hm, by rw [h5]; simp⟩) ?_
        rw [← hO]
        exact List.mem_of_getElem? h3
      · exact h
  rw [hb] at hout
  rw [hout]
  unfold assemble
  cases getArray out name with
  | none => simp
  | some r => obtain ⟨a, b⟩ := r; simp [entries, entriesAfter]

/-! ## The array of the result -/

theorem arrayScan_alike {name : List Char} : ∀ {us us' : List Token}, Alike name us us' → ∀ (ph : Phase) (pos : Nat) (ret : List Nat),
    arrayScan name ph pos ret us' = arrayScan name ph pos ret us := by
  intro us us' h
  induction h with
  | nil => intro ph pos ret; rfl
  | @same t l l' h ih =>
    intro ph pos ret
    cases ph with
    | start => cases t with
      | keyword k => cases k <;> simp only [arrayScan, ih]
      | _ => simp only [arrayScan, ih]
    | var => cases t <;> simp only [arrayScan, ih]
    | equal => cases t with
      | op o => cases o <;> simp only [arrayScan, ih]
      | _ => simp only [arrayScan, ih]
    | array => cases t with
      | char c => cases c <;> simp only [arrayScan, ih]
      | _ => simp only [arrayScan, ih]
    | values => cases t with
      | char c => cases c <;> simp only [arrayScan, ih]
      | _ => simp only [arrayScan, ih]
  | @lit s k l l' h ih =>
    intro ph pos ret
    cases ph <;> simp only [arrayScan, ih] <;> rfl

/-- Tokens that an array may have as values, and commas. -/
def filler (t : Token) : Prop := t ≠ .char .closeBracket ∧ t.isGap = false

theorem arrayScan_fill (name : List Char) : ∀ (X : List Token), (∀ t ∈ X, filler t) → ∀ (pos : Nat) (ret : List Nat) (post : List Token),
    arrayScan name .values pos ret (X ++ .char .closeBracket :: post) =
      some (ret.reverse ++ List.range' pos X.length, pos + X.length) := by
  intro X
  induction X with
  | nil => intro _ pos ret post; simp [arrayScan]
  | cons t X ih =>
    intro hX pos ret post
    obtain ⟨h1, h2⟩ := hX t (by simp)
    have h3 : arrayScan name .values pos ret (t :: (X ++ .char .closeBracket :: post)) =
        arrayScan name .values (pos + 1) (if t.isGap then ret else pos :: ret) (X ++ .char .closeBracket :: post) := by
      cases t with
      | char c => cases c <;> first | rfl | exact absurd rfl h1
      | _ => rfl
    rw [List.cons_append, h3, h2, ih (fun u hu => hX u (by simp [hu]))]
    simp only [Bool.false_eq_true, if_false, List.reverse_cons, List.append_assoc, List.length_cons, List.range'_succ, List.singleton_append]
    rw [show pos + 1 + X.length = pos + (X.length + 1) by omega]

theorem arrayScan_insert (name : List Char) (X : List Token) (hX : ∀ t ∈ X, filler t) : ∀ (us : List Token) (ph : Phase) (pos : Nat) (ret vs : List Nat) (eb : Nat),
    arrayScan name ph pos ret us = some (vs, eb) → pos ≤ eb ∧
      arrayScan name ph pos ret (us.take (eb - pos) ++ X ++ us.drop (eb - pos)) = some (vs ++ List.range' eb X.length, eb + X.length) := by
  intro us
  induction us with
  | nil => intro ph pos ret vs eb h; simp [arrayScan] at h
  | cons t us ih =>
    intro ph pos ret vs eb h
    have step : ∀ ph' ret', (∀ l, arrayScan name ph pos ret (t :: l) = arrayScan name ph' (pos + 1) ret' l) → pos ≤ eb ∧
        arrayScan name ph pos ret ((t :: us).take (eb - pos) ++ X ++ (t :: us).drop (eb - pos)) =
          some (vs ++ List.range' eb X.length, eb + X.length) := by
      intro ph' ret' hs
      rw [hs] at h
      obtain ⟨h1, h2⟩ := ih _ _ _ _ _ h
      refine ⟨by omega, ?_⟩
      rw [show eb - pos = (eb - (pos + 1)) + 1 by omega, List.take_succ_cons, List.drop_succ_cons, List.cons_append, List.cons_append, hs, h2]
    cases ph with
    | start => cases t with
      | keyword k => cases k <;> exact step _ _ fun l => rfl
      | _ => exact step _ _ fun l => rfl
    | var => cases t <;> exact step _ _ fun l => rfl
    | equal => cases t with
      | op o => cases o <;> exact step _ _ fun l => rfl
      | _ => exact step _ _ fun l => rfl
    | array => cases t with
      | char c => cases c <;> exact step _ _ fun l => rfl
      | _ => exact step _ _ fun l => rfl
    | values =>
      by_cases ht : t = .char .closeBracket
      · subst ht
        simp only [arrayScan, Option.some.injEq, Prod.mk.injEq] at h
        obtain ⟨rfl, rfl⟩ := h
        refine ⟨Nat.le_refl _, ?_⟩
        rw [Nat.sub_self, List.take_zero, List.drop_zero, List.nil_append, arrayScan_fill name X hX]
      · cases t with
        | char c => cases c <;> first | exact absurd rfl ht | exact step _ _ fun l => rfl
        | _ => exact step _ _ fun l => rfl

theorem entries_mem {N : List (List Char)} {t : Token} (h : t ∈ entries N) : t.getStr = none ∧ filler t := by
  rw [entries_commas] at h
  rcases mem_commas_entry' h with rfl | ⟨c, rfl⟩
  · exact ⟨rfl, by simp, rfl⟩
  · exact ⟨rfl, by simp, rfl⟩

theorem entriesAfter_mem {N : List (List Char)} {t : Token} (h : t ∈ entriesAfter N) : t.getStr = none ∧ filler t := by
  unfold entriesAfter at h
  obtain ⟨c, -, h⟩ := List.mem_flatMap.1 h
  simp only [List.mem_cons, List.not_mem_nil, or_false] at h
  rcases h with rfl | rfl
  · exact ⟨rfl, by simp, rfl⟩
  · exact ⟨rfl, by simp [entry], rfl⟩

theorem withContent_none {t : Token} (c : List Char) (h : t.getStr = none) : withContent c t = false := by
  simp [withContent, h]

theorem countP_none {l : List Token} (c : List Char) (h : ∀ t ∈ l, t.getStr = none) : l.countP (withContent c) = 0 := by
  rw [List.countP_eq_zero]
  intro t ht
  simp [withContent_none c (h t ht)]

theorem Alike.countP {name : List Char} (c : List Char) {l l' : List Token} (h : Alike name l l') :
    l'.countP (withContent c) ≤ l.countP (withContent c) := by
  induction h with
  | nil => exact Nat.le_refl _
  | same h ih => rw [List.countP_cons, List.countP_cons]; omega
  | lit h ih => rw [List.countP_cons, List.countP_cons, withContent_none c (show (Token.createdVar _).getStr = none from rfl)]; simp; omega

theorem natDigitsRev_mono : ∀ (fuel fuel' a b : Nat), a ≤ b → b < fuel' → (natDigitsRev fuel a).length ≤ (natDigitsRev fuel' b).length := by
  intro fuel
  induction fuel with
  | zero => intro fuel' a b _ _; simp [natDigitsRev]
  | succ fuel ih =>
    intro fuel' a b h1 h2
    cases fuel' with
    | zero => omega
    | succ fuel' =>
      rw [natDigitsRev, natDigitsRev]
      by_cases ha : a < 10
      · rw [if_pos ha]; split <;> simp
      · rw [if_neg ha, if_neg (show ¬b < 10 by omega)]
        have := ih fuel' (a / 10) (b / 10) (by omega) (by omega)
        simpa using this

theorem natDisplay_mono {a b : Nat} (h : a ≤ b) : blen (natDisplay a) ≤ blen (natDisplay b) := by
  rw [blen_of_digits (natDisplay_digits a).2.1, blen_of_digits (natDisplay_digits b).2.1, natDisplay, natDisplay, List.length_reverse,
    List.length_reverse]
  exact natDigitsRev_mono _ _ _ _ h (by omega)

/-- The scan does not stop before the first `var` or `let`. -/
theorem arrayScan_skip (name : List Char) : ∀ (P : List Token), (∀ t ∈ P, t ≠ .keyword .kVar ∧ t ≠ .keyword .kLet) →
    ∀ (pos : Nat) (us : List Token), arrayScan name .start pos [] (P ++ us) = arrayScan name .start (pos + P.length) [] us := by
  intro P
  induction P with
  | nil => intro _ pos us; rfl
  | cons t P ih =>
    intro hP pos us
    obtain ⟨h1, h2⟩ := hP t (by simp)
    have h3 : arrayScan name .start pos [] (t :: (P ++ us)) = arrayScan name .start (pos + 1) [] (P ++ us) := by
      cases t with
      | keyword k => cases k <;> first | rfl | exact absurd rfl h1 | exact absurd rfl h2
      | _ => rfl
    rw [List.cons_append, h3, ih (fun u hu => hP u (by simp [hu])), List.length_cons, show pos + 1 + P.length = pos + (P.length + 1) by omega]

theorem arrayScan_none (name : List Char) : ∀ (us : List Token) (ph : Phase) (pos pos' : Nat) (ret ret' : List Nat),
    arrayScan name ph pos ret us = none → arrayScan name ph pos' ret' us = none := by
  intro us
  induction us with
  | nil => intro ph pos pos' ret ret' _; cases ph <;> rfl
  | cons t us ih =>
    intro ph pos pos' ret ret' h
    cases ph with
    | start => cases t with
      | keyword k => cases k <;> exact ih _ _ _ _ _ h
      | _ => exact ih _ _ _ _ _ h
    | var => cases t <;> exact ih _ _ _ _ _ h
    | equal => cases t with
      | op o => cases o <;> exact ih _ _ _ _ _ h
      | _ => exact ih _ _ _ _ _ h
    | array => cases t with
      | char c => cases c <;> exact ih _ _ _ _ _ h
      | _ => exact ih _ _ _ _ _ h
    | values => cases t with
      | char c => cases c <;> first | exact ih _ _ _ _ _ h | cases h
      | _ => exact ih _ _ _ _ _ h

theorem arrayScan_before (name : List Char) : ∀ (us : List Token) (ph : Phase) (pos : Nat) (ret : List Nat) (vs : List Nat) (eb : Nat),
    arrayScan name ph pos ret us = some (vs, eb) → (∀ p ∈ ret, p < pos) → (∀ p ∈ vs, p < eb) ∧ pos ≤ eb := by
  intro us
  induction us with
  | nil => intro ph pos ret vs eb h; cases ph <;> cases h
  | cons t us ih =>
    intro ph pos ret vs eb h hr
    have step : ∀ ph' ret', arrayScan name ph' (pos + 1) ret' us = some (vs, eb) → (∀ p ∈ ret', p < pos + 1) →
        (∀ p ∈ vs, p < eb) ∧ pos ≤ eb := by
      intro ph' ret' h hr
      obtain ⟨h1, h2⟩ := ih ph' (pos + 1) ret' vs eb h hr
      exact ⟨h1, by omega⟩
    have hr' : ∀ p ∈ ret, p < pos + 1 := fun p hp => by have := hr p hp; omega
    have hr2 : ∀ p ∈ pos :: ret, p < pos + 1 := fun p hp => by
      rcases List.mem_cons.1 hp with rfl | hp
      · omega
      · exact hr' p hp
    cases ph with
    | start => rw [arrayScan.eq_def] at h; simp only at h; split at h <;> exact step _ _ h hr'
    | var => rw [arrayScan.eq_def] at h; simp only at h; split at h <;> exact step _ _ h hr'
    | equal => rw [arrayScan.eq_def] at h; simp only at h; split at h <;> exact step _ _ h hr'
    | array => rw [arrayScan.eq_def] at h; simp only at h; split at h <;> exact step _ _ h hr'
    | values =>
      rw [arrayScan.eq_def] at h
      simp only at h
      split at h
      · simp only [Option.some.injEq, Prod.mk.injEq] at h
        obtain ⟨rfl, rfl⟩ := h
        exact ⟨fun p hp => hr p (List.mem_reverse.1 hp), Nat.le_refl _⟩
      · split at h
        · exact step _ _ h hr'
        · exact step _ _ h hr2

private theorem filterMap_same {α β : Type} {f g : α → Option β} : ∀ {l : List α}, (∀ a ∈ l, f a = g a) → l.filterMap f = l.filterMap g := by
  intro l
  induction l with
  | nil => intro _; rfl
  | cons a l ih =>
    intro h
    rw [List.filterMap_cons, List.filterMap_cons, h a (by simp), ih fun b hb => h b (by simp [hb])]

/-- What was left is not worth more than before. -/
theorem array_twice (ts : List Token) (name : List Char) (sep sep' : Option Token)
    (hq : ∀ (p : Nat) (s : List Char), ts[p]? = some (.str s) → Quoted s)
    (hsep : ∀ t, sep = some t → t.getStr = none ∧ t ≠ .keyword .kVar ∧ t ≠ .keyword .kLet) :
    ∃ (O N : List (List Char)) (out : List Token), aggregateIntoArray ts name sep (fun _ => true) = .ok out ∧
      O = (((getArray ts name).map Prod.fst).getD []).filterMap (litAt ts) ∧ N.Nodup ∧
      (∀ c ∈ N, c ∉ O ∧ entry c ∈ out ∧ 2 ≤ ts.countP (withContent c)) ∧
      (blen (natDisplay O.length) = blen (natDisplay (O.length + N.length)) → aggregateIntoArray out name sep' (fun _ => true) = .ok out) := by
  obtain ⟨O, N, body, ok, hO, hok, hout, hnd, hdis, hN, hleft, hlen, hbody⟩ := array_spec ts name sep (fun _ => true) (fun p s h _ => hq p s h)
  generalize hvs : ((getArray ts name).map Prod.fst).getD [] = vs at hO hok
  have hal : Alike name ts body := by
    refine alike_of_getElem name ts body hlen fun i t ht => ?_
    rcases hbody i t ht with ⟨s, k, h1, -, -, h2⟩ | ⟨h, -⟩
    · exact .inr ⟨s, k, h1, h2⟩
    · exact .inl h
  have hscan : getArray body name = getArray ts name := arrayScan_alike hal _ _ _
  -- the literals of the body
  have hlit : ∀ (i : Nat) (s : List Char), body[i]? = some (.str s) → ts[i]? = some (.str s) ∧ (i ∉ vs → content s ∉ O ++ N) := by
    intro i s hi
    cases ht : ts[i]? with
    | none =>
      have h1 := List.getElem?_eq_none_iff.1 ht
      rw [List.getElem?_eq_none (by omega)] at hi; cases hi
    | some t =>
      rcases hbody i t ht with ⟨s', k, -, -, -, h⟩ | ⟨h, h'⟩
      · rw [h] at hi; cases hi
      · rw [h] at hi; cases hi
        exact ⟨rfl, fun hn => h' s rfl ((hok i).2 ⟨rfl, fun hm => hn hm.1⟩)⟩
  have hold : ∀ p ∈ vs, litAt body p = litAt ts p := by
    intro p hp
    cases ht : ts[p]? with
    | none =>
      have h1 := List.getElem?_eq_none_iff.1 ht
      unfold litAt
      rw [ht, List.getElem?_eq_none (by omega)]
    | some t =>
      unfold litAt
      rcases hbody p t ht with ⟨s', k, rfl, h1, -, -⟩ | ⟨h, -⟩
      · exact absurd ⟨hp, by rw [litAt_some.2 ⟨s', ht, rfl⟩]; simp⟩ ((hok p).1 h1).2
      · rw [ht, h]
  have hcount : ∀ c, c ∉ O → (seen ts ok c ts.length).length = ts.countP (withContent c) := by
    intro c hc
    refine seen_eq ts ok c fun p hp => (hok p).2 ⟨rfl, fun hm => hc ?_⟩
    rw [hO]
    exact List.mem_filterMap.2 ⟨p, hm.1, hp⟩
  have htwo : ∀ c ∈ N, 2 ≤ ts.countP (withContent c) := by
    intro c hc
    obtain ⟨j, hj⟩ := List.getElem?_of_mem hc
    obtain ⟨m, h1, h2, -⟩ := hN j c hj
    rw [hcount c (hdis c hc)] at h2
    omega
  -- the weights in a second run
  have hworth : blen (natDisplay O.length) = blen (natDisplay (O.length + N.length)) → ∀ c m, c ∉ O → 2 ≤ m → m ≤ body.countP (withContent c) →
      arrayWorthIt m (blen c) (blen name) (blen (natDisplay O.length)) = false := by
    intro hd c m hc h1 h2
    have hcN : c ∉ N := by
      intro hcN
      have hpos : 0 < body.countP (withContent c) := by omega
      obtain ⟨t, ht, hw⟩ := List.countP_pos_iff.1 hpos
      obtain ⟨i, hi⟩ := List.getElem?_of_mem ht
      have hts : ∃ s, t = .str s ∧ content s = c := by
        unfold withContent at hw
        simp only [decide_eq_true_eq] at hw
        cases t <;> simp [Token.getStr] at hw
        exact ⟨_, rfl, hw⟩
      obtain ⟨s, rfl, rfl⟩ := hts
      obtain ⟨e1, e2⟩ := hlit i s hi
      refine e2 (fun hm => hc ?_) (List.mem_append_right _ hcN)
      rw [hO]
      exact List.mem_filterMap.2 ⟨i, hm, litAt_some.2 ⟨s, e1, rfl⟩⟩
    have hle := hal.countP c
    obtain ⟨q, hq1, hq2⟩ := hleft c (fun h => (List.mem_append.1 h).elim hc hcN) (by rw [hcount c hc]; omega)
    rw [hcount c hc] at hq2
    cases hw : arrayWorthIt m (blen c) (blen name) (blen (natDisplay O.length)) with
    | false => rfl
    | true =>
      rw [List.length_append] at hq1
      rw [arrayWorth_mono hw (by omega) (by rw [hd]; exact natDisplay_mono hq1)] at hq2
      cases hq2
  cases hg : getArray ts name with
  | none =>
    rw [hg] at hout hvs hscan
    simp only [Option.map_none, Option.getD_none] at hvs
    subst hvs
    simp only [List.filterMap_nil] at hO
    subst hO
    unfold assemble at hout
    simp only at hout
    by_cases hNe : N = []
    · subst hNe
      rw [if_pos rfl] at hout
      refine ⟨[], [], body, hout, by simp, List.nodup_nil, by simp, fun hd => ?_⟩
      refine array_idle body name sep' [] (by rw [hscan]; rfl) (fun p s h => hq p s (hlit p s h).1) (by simp) ?_
      exact fun c m hc h1 h2 => hworth hd c m hc h1 h2
    · rw [if_neg hNe] at hout
      generalize hP : (Token.createdVarDecl ("var ".toList ++ name ++ ['=']) :: .char .openBracket :: entries N ++ [.char .closeBracket, .char .semiColon] ++
          sep.toList) = P at hout
      have hPmem : ∀ t ∈ P, t.getStr = none ∧ t ≠ .keyword .kVar ∧ t ≠ .keyword .kLet := by
        intro t ht
        rw [← hP] at ht
        simp only [List.cons_append, List.mem_cons, List.mem_append, List.append_assoc, List.not_mem_nil, or_false] at ht
        rcases ht with rfl | rfl | h | rfl | rfl | h
        · exact ⟨rfl, by simp, by simp⟩
        · exact ⟨rfl, by simp, by simp⟩
        · rw [entries_commas] at h
          rcases mem_commas_entry' h with rfl | ⟨c, rfl⟩
          · exact ⟨rfl, by simp, by simp⟩
          · exact ⟨rfl, by simp, by simp⟩
        · exact ⟨rfl, by simp, by simp⟩
        · exact ⟨rfl, by simp, by simp⟩
        · exact hsep t (by simpa using h)
      refine ⟨[], N, _, hout, by simp, hnd, ?_, fun hd => ?_⟩
      · intro c hc
        refine ⟨by simp, List.mem_append_left _ ?_, htwo c hc⟩
        rw [← hP, entries_commas]
        have := mem_commas (List.mem_map_of_mem (f := entry) hc)
        simp [this]
      · have hget : getArray (P ++ body) name = none := by
          unfold getArray
          rw [arrayScan_skip name P (fun t ht => (hPmem t ht).2)]
          exact arrayScan_none name body _ _ _ _ _ hscan
        refine array_idle _ name sep' [] (by rw [hget]; rfl) ?_ (by simp) ?_
        · intro p s h
          rcases List.mem_append.1 (List.mem_of_getElem? h) with h | h
          · have := (hPmem _ h).1; cases this
          · obtain ⟨i, hi⟩ := List.getElem?_of_mem h
            exact hq i s (hlit i s hi).1
        · intro c m hc h1 h2
          rw [List.countP_append, countP_none c (fun t ht => (hPmem t ht).1), Nat.zero_add] at h2
          exact hworth hd c m hc h1 h2
  | some r =>
    obtain ⟨vs', eb⟩ := r
    rw [hg] at hout hvs hscan
    simp only [Option.map_some, Option.getD_some] at hvs
    subst hvs
    unfold assemble at hout
    simp only at hout
    generalize hX : (if vs' = [] then entries N else entriesAfter N) = X at hout
    have hXmem : ∀ t ∈ X, t.getStr = none ∧ filler t := by
      intro t ht
      rw [← hX] at ht
      split at ht
      · exact entries_mem ht
      · exact entriesAfter_mem ht
    obtain ⟨-, hins⟩ := arrayScan_insert name X (fun t ht => (hXmem t ht).2) body .start 0 [] vs' eb hscan
    rw [Nat.sub_zero] at hins
    obtain ⟨hb1, -⟩ := arrayScan_before name body .start 0 [] vs' eb hscan (by simp)
    obtain ⟨-, hb2⟩ := arrayScan_bounds name body .start 0 [] vs' eb hscan (by simp)
    refine ⟨O, N, _, hout, hO, hnd, ?_, fun hd => ?_⟩
    · intro c hc
      refine ⟨hdis c hc, ?_, htwo c hc⟩
      refine List.mem_append_left _ (List.mem_append_right _ ?_)
      rw [← hX]
      split
      · rw [entries_commas]; exact mem_commas (List.mem_map_of_mem hc)
      · unfold entriesAfter; exact List.mem_flatMap.2 ⟨c, hc, by simp⟩
    · rw [Nat.zero_add] at hb2
      have hlen1 : (body.take eb).length = eb := by rw [List.length_take]; omega
      have hA : ∀ p, p < eb → (body.take eb ++ X ++ body.drop eb)[p]? = body[p]? := by
        intro p hp
        rw [List.append_assoc, List.getElem?_append_left (by omega), List.getElem?_take_of_lt hp]
      have hB : ∀ p, eb ≤ p → p < eb + X.length → ∃ t, (body.take eb ++ X ++ body.drop eb)[p]? = some t ∧ t.getStr = none := by
        intro p h1 h2
        rw [List.append_assoc, List.getElem?_append_right (by omega), hlen1, List.getElem?_append_left (by omega),
          List.getElem?_eq_getElem (by omega)]
        exact ⟨_, rfl, (hXmem _ (List.getElem_mem _)).1⟩
      have hC : ∀ p, eb + X.length ≤ p → (body.take eb ++ X ++ body.drop eb)[p]? = body[p - X.length]? := by
        intro p hp
        rw [List.getElem?_append_right (by rw [List.length_append]; omega), List.length_append, hlen1, List.getElem?_drop,
          show eb + (p - (eb + X.length)) = p - X.length by omega]
      generalize hU : body.take eb ++ X ++ body.drop eb = U at hA hB hC hins
      have hO2 : (vs' ++ List.range' eb X.length).filterMap (litAt U) = O := by
        have e1 : vs'.filterMap (litAt U) = vs'.filterMap (litAt ts) := by
          refine filterMap_same fun p hp => ?_
          rw [← hold p hp]
          unfold litAt
          rw [hA p (hb1 p hp)]
        have e2 : (List.range' eb X.length).filterMap (litAt U) = [] := by
          rw [List.filterMap_eq_nil_iff]
          intro p hp
          rw [List.mem_range'_1] at hp
          obtain ⟨t, ht, hs⟩ := hB p hp.1 hp.2
          unfold litAt
          rw [ht, Option.bind_some, hs]; rfl
        rw [List.filterMap_append, e1, e2, List.append_nil, ← hO]
      have hstr : ∀ (j : Nat) (s : List Char), U[j]? = some (.str s) →
          ∃ i, body[i]? = some (.str s) ∧ (j ∉ vs' ++ List.range' eb X.length → i ∉ vs') := by
        intro j s hj
        by_cases h1 : j < eb
        · rw [hA j h1] at hj
          exact ⟨j, hj, fun hn hm => hn (List.mem_append_left _ hm)⟩
        · by_cases h2 : j < eb + X.length
          · obtain ⟨t, ht, hs⟩ := hB j (by omega) h2
            rw [ht] at hj; cases hj; cases hs
          · rw [hC j (by omega)] at hj
            exact ⟨_, hj, fun _ hm => by have := hb1 _ hm; omega⟩
      refine array_idle U name sep' (vs' ++ List.range' eb X.length) (by unfold getArray; rw [hins]; rfl) ?_ ?_ ?_
      · intro p s h
        obtain ⟨i, hi, -⟩ := hstr p s h
        exact hq i s (hlit i s hi).1
      · intro j s hj hn
        obtain ⟨i, hi, hi2⟩ := hstr j s hj
        rw [hO2]
        exact fun hm => (hlit i s hi).2 (hi2 hn) (List.mem_append_left _ hm)
      · intro c m hc h1 h2
        rw [hO2] at hc ⊢
        rw [← hU, List.countP_append, List.countP_append, countP_none c (fun t ht => (hXmem t ht).1), Nat.add_zero, ← List.countP_append,
          List.take_append_drop] at h2
        exact hworth hd c m hc h1 h2

end Verif.Js
