import Verif.Proofs.JsAggOrder
/-!
# Aggregating strings into an array before and after cleaning
-/
set_option linter.unusedSimpArgs false

namespace Verif.Js
open Spec.Js Spec.JsAgg

/-- Two runs that end in the same way. -/
def EndsAs {α β : Type} (R : α → β → Prop) : Out α → Out β → Prop
  | .ok a, .ok b => R a b
  | .err e, .err e' => e = e'
  | .panic e, .panic e' => e = e'
  | _, _ => False

private theorem EndsAs.bind {α β γ δ : Type} {R : α → β → Prop} {S : γ → δ → Prop} {x : Out α} {y : Out β} {f : α → Out γ} {g : β → Out δ}
    (h : EndsAs R x y) (hf : ∀ a b, R a b → EndsAs S (f a) (g b)) : EndsAs S (x >>= f) (y >>= g) := by
  cases x <;> cases y <;> first | exact hf _ _ h | exact h | cases h

private theorem EndsAs.refl {α : Type} (x : Out α) : EndsAs Eq x x := by cases x <;> rfl

/-! ## The array of the source -/

/-- What a token that is kept leads to: `none` at the end, else the next phase and whether it is a value. -/
private def onward (name : List Char) : Phase → Token → Option (Phase × Bool)
  | .var, .other s => some (if s = name then .equal else .start, false)
  | .var, _ => some (.start, false)
  | .equal, .op .equal => some (.array, false)
  | .equal, _ => some (.start, false)
  | .array, .char .openBracket => some (.values, false)
  | .array, _ => some (.start, false)
  | .values, .char .closeBracket => none
  | .values, _ => some (.values, true)
  | .start, .keyword .kLet => some (.var, false)
  | .start, .keyword .kVar => some (.var, false)
  | .start, _ => some (.start, false)

private theorem arrayScan_skip {name : List Char} {ph : Phase} {pos : Nat} {ret : List Nat} {t : Token} {l : List Token} (h : keepTok t = false) :
    arrayScan name ph pos ret (t :: l) = arrayScan name ph (pos + 1) ret l := by
  cases t with
  | char c => cases c <;> first | (cases ph <;> rfl) | cases h
  | comment c => cases ph <;> rfl
  | _ => cases h

private theorem arrayScan_next {name : List Char} {ph : Phase} {pos : Nat} {ret : List Nat} {t : Token} {l : List Token} (h : keepTok t = true) :
    arrayScan name ph pos ret (t :: l) =
      match onward name ph t with
      | none => some (ret.reverse, pos)
      | some (ph', v) => arrayScan name ph' (pos + 1) (if v then pos :: ret else ret) l := by
  cases t with
  | char c => cases c <;> first | (cases ph <;> rfl) | cases h
  | op o => cases o <;> cases ph <;> rfl
  | keyword k => cases k <;> cases ph <;> rfl
  | comment c => cases h
  | _ => cases ph <;> rfl

private theorem arrayScan_rk (ts : List Token) (name : List Char) : ∀ (l : List Token) (i : Nat) (ph : Phase) (ret : List Nat), ts.drop i = l →
    arrayScan name ph (rk ts i) (ret.map (rk ts)) (l.filter keepTok) =
      (arrayScan name ph i ret l).map fun r => (r.1.map (rk ts), rk ts r.2)
  | [], i, ph, ret, _ => by cases ph <;> rfl
  | t :: l, i, ph, ret, h => by
    obtain ⟨h1, h2⟩ := drop_cons h
    cases hk : keepTok t with
    | false =>
      rw [List.filter_cons_of_neg (by simp [hk]), arrayScan_skip hk, ← arrayScan_rk ts name l (i + 1) ph ret h2, rk_skip h1 hk]
    | true =>
      rw [List.filter_cons_of_pos hk, arrayScan_next hk, arrayScan_next hk]
      cases onward name ph t with
      | none => simp
      | some p =>
        obtain ⟨ph', v⟩ := p
        simp only
        rw [← arrayScan_rk ts name l (i + 1) ph' _ h2, rk_next h1 hk]
        cases v <;> rfl

private theorem arrayScan_kept {ts : List Token} {name : List Char} : ∀ (l : List Token) (i : Nat) (ph : Phase) (ret : List Nat) (r : List Nat × Nat),
    ts.drop i = l → (∀ p ∈ ret, Kept ts p) → arrayScan name ph i ret l = some r → (∀ p ∈ r.1, Kept ts p) ∧ r.2 < ts.length
  | [], i, ph, ret, r, _, _, h => by cases ph <;> cases h
  | t :: l, i, ph, ret, r, hd, hr, h => by
    obtain ⟨h1, h2⟩ := drop_cons hd
    cases hk : keepTok t with
    | false =>
      rw [arrayScan_skip hk] at h
      exact arrayScan_kept l (i + 1) ph ret r h2 hr h
    | true =>
      rw [arrayScan_next hk] at h
      cases ho : onward name ph t with
      | none =>
        rw [ho] at h
        cases h
        exact ⟨fun p hp => hr p (List.mem_reverse.1 hp), (List.getElem?_eq_some_iff.1 h1).1⟩
      | some p =>
        obtain ⟨ph', v⟩ := p
        rw [ho] at h
        refine arrayScan_kept l (i + 1) ph' _ r h2 ?_ h
        intro p hp
        cases v with
        | false => exact hr p hp
        | true =>
          rcases List.mem_cons.1 hp with rfl | hp
          · exact kept_iff.2 ⟨_, h1, hk⟩
          · exact hr p hp

/-! ## The loops -/

private def Entry.rk (ts : List Token) (e : Entry) : Entry := { e with poss := e.poss.map (Js.rk ts) }

private structure SameArr (ts : List Token) (a b : Arr) : Prop where
  keptStrs : ∀ c e, a.strs c = some e → ∀ p ∈ e.poss, Kept ts p
  keptIgnore : ∀ p ∈ a.ignore, Kept ts p
  strs : ∀ c, b.strs c = (a.strs c).map (Entry.rk ts)
  validated : b.validated = a.validated
  ignore : b.ignore = a.ignore.map (rk ts)
  arrayPos : b.arrayPos = a.arrayPos

private theorem SameArr.put {ts : List Token} {a b : Arr} (h : SameArr ts a b) (c : List Char) {e : Entry} (he : ∀ p ∈ e.poss, Kept ts p) :
    SameArr ts (a.put c e) (b.put c (e.rk ts)) := by
  refine ⟨fun c' e' h' => ?_, h.keptIgnore, fun c' => ?_, h.validated, h.ignore, h.arrayPos⟩
  · simp only [Arr.put] at h'
    split at h'
    · cases h'; exact he
    · exact h.keptStrs c' e' h'
  · simp only [Arr.put]
    split
    · rfl
    · exact h.strs c'

private theorem oldLoop_rk (ts : List Token) : ∀ (ps : List Nat) (a b : Arr), (∀ p ∈ ps, Kept ts p) → SameArr ts a b →
    EndsAs (SameArr ts) (oldLoop ts ps a) (oldLoop (ts.filter keepTok) (ps.map (rk ts)) b)
  | [], a, b, _, h => h
  | p :: ps, a, b, hp, h => by
    obtain ⟨t, h1, h2⟩ := kept_iff.1 (hp p List.mem_cons_self)
    have ih := fun a b => oldLoop_rk ts ps a b fun q hq => hp q (List.mem_cons_of_mem _ hq)
    rw [List.map_cons, oldLoop, oldLoop, h1, rk_get h1 h2]
    simp only
    cases t.getStr with
    | none => exact ih a b h
    | some s =>
      refine EndsAs.bind (EndsAs.refl (inner s)) ?_
      rintro c _ rfl
      have hput := h.put c (e := ⟨a.arrayPos, [], false⟩) (by simp)
      refine ih _ _ ⟨hput.keptStrs, ?_, ?_, ?_, ?_, ?_⟩
      · intro q hq
        rcases List.mem_cons.1 hq with rfl | hq
        · exact hp _ List.mem_cons_self
        · exact h.keptIgnore q hq
      · simp only
        rw [h.arrayPos]
        exact hput.strs
      · show (if b.validated.contains c then b.validated else c :: b.validated) = if a.validated.contains c then a.validated else c :: a.validated
        rw [h.validated]
      · simp only [Arr.put]
        rw [h.ignore]; rfl
      · simp only [Arr.put]
        rw [h.arrayPos]

private theorem arrLoop_rk {ts : List Token} (name : List Char) {f g : Nat → Bool}
    (hf : ∀ (i : Nat) s, ts[i]? = some (.str s) → g (rk ts i) = f i) : ∀ (l : List Token) (i : Nat) (a b : Arr), ts.drop i = l →
      SameArr ts a b → EndsAs (SameArr ts) (arrLoop name f i l a) (arrLoop name g (rk ts i) (l.filter keepTok) b)
  | [], i, a, b, _, h => h
  | t :: l, i, a, b, hd, h => by
    obtain ⟨h1, h2⟩ := drop_cons hd
    have ih := fun a b => arrLoop_rk name hf l (i + 1) a b h2
    cases hk : keepTok t with
    | false =>
      have hs : t.getStr = none := by cases t <;> first | rfl | cases hk
      rw [List.filter_cons_of_neg (by simp [hk]), arrLoop, hs]
      rw [rk_skip h1 hk] at ih
      split <;> exact ih a b h
    | true =>
      rw [rk_next h1 hk] at ih
      rw [List.filter_cons_of_pos hk, arrLoop, arrLoop]
      have hig : b.ignore.contains (rk ts i) = a.ignore.contains i := by
        rw [h.ignore, Bool.eq_iff_iff, List.contains_iff_mem, List.contains_iff_mem, List.mem_map]
        constructor
        · rintro ⟨j, hj1, hj2⟩
          obtain ⟨u, hu1, hu2⟩ := kept_iff.1 (h.keptIgnore j hj1)
          rw [← (rk_inj hu1 h1 hu2 hk).1 hj2]; exact hj1
        · intro hm; exact ⟨i, hm, rfl⟩
      rw [hig]
      split
      · exact ih a b h
      · cases hs : t.getStr with
        | none => exact ih a b h
        | some s =>
          have ht : t = .str s := by cases t <;> simp [Token.getStr] at hs; rw [hs]
          subst ht
          simp only
          rw [hf i s h1]
          split
          · exact ih a b h
          · refine EndsAs.bind (EndsAs.refl (inner s)) ?_
            rintro c _ rfl
            have hx : (b.strs c).getD ⟨0, [], true⟩ = ((a.strs c).getD ⟨0, [], true⟩).rk ts := by
              rw [h.strs]
              cases a.strs c <;> rfl
            have hkept : ∀ p ∈ ((a.strs c).getD ⟨0, [], true⟩).poss ++ [i], Kept ts p := by
              intro p hp
              rcases List.mem_append.1 hp with hp | hp
              · cases he : a.strs c with
                | none => rw [he] at hp; cases hp
                | some e => rw [he] at hp; exact h.keptStrs c e he p hp
              · rw [List.mem_singleton.1 hp]; exact kept_iff.2 ⟨_, h1, hk⟩
            have hposs : (((a.strs c).getD ⟨0, [], true⟩).rk ts).poss ++ [rk ts i] = (((a.strs c).getD ⟨0, [], true⟩).poss ++ [i]).map (rk ts) := by
              rw [List.map_append]; rfl
            simp only [hx]
            rw [hposs, List.length_map, h.validated, h.arrayPos]
            generalize (a.strs c).getD ⟨0, [], true⟩ = x at hkept ⊢
            split
            · have hput := h.put c (e := ⟨a.arrayPos, x.poss ++ [i], x.create⟩) hkept
              exact ih _ _ ⟨hput.keptStrs, hput.keptIgnore, hput.strs, congrArg (c :: ·) h.validated, hput.ignore, congrArg (· + 1) h.arrayPos⟩
            · exact ih _ _ (h.put c (e := ⟨x.index, x.poss ++ [i], x.create⟩) hkept)

private theorem indexed_rk {ts : List Token} {a b : List Char → Option Entry} (h : ∀ c, b c = (a c).map (Entry.rk ts)) :
    ∀ l, indexed b l = indexed a l
  | [] => rfl
  | c :: l => by
    rw [indexed, indexed, h c, indexed_rk h l]
    cases a c <;> rfl

/-! ## The tokens -/

private theorem planLoop_rk {ts : List Token} (name : List Char) {a b : List Char → Option Entry} (h : ∀ c, b c = (a c).map (Entry.rk ts))
    (hk : ∀ c e, a c = some e → ∀ p ∈ e.poss, Kept ts p) (noOld : Bool) (p q : Nat) : ∀ l : List (Nat × List Char),
    EndsAs (fun x y => (∀ z ∈ x.1, Kept ts z.1 ∧ ∃ n, z.2 = .createdVar n) ∧ y.1 = x.1.map (fun z => (rk ts z.1, z.2)) ∧
      ∃ T : List Token, (∀ t ∈ T, keepTok t = true) ∧ x.2 = T.map (fun t => (p, t)) ∧ y.2 = T.map fun t => (q, t))
      (planLoop name a noOld p l) (planLoop name b noOld q l)
  | [] => ⟨by simp, rfl, [], by simp, rfl, rfl⟩
  | (i, c) :: l => by
    rw [planLoop, planLoop, h c]
    cases hc : a c with
    | none => rfl
    | some e =>
      refine EndsAs.bind (planLoop_rk name h hk noOld p q l) ?_
      rintro ⟨x1, x2⟩ ⟨y1, y2⟩ ⟨h1, h2, T, h3, h4, h5⟩
      simp only at h1 h2 h4 h5
      have r1 : ∀ z ∈ e.poss.map (fun p => (p, Token.createdVar (arrayRef name i))) ++ x1, Kept ts z.1 ∧ ∃ n, z.2 = .createdVar n := by
        intro z hz
        rcases List.mem_append.1 hz with hz | hz
        · obtain ⟨p, hp, rfl⟩ := List.mem_map.1 hz
          exact ⟨hk c e hc p hp, _, rfl⟩
        · exact h1 z hz
      have r2 : (e.rk ts).poss.map (fun p => (p, Token.createdVar (arrayRef name i))) ++ y1 =
          (e.poss.map (fun p => (p, Token.createdVar (arrayRef name i))) ++ x1).map (fun z => (rk ts z.1, z.2)) := by
        rw [List.map_append, h2, Entry.rk]
        simp [Function.comp_def]
      simp only
      cases hcr : e.create with
      | false =>
        have : (e.rk ts).create = false := hcr
        simp only [this, Bool.not_false, if_true]
        exact ⟨r1, r2, T, h3, h4, h5⟩
      | true =>
        have : (e.rk ts).create = true := hcr
        simp only [this, Bool.not_true, Bool.false_eq_true, if_false]
        split
        · refine ⟨r1, r2, .createdVar ('"' :: c ++ ['"']) :: T, ?_, ?_, ?_⟩
          · intro t ht
            rcases List.mem_cons.1 ht with rfl | ht
            · rfl
            · exact h3 t ht
          · simp only [h4]; rfl
          · simp only [h5]; rfl
        · refine ⟨r1, r2, .createdVar ('"' :: c ++ ['"']) :: .char .comma :: T, ?_, ?_, ?_⟩
          · intro t ht
            rcases List.mem_cons.1 ht with rfl | ht
            · rfl
            · rcases List.mem_cons.1 ht with rfl | ht
              · rfl
              · exact h3 t ht
          · simp only [h4]; rfl
          · simp only [h5]; rfl

private theorem replaceAll_rk : ∀ (l : List (Nat × Token)) (ts : List Token), (∀ z ∈ l, Kept ts z.1 ∧ keepTok z.2 = true) →
    ∃ ts', replaceAll l ts = .ok ts' ∧ replaceAll (l.map fun z => (rk ts z.1, z.2)) (ts.filter keepTok) = .ok (ts'.filter keepTok) ∧
      ts'.map keepTok = ts.map keepTok
  | [], ts, _ => ⟨ts, rfl, rfl, rfl⟩
  | (p, u) :: l, ts, h => by
    obtain ⟨hp, hu⟩ := h _ List.mem_cons_self
    obtain ⟨t1, a1, a2, a3⟩ := setTok_rk hp hu
    obtain ⟨t2, b1, b2, b3⟩ := replaceAll_rk l t1 fun z hz =>
      ⟨kept_congr a3.symm (h z (List.mem_cons_of_mem _ hz)).1, (h z (List.mem_cons_of_mem _ hz)).2⟩
    refine ⟨t2, ?_, ?_, b3.trans a3⟩
    · rw [replaceAll, a1]; exact b1
    · have e : (l.map fun z => (rk t1 z.1, z.2)) = l.map fun z => (rk ts z.1, z.2) :=
        List.map_congr_left fun z _ => by rw [rk_congr a3]
      rw [e] at b2
      rw [List.map_cons, replaceAll, a2]; exact b2

private theorem insertAll_rk : ∀ (T : List Token) (p : Nat) (ts : List Token), (∀ t ∈ T, keepTok t = true) → p ≤ ts.length →
    ∃ ts', insertAll (T.map fun t => (p, t)) ts = .ok ts' ∧ insertAll (T.map fun t => (rk ts p, t)) (ts.filter keepTok) = .ok (ts'.filter keepTok)
  | [], p, ts, _, _ => ⟨ts, rfl, rfl⟩
  | t :: T, p, ts, h, hp => by
    have hk := h t List.mem_cons_self
    have hlen : p ≤ (ts.take p ++ t :: ts.drop p).length := by
      rw [List.length_append, List.length_take, Nat.min_eq_left hp]; omega
    obtain ⟨t2, b1, b2⟩ := insertAll_rk T p (ts.take p ++ t :: ts.drop p) (fun u hu => h u (List.mem_cons_of_mem _ hu)) hlen
    have hrk : rk (ts.take p ++ t :: ts.drop p) p = rk ts p := by
      unfold rk
      rw [List.take_left' (by rw [List.length_take, Nat.min_eq_left hp])]
    have hfil : (ts.take p ++ t :: ts.drop p).filter keepTok = (ts.filter keepTok).take (rk ts p) ++ t :: (ts.filter keepTok).drop (rk ts p) := by
      rw [List.filter_append, List.filter_cons_of_pos hk, rk_drop]
      congr 1
      have : ts.filter keepTok = (ts.take p).filter keepTok ++ (ts.drop p).filter keepTok := by
        rw [← List.filter_append, List.take_append_drop]
      rw [this]
      exact (List.take_left' rfl).symm
    refine ⟨t2, ?_, ?_⟩
    · rw [List.map_cons, insertAll, if_pos hp]; exact b1
    · have : rk ts p ≤ (ts.filter keepTok).length := by
        unfold rk; exact ((List.take_sublist _ ts).filter keepTok).length_le
      rw [List.map_cons, insertAll, if_pos this, ← hfil, ← hrk]
      exact b2

private theorem arrayScan_pos {name : List Char} : ∀ (l : List Token) (i : Nat) (ph : Phase) (ret : List Nat) (r : List Nat × Nat),
    arrayScan name ph i ret l = some r → i ≤ r.2 ∧ (ph ≠ .values → i < r.2)
  | [], i, ph, ret, r, h => by cases ph <;> cases h
  | t :: l, i, ph, ret, r, h => by
    have ih := fun ph ret => arrayScan_pos (name := name) l (i + 1) ph ret r
    cases hk : keepTok t with
    | false =>
      rw [arrayScan_skip hk] at h
      have := (ih _ _ h).1
      exact ⟨by omega, fun _ => by omega⟩
    | true =>
      rw [arrayScan_next hk] at h
      cases ho : onward name ph t with
      | none =>
        rw [ho] at h
        cases h
        refine ⟨Nat.le_refl _, fun hph => ?_⟩
        unfold onward at ho
        split at ho <;> first | exact absurd rfl hph | cases ho
      | some p =>
        rw [ho] at h
        have := (ih _ _ h).1
        exact ⟨by omega, fun _ => by omega⟩

private theorem replaceAll_head : ∀ (l : List (Nat × Token)) (ts out : List Token), (∀ z ∈ l, z.2 ≠ .char .semiColon) →
    replaceAll l ts = .ok out → ts.head? ≠ some (.char .semiColon) → out.head? ≠ some (.char .semiColon)
  | [], ts, out, _, h, hn => by cases h; exact hn
  | (p, u) :: l, ts, out, hu, h, hn => by
    rw [replaceAll, setTok] at h
    split at h
    · refine replaceAll_head l _ out (fun z hz => hu z (List.mem_cons_of_mem _ hz)) h ?_
      have := hu _ List.mem_cons_self
      cases ts with
      | nil => simp
      | cons t ts =>
        cases p with
        | zero => simpa using this
        | succ p => simpa using hn
    · cases h

private theorem insertAll_head {p : Nat} : ∀ (T ts out : List Token), insertAll (T.map fun t => (p + 1, t)) ts = .ok out → out.head? = ts.head?
  | [], ts, out, h => by cases h; rfl
  | t :: T, ts, out, h => by
    rw [List.map_cons, insertAll] at h
    split at h
    · next hp =>
      rw [insertAll_head T _ out h]
      cases ts with
      | nil => simp at hp
      | cons t ts => rfl
    · cases h

/-- Aggregating strings into an array among the tokens that are kept, and keeping tokens after that. -/
theorem array_filter (ts : List Token) (name : List Char) (sep : Option Token) {f g : Nat → Bool}
    (hf : ∀ (i : Nat) s, ts[i]? = some (.str s) → g (rk ts i) = f i) (hsep : ∀ t, sep = some t → useless t = true) :
    EndsAs (fun out out' => out' = out.filter keepTok ∧
      ((ts.filter keepTok).head? ≠ some (.char .semiColon) → out'.head? ≠ some (.char .semiColon))) (aggregateIntoArray ts name sep f) (aggregateIntoArray (ts.filter keepTok) name none g) := by
  have hget : getArray (ts.filter keepTok) name = (getArray ts name).map fun r => (r.1.map (rk ts), rk ts r.2) :=
    arrayScan_rk ts name ts 0 .start [] rfl
  have hkept : ∀ r, getArray ts name = some r → (∀ p ∈ r.1, Kept ts p) ∧ r.2 < ts.length := fun r h =>
    arrayScan_kept ts 0 .start [] r rfl (by simp) h
  have hinit : SameArr ts {} {} := ⟨by simp, by simp, fun _ => rfl, rfl, rfl, rfl⟩
  rw [aggregateIntoArray, aggregateIntoArray, hget]
  have hstart : ∀ st st', SameArr ts st st' → EndsAs (SameArr ts) (arrLoop name f 0 ts st) (arrLoop name g 0 (ts.filter keepTok) st') :=
    fun st st' h => arrLoop_rk name hf ts 0 st st' rfl h
  cases hg : getArray ts name with
  | some r =>
    obtain ⟨old, e⟩ := r
    obtain ⟨hold, he⟩ := hkept _ hg
    simp only [Option.map_some]
    refine EndsAs.bind (oldLoop_rk ts old {} {} hold hinit) fun st st' hst => ?_
    refine EndsAs.bind (hstart st st' hst) fun a b hab => ?_
    rw [indexed_rk hab.strs, hab.validated]
    refine EndsAs.bind (EndsAs.refl _) ?_
    rintro v _ rfl
    simp only [Bool.false_and, Bool.false_eq_true, if_false, List.isEmpty_map, List.nil_append]
    refine EndsAs.bind (planLoop_rk name hab.strs hab.keptStrs old.isEmpty e (rk ts e) _) ?_
    rintro ⟨x1, x2⟩ ⟨y1, y2⟩ ⟨h1, h2, T, h3, h4, h5⟩
    simp only at h1 h2 h4 h5
    subst h2 h4 h5
    obtain ⟨t1, a1, a2, a3⟩ := replaceAll_rk x1 ts fun z hz => ⟨(h1 z hz).1, by obtain ⟨-, n, g2⟩ := h1 z hz; rw [g2]; rfl⟩
    have hlen : t1.length = ts.length := by
      have := congrArg List.length a3
      simpa using this
    obtain ⟨t2, b1, b2⟩ := insertAll_rk T e t1 h3 (by have := he; simp only at this; omega)
    have hpos : 0 < rk t1 e := by
      have h0 : getArray (ts.filter keepTok) name = some (old.map (rk ts), rk ts e) := by rw [hget, hg]; rfl
      have := (arrayScan_pos _ _ _ _ _ h0).2 (by simp)
      rw [rk_congr a3]; exact this
    have hhead := fun hn => replaceAll_head _ _ _ (fun z hz => by
      obtain ⟨z', hz', rfl⟩ := List.mem_map.1 hz
      obtain ⟨-, n, g2⟩ := h1 z' hz'
      simp only
      rw [g2]; simp) a2 hn
    simp only
    rw [a1, a2, ← rk_congr a3]
    simp only [Out.bind_ok]
    rw [b1, b2]
    refine ⟨rfl, fun hn => ?_⟩
    cases hr : rk t1 e with
    | zero => omega
    | succ r =>
      rw [hr] at b2
      rw [insertAll_head T _ _ b2]
      exact hhead hn
  | none =>
    simp only [Option.map_none]
    refine EndsAs.bind (oldLoop_rk ts [] {} {} (by simp) hinit) fun st st' hst => ?_
    refine EndsAs.bind (hstart st st' hst) fun a b hab => ?_
    rw [indexed_rk hab.strs, hab.validated]
    refine EndsAs.bind (EndsAs.refl _) ?_
    rintro v _ rfl
    simp only [Bool.true_and, List.isEmpty_nil]
    generalize sortBy (fun (a b : Nat × List Char) => decide (b.1 ≤ a.1)) v = l
    cases l with
    | nil =>
      simp only [List.isEmpty_nil, Bool.not_true, Bool.false_eq_true, if_false, planLoop, Out.bind_ok, replaceAll, List.nil_append, insertAll]
      exact ⟨rfl, id⟩
    | cons z l =>
      simp only [List.isEmpty_cons, Bool.not_false, if_true]
      refine EndsAs.bind (planLoop_rk name hab.strs hab.keptStrs true 2 2 _) ?_
      rintro ⟨x1, x2⟩ ⟨y1, y2⟩ ⟨h1, h2, T, h3, h4, h5⟩
      simp only at h1 h2 h4 h5
      subst h2 h4 h5
      obtain ⟨t1, a1, a2, a3⟩ := replaceAll_rk x1 ts fun z hz => ⟨(h1 z hz).1, by obtain ⟨-, n, g2⟩ := h1 z hz; rw [g2]; rfl⟩
      simp only
      rw [a1, a2]
      simp only [Out.bind_ok]
      have hins : ∀ (sp : Option Token) (u : List Token), insertAll ((sp.toList.map fun t => (0, t)) ++
          [(0, .char .semiColon), (0, .char .closeBracket), (0, .char .openBracket), (0, .createdVarDecl ("var ".toList ++ name ++ ['=']))] ++
          T.map fun t => (2, t)) u = insertAll (T.map fun t => (2, t))
          (.createdVarDecl ("var ".toList ++ name ++ ['=']) :: .char .openBracket :: .char .closeBracket :: .char .semiColon :: (sp.toList ++ u)) := by
        intro sp u
        cases sp <;> simp [insertAll]
      rw [hins, hins]
      obtain ⟨t2, b1, b2⟩ := insertAll_rk T 2
        (.createdVarDecl ("var ".toList ++ name ++ ['=']) :: .char .openBracket :: .char .closeBracket :: .char .semiColon :: (sep.toList ++ t1)) h3
        (by simp)
      have hsp : sep.toList.filter keepTok = [] := by
        cases sep with
        | none => rfl
        | some t => simp [keepTok_eq, hsep t rfl]
      have hfil : (.createdVarDecl ("var ".toList ++ name ++ ['=']) :: .char .openBracket :: .char .closeBracket :: .char .semiColon ::
          (sep.toList ++ t1) : List Token).filter keepTok = .createdVarDecl ("var ".toList ++ name ++ ['=']) :: .char .openBracket ::
          .char .closeBracket :: .char .semiColon :: t1.filter keepTok := by
        rw [List.filter_cons_of_pos rfl, List.filter_cons_of_pos rfl, List.filter_cons_of_pos rfl, List.filter_cons_of_pos rfl,
          List.filter_append, hsp, List.nil_append]
      have hrk : rk (.createdVarDecl ("var ".toList ++ name ++ ['=']) :: .char .openBracket :: .char .closeBracket :: .char .semiColon ::
          (sep.toList ++ t1)) 2 = 2 := rfl
      rw [hfil, hrk] at b2
      rw [b1]
      simp only [Option.toList_none, List.nil_append]
      rw [b2]
      refine ⟨rfl, fun _ => ?_⟩
      rw [insertAll_head T _ _ b2]
      simp

end Verif.Js
