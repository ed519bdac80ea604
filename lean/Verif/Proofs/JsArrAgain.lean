import Verif.Proofs.JsArrTwice
/-!
# Aggregating into an array, writing, reading, and aggregating again
-/
set_option linter.unusedSimpArgs false

namespace Verif.Js
open Spec.JsAgg

/-- What is read where a token was written: a declaration, a reference and an element are one token for the writer only. -/
def reread (name : List Char) : Token → List Token
  | .createdVarDecl _ => [.keyword .kVar, .other name, .op .equal]
  | .createdVar s =>
    if s.head? = some '"' then [.str s] else
      [.other name, .char .openBracket, wordToken ((s.drop (name.length + 1)).dropLast), .char .closeBracket]
  | t => [t]

/-- A token that does not begin a declaration. -/
def NoDecl (t : Token) : Prop := t ≠ .keyword .kVar ∧ t ≠ .keyword .kLet

/-- Replacements that do not help to find an array. -/
def Mild (f : Token → List Token) (t : Token) : Prop :=
  f t = [t] ∨ (∃ s, t = .createdVar s) ∧
    ((∃ s, f t = [.str s]) ∨ ∃ w x, NoDecl x ∧ f t = [.other w, .char .openBracket, x, .char .closeBracket])

theorem scan_cut (name : List Char) : ∀ (us : List Token) (ph : Phase) (pos : Nat) (ret vs : List Nat) (eb : Nat), ph ≠ .values →
    arrayScan name ph pos ret us = some (vs, eb) →
    ∃ pre rest, us = pre ++ .char .openBracket :: rest ∧ arrayScan name .values (pos + pre.length + 1) ret rest = some (vs, eb) ∧
      ∀ f, (∀ t ∈ pre, Mild f t) →
        ∀ (pos' : Nat) (ret' : List Nat) (rest' : List Token),
        arrayScan name ph pos' ret' (pre.flatMap f ++ .char .openBracket :: rest') =
          arrayScan name .values (pos' + (pre.flatMap f).length + 1) ret' rest' := by
  intro us
  induction us with
  | nil => intro ph pos ret vs eb _ h; cases ph <;> cases h
  | cons t us ih =>
    intro ph pos ret vs eb hph h
    have step : ∀ ph', ph' ≠ .values → (∀ pos ret l, arrayScan name ph pos ret (t :: l) = arrayScan name ph' (pos + 1) ret l) →
        ((∃ s, t = .createdVar s) → ph' = .start) →
        ∃ pre rest, t :: us = pre ++ .char .openBracket :: rest ∧ arrayScan name .values (pos + pre.length + 1) ret rest = some (vs, eb) ∧
          ∀ f, (∀ t ∈ pre, Mild f t) →
            ∀ (pos' : Nat) (ret' : List Nat) (rest' : List Token),
            arrayScan name ph pos' ret' (pre.flatMap f ++ .char .openBracket :: rest') =
              arrayScan name .values (pos' + (pre.flatMap f).length + 1) ret' rest' := by
      intro ph' hne hs hv
      rw [hs] at h
      obtain ⟨pre, rest, h1, h2, h3⟩ := ih ph' (pos + 1) ret vs eb hne h
      refine ⟨t :: pre, rest, by rw [h1]; rfl, ?_, ?_⟩
      · rw [List.length_cons, show pos + (pre.length + 1) + 1 = pos + 1 + pre.length + 1 by omega]; exact h2
      · intro f hf pos' ret' rest'
        have hr := h3 f (fun u hu => hf u (List.mem_cons_of_mem _ hu))
        rw [List.flatMap_cons, List.append_assoc, List.length_append]
        rcases hf t List.mem_cons_self with e | ⟨e0, e⟩
        · rw [e, List.singleton_append, hs, hr]
          simp only [List.length_cons, List.length_nil]
          rw [show pos' + 1 + (pre.flatMap f).length + 1 = pos' + (0 + 1 + (pre.flatMap f).length) + 1 by omega]
        · have hst := hv e0
          subst hst
          rcases e with ⟨s, e⟩ | ⟨w, x, hx, e⟩
          · have : arrayScan name ph pos' ret' ([Token.str s] ++ (pre.flatMap f ++ .char .openBracket :: rest')) =
                arrayScan name .start (pos' + 1) ret' (pre.flatMap f ++ .char .openBracket :: rest') := by
              cases ph <;> first | rfl | exact absurd rfl hph
            rw [e, this, hr]
            simp only [List.length_cons, List.length_nil]
            rw [show pos' + 1 + (pre.flatMap f).length + 1 = pos' + (0 + 1 + (pre.flatMap f).length) + 1 by omega]
          · have : arrayScan name ph pos' ret' ([Token.other w, .char .openBracket, x, .char .closeBracket] ++
                (pre.flatMap f ++ .char .openBracket :: rest')) =
                arrayScan name .start (pos' + 4) ret' (pre.flatMap f ++ .char .openBracket :: rest') := by
              have hx' : ∀ p l, arrayScan name .start p ret' (x :: .char .closeBracket :: l) = arrayScan name .start (p + 2) ret' l := by
                intro p l
                cases x with
                | keyword k => cases k <;> first | rfl | exact absurd rfl hx.1 | exact absurd rfl hx.2
                | _ => rfl
              cases ph with
              | var =>
                by_cases hw : w = name
                · subst hw
                  show arrayScan w (if w = w then .equal else .start) (pos' + 1) ret' _ = _
                  rw [if_pos rfl]
                  exact hx' _ _
                · show arrayScan name (if w = name then .equal else .start) (pos' + 1) ret' _ = _
                  rw [if_neg hw]
                  exact hx' _ _
              | values => exact absurd rfl hph
              | _ => exact hx' _ _
            rw [e, this, hr]
            simp only [List.length_cons, List.length_nil]
            rw [show pos' + 4 + (pre.flatMap f).length + 1 = pos' + (0 + 1 + 1 + 1 + 1 + (pre.flatMap f).length) + 1 by omega]
    cases ph with
    | start => cases t with
      | keyword k => cases k <;> exact step _ (by simp) (fun _ _ l => rfl) (by simp)
      | _ => exact step _ (by simp) (fun _ _ l => rfl) (by simp)
    | var =>
      cases t with
      | other s => exact step (if s = name then .equal else .start) (by split <;> simp) (fun _ _ l => rfl) (by simp)
      | createdVar s => exact step .start (by simp) (fun _ _ l => rfl) (by simp)
      | _ => exact step (if Token.isGap _ then .var else .start) (by split <;> simp) (fun _ _ l => rfl) (by simp)
    | equal => cases t with
      | op o => cases o <;> first
          | exact step .array (by simp) (fun _ _ l => rfl) (by simp)
          | exact step .start (by simp) (fun _ _ l => rfl) (by simp)
      | createdVar s => exact step .start (by simp) (fun _ _ l => rfl) (by simp)
      | _ => exact step (if Token.isGap _ then .equal else .start) (by split <;> simp) (fun _ _ l => rfl) (by simp)
    | array =>
      by_cases ht : t = .char .openBracket
      · subst ht
        exact ⟨[], us, rfl, h, fun f _ pos' ret' rest' => rfl⟩
      · cases t with
        | char c => cases c <;> first
            | exact absurd rfl ht
            | exact step .array (by simp) (fun _ _ l => rfl) (by simp)
            | exact step .start (by simp) (fun _ _ l => rfl) (by simp)
        | createdVar s => exact step .start (by simp) (fun _ _ l => rfl) (by simp)
        | _ => exact step (if Token.isGap _ then .array else .start) (by split <;> simp) (fun _ _ l => rfl) (by simp)
    | values => exact absurd rfl hph

theorem scan_values_eq (name : List Char) : ∀ (A : List Token), .char .closeBracket ∉ A → ∀ (pos : Nat) (ret : List Nat) (post : List Token),
    arrayScan name .values pos ret (A ++ .char .closeBracket :: post) = some (ret.reverse ++ solidAt pos A, pos + A.length) := by
  intro A
  induction A with
  | nil => intro _ pos ret post; simp [arrayScan, solidAt]
  | cons t A ih =>
    intro hA pos ret post
    have h3 : arrayScan name .values pos ret (t :: (A ++ .char .closeBracket :: post)) =
        arrayScan name .values (pos + 1) (if t.isGap then ret else pos :: ret) (A ++ .char .closeBracket :: post) := by
      cases t with
      | char c => cases c <;> first | rfl | exact absurd List.mem_cons_self hA
      | _ => rfl
    rw [List.cons_append, h3, ih (fun h => hA (List.mem_cons_of_mem _ h)), solidAt, blank_eq, List.length_cons,
      show pos + 1 + A.length = pos + (A.length + 1) by omega]
    cases t.isGap <;> simp

theorem scan_values (name : List Char) : ∀ (us : List Token) (pos : Nat) (ret vs : List Nat) (eb : Nat),
    arrayScan name .values pos ret us = some (vs, eb) → ∃ A post, us = A ++ .char .closeBracket :: post ∧ .char .closeBracket ∉ A := by
  intro us
  induction us with
  | nil => intro pos ret vs eb h; cases h
  | cons t us ih =>
    intro pos ret vs eb h
    by_cases ht : t = .char .closeBracket
    · exact ⟨[], us, by rw [ht]; rfl, by simp⟩
    · have h3 : arrayScan name .values pos ret (t :: us) =
          arrayScan name .values (pos + 1) (if t.isGap then ret else pos :: ret) us := by
        cases t with
        | char c => cases c <;> first | rfl | exact absurd rfl ht
        | _ => rfl
      rw [h3] at h
      obtain ⟨A, post, h1, h2⟩ := ih _ _ _ _ h
      exact ⟨t :: A, post, by rw [h1]; rfl, by simp only [List.mem_cons, not_or]; exact ⟨fun e => ht e.symm, h2⟩⟩

/-- The contents of the literals in a list. -/
def lits (l : List Token) : List (List Char) := l.filterMap fun t => t.getStr.map content

theorem mem_lits {l : List Token} {c : List Char} : c ∈ lits l ↔ ∃ s, .str s ∈ l ∧ content s = c := by
  unfold lits
  rw [List.mem_filterMap]
  constructor
  · rintro ⟨t, h1, h2⟩
    cases t <;> simp [Token.getStr] at h2
    exact ⟨_, h1, h2⟩
  · rintro ⟨s, h1, h2⟩
    exact ⟨_, h1, by simp [Token.getStr, h2]⟩

/-- A script with an array that no further literal is worth to be put into. -/
theorem idle_split (P A Q : List Token) (name : List Char) (sep : Option Token)
    (hg : getArray (P ++ .char .openBracket :: (A ++ .char .closeBracket :: Q)) name = some (solidAt (P.length + 1) A, P.length + 1 + A.length))
    (hq : ∀ s, .str s ∈ P ++ A ++ Q → Quoted s)
    (hk : ∀ s, .str s ∈ P ++ Q → content s ∉ lits A)
    (hw : ∀ c m, c ∉ lits A → 2 ≤ m → m ≤ (P ++ Q).countP (withContent c) →
      arrayWorthIt m (blen c) (blen name) (blen (natDisplay (lits A).length)) = false) :
    aggregateIntoArray (P ++ .char .openBracket :: (A ++ .char .closeBracket :: Q)) name sep (fun _ => true) =
      .ok (P ++ .char .openBracket :: (A ++ .char .closeBracket :: Q)) := by
  have hlits : (solidAt (P.length + 1) A).filterMap (litAt (P ++ .char .openBracket :: (A ++ .char .closeBracket :: Q))) = lits A := by
    have := lits_of_solid P (.char .closeBracket :: Q) A [.char .openBracket]
    unfold lits
    simpa using this
  have hmem : ∀ (j : Nat) (s : List Char), (P ++ .char .openBracket :: (A ++ .char .closeBracket :: Q))[j]? = some (.str s) →
      .str s ∈ P ++ A ++ Q ∧ (j ∉ solidAt (P.length + 1) A → .str s ∈ P ++ Q) := by
    intro j s hj
    by_cases h1 : j < P.length
    · rw [List.getElem?_append_left h1] at hj
      have := List.mem_of_getElem? hj
      exact ⟨by simp [this], fun _ => by simp [this]⟩
    · rw [List.getElem?_append_right (by omega)] at hj
      by_cases h2 : j = P.length
      · subst h2; simp at hj
      · rw [show j - P.length = (j - (P.length + 1)) + 1 by omega, List.getElem?_cons_succ] at hj
        by_cases h3 : j - (P.length + 1) < A.length
        · rw [List.getElem?_append_left h3] at hj
          have := List.mem_of_getElem? hj
          refine ⟨by simp [this], fun hn => absurd (mem_solidAt.2 ⟨by omega, _, hj, rfl⟩) hn⟩
        · rw [List.getElem?_append_right (by omega)] at hj
          have := List.mem_of_getElem? hj
          simp only [List.mem_cons, reduceCtorEq, false_or] at this
          exact ⟨by simp [this], fun _ => by simp [this]⟩
  refine array_idle _ name sep (solidAt (P.length + 1) A) (by rw [hg]; rfl) (fun p s h => hq s (hmem p s h).1) ?_ ?_
  · intro j s hj hn
    rw [hlits]
    exact hk s ((hmem j s hj).2 hn)
  · intro c m hc h1 h2
    rw [hlits] at hc ⊢
    refine hw c m hc h1 ?_
    have hA : A.countP (withContent c) = 0 := by
      rw [List.countP_eq_zero]
      intro t ht hwc
      unfold withContent at hwc
      simp only [decide_eq_true_eq] at hwc
      exact hc (List.mem_filterMap.2 ⟨t, ht, hwc⟩)
    have e1 : withContent c (.char .openBracket) = false := by simp [withContent, Token.getStr]
    have e2 : withContent c (.char .closeBracket) = false := by simp [withContent, Token.getStr]
    simpa [List.countP_append, List.countP_cons, hA, e1, e2] using h2

theorem reread_ref {name : List Char} (hn : name.head? ≠ some '"') (k : Nat) :
    reread name (.createdVar (arrayRef name k)) = [.other name, .char .openBracket, wordToken (natDisplay k), .char .closeBracket] := by
  have h1 : (arrayRef name k).head? ≠ some '"' := by
    unfold arrayRef
    cases name with
    | nil => simp
    | cons a n => simpa using hn
  have h2 : ((arrayRef name k).drop (name.length + 1)).dropLast = natDisplay k := by
    unfold arrayRef
    rw [show name ++ ['['] ++ natDisplay k ++ [']'] = (name ++ ['[']) ++ (natDisplay k ++ [']']) by simp,
      List.drop_left' (by simp), List.dropLast_concat]
  simp only [reread, if_neg h1, h2]

theorem reread_entry (name c : List Char) : reread name (entry c) = [.str ('"' :: (c ++ ['"']))] := by
  simp [reread, entry]

theorem wordToken_none (w : List Char) : (wordToken w).getStr = none := by
  unfold wordToken
  split
  · rfl
  · split
    · rfl
    · split <;> rfl

theorem noDecl_index (k : Nat) : NoDecl (wordToken (natDisplay k)) := by
  have h := natDisplay_digits k
  have key : ∀ x, Keyword.ofStr (natDisplay k) = some x → x = .kVar ∨ x = .kLet → False := by
    intro x h1 h2
    have hd := (keyword_some h1).2
    rcases h2 with rfl | rfl
    · exact absurd (h.2.1 'v' (by rw [← hd]; decide +kernel)) (by decide +kernel)
    · exact absurd (h.2.1 'l' (by rw [← hd]; decide +kernel)) (by decide +kernel)
  unfold NoDecl wordToken
  split
  · rename_i x hx
    exact ⟨fun e => key x hx (.inl (by cases e; rfl)), fun e => key x hx (.inr (by cases e; rfl))⟩
  · split
    · exact ⟨by simp, by simp⟩
    · split <;> exact ⟨by simp, by simp⟩

theorem quoted_again (c : List Char) : Quoted ('"' :: (c ++ ['"'])) := ⟨'"', c, '"', rfl, by decide, by decide⟩

/-- What is read of new elements. -/
theorem entries_again (name : List Char) : ∀ N : List (List Char), lits ((entries N).flatMap (reread name)) = N ∧
    .char .closeBracket ∉ (entries N).flatMap (reread name) ∧ ∀ s, .str s ∈ (entries N).flatMap (reread name) → Quoted s
  | [] => by simp [entries, lits]
  | [c] => by
    simp only [entries, List.flatMap_cons, List.flatMap_nil, List.append_nil, reread_entry]
    refine ⟨by simp [lits, Token.getStr, content], by simp, fun s hs => ?_⟩
    simp only [List.mem_singleton, Token.str.injEq] at hs
    rw [hs]; exact quoted_again c
  | c :: d :: N => by
    obtain ⟨h1, h2, h3⟩ := entries_again name (d :: N)
    simp only [entries, List.flatMap_cons, reread_entry]
    refine ⟨?_, ?_, fun s hs => ?_⟩
    · unfold lits at h1 ⊢
      rw [List.filterMap_append, List.filterMap_append, h1]
      simp [reread, Token.getStr, content]
    · simp [reread, h2]
    · rcases List.mem_append.1 hs with hs | hs
      · simp only [List.mem_singleton, Token.str.injEq] at hs
        rw [hs]; exact quoted_again c
      · rcases List.mem_append.1 hs with hs | hs
        · simp [reread] at hs
        · exact h3 s hs

theorem entriesAfter_again (name : List Char) (N : List (List Char)) : lits ((entriesAfter N).flatMap (reread name)) = N ∧
    .char .closeBracket ∉ (entriesAfter N).flatMap (reread name) ∧ ∀ s, .str s ∈ (entriesAfter N).flatMap (reread name) → Quoted s := by
  induction N with
  | nil => simp [entriesAfter, lits]
  | cons c N ih =>
    obtain ⟨h1, h2, h3⟩ := ih
    have e : (entriesAfter (c :: N)).flatMap (reread name) =
        .char .comma :: .str ('"' :: (c ++ ['"'])) :: (entriesAfter N).flatMap (reread name) := by
      simp only [entriesAfter, List.flatMap_cons, List.cons_append, List.nil_append, reread_entry]
      rfl
    rw [e]
    refine ⟨?_, ?_, fun s hs => ?_⟩
    · have e2 : content ('"' :: (c ++ ['"'])) = c := by simp [content]
      show content ('"' :: (c ++ ['"'])) :: lits _ = _
      rw [e2, h1]
    · simp [h2]
    · simp only [List.mem_cons, reduceCtorEq, false_or, Token.str.injEq] at hs
      rcases hs with rfl | hs
      · exact quoted_again c
      · exact h3 s hs

/-- A token that was there, or a reference. -/
def Ref (name : List Char) (t : Token) : Prop := reread name t = [t] ∨ ∃ k, t = .createdVar (arrayRef name k)

theorem Ref.mild {name : List Char} {t : Token} (hn : name.head? ≠ some '"') (h : Ref name t) : Mild (reread name) t := by
  rcases h with h | ⟨k, rfl⟩
  · exact .inl h
  · exact .inr ⟨⟨_, rfl⟩, .inr ⟨_, _, noDecl_index k, reread_ref hn k⟩⟩

theorem refs_strs {name : List Char} (hn : name.head? ≠ some '"') : ∀ {l : List Token}, (∀ t ∈ l, Ref name t) →
    (∀ s, .str s ∈ l.flatMap (reread name) → .str s ∈ l) ∧ ∀ c, (l.flatMap (reread name)).countP (withContent c) = l.countP (withContent c) := by
  intro l
  induction l with
  | nil => intro _; simp
  | cons t l ih =>
    intro h
    obtain ⟨h1, h2⟩ := ih fun u hu => h u (List.mem_cons_of_mem _ hu)
    rw [List.flatMap_cons]
    rcases h t List.mem_cons_self with e | ⟨k, rfl⟩
    · rw [e]
      refine ⟨fun s hs => ?_, fun c => ?_⟩
      · rcases List.mem_append.1 hs with hs | hs
        · exact List.mem_cons.2 (.inl (List.mem_singleton.1 hs))
        · exact List.mem_cons_of_mem _ (h1 s hs)
      · rw [List.singleton_append, List.countP_cons, List.countP_cons, h2]
    · rw [reread_ref hn]
      refine ⟨fun s hs => ?_, fun c => ?_⟩
      · rcases List.mem_append.1 hs with hs | hs
        · simp only [List.mem_cons, reduceCtorEq, List.not_mem_nil, or_false, false_or] at hs
          have := wordToken_none (natDisplay k)
          rw [← hs] at this; cases this
        · exact List.mem_cons_of_mem _ (h1 s hs)
      · have e0 : ∀ t : Token, t.getStr = none → withContent c t = false := fun t => withContent_none c
        rw [List.countP_append, h2, List.countP_cons (a := Token.createdVar _), e0 (.createdVar _) rfl,
          countP_none c (l := [Token.other name, .char .openBracket, wordToken (natDisplay k), .char .closeBracket]) (by
            simp only [List.mem_cons, List.not_mem_nil, or_false]
            rintro t (rfl | rfl | rfl | rfl) <;> first | rfl | exact wordToken_none _)]
        simp

private theorem flatMap_id {f : Token → List Token} : ∀ {l : List Token}, (∀ t ∈ l, f t = [t]) → l.flatMap f = l := by
  intro l
  induction l with
  | nil => intro _; rfl
  | cons t l ih =>
    intro h
    rw [List.flatMap_cons, h t (by simp), ih fun u hu => h u (by simp [hu])]; rfl

private theorem filterMap_same' {α β : Type} {f g : α → Option β} : ∀ {l : List α}, (∀ a ∈ l, f a = g a) → l.filterMap f = l.filterMap g := by
  intro l
  induction l with
  | nil => intro _; rfl
  | cons a l ih =>
    intro h
    rw [List.filterMap_cons, List.filterMap_cons, h a (by simp), ih fun b hb => h b (by simp [hb])]

/-- What was left is not worth an element of the array that is found now. -/
theorem array_again (ts : List Token) (name : List Char) (sep sep' : Option Token) (hn : name.head? ≠ some '"')
    (hq : ∀ s, .str s ∈ ts → Quoted s) (hm : ∀ t ∈ ts, reread name t = [t])
    (hsep : ∀ t, sep = some t → reread name t = [t] ∧ t.getStr = none) :
    ∃ out, aggregateIntoArray ts name sep (fun _ => true) = .ok out ∧
      aggregateIntoArray (out.flatMap (reread name)) name sep' (fun _ => true) = .ok (out.flatMap (reread name)) := by
  obtain ⟨O, N, body, ok, hO, hok, hout, hnd, hdis, hN, hleft, hlen, hbody⟩ :=
    array_spec ts name sep (fun _ => true) (fun p s h _ => hq s (List.mem_of_getElem? h))
  generalize hvs : ((getArray ts name).map Prod.fst).getD [] = vs at hO hok
  have hal : Alike name ts body := by
    refine alike_of_getElem name ts body hlen fun i t ht => ?_
    rcases hbody i t ht with ⟨s, k, h1, -, -, h2⟩ | ⟨h, -⟩
    · exact .inr ⟨s, k, h1, h2⟩
    · exact .inl h
  have hscan : getArray body name = getArray ts name := arrayScan_alike hal _ _ _
  have hlit : ∀ (i : Nat) (s : List Char), body[i]? = some (.str s) → ts[i]? = some (.str s) ∧ (i ∉ vs → content s ∉ O ++ N) := by
    intro i s hi
    cases ht : ts[i]? with
    | none =>
      have h1 := List.getElem?_eq_none_iff.1 ht
      rw [List.getElem?_eq_none (by omega)] at hi; cases hi
    | some t =>
      rcases hbody i t ht with ⟨s', k, -, -, -, h⟩ | ⟨h, h'⟩
      · rw [h] at hi; cases hi
      · rw [h] at hi; cases hi
        exact ⟨rfl, fun hn => h' s rfl ((hok i).2 ⟨rfl, fun hm => hn hm.1⟩)⟩
  have href : ∀ t ∈ body, Ref name t := by
    intro t ht
    obtain ⟨i, hi⟩ := List.getElem?_of_mem ht
    cases hts : ts[i]? with
    | none =>
      have h1 := List.getElem?_eq_none_iff.1 hts
      rw [List.getElem?_eq_none (by omega)] at hi; cases hi
    | some u =>
      rcases hbody i u hts with ⟨s', k, -, -, -, h⟩ | ⟨h, -⟩
      · rw [h] at hi; cases hi; exact .inr ⟨k, rfl⟩
      · rw [h] at hi; cases hi; exact .inl (hm _ (List.mem_of_getElem? hts))
  have hcount : ∀ c, c ∉ O → (seen ts ok c ts.length).length = ts.countP (withContent c) := by
    intro c hc
    refine seen_eq ts ok c fun p hp => (hok p).2 ⟨rfl, fun hm => hc ?_⟩
    rw [hO]
    exact List.mem_filterMap.2 ⟨p, hm.1, hp⟩
  have hworth : ∀ c m, c ∉ O ++ N → 2 ≤ m → m ≤ body.countP (withContent c) →
      arrayWorthIt m (blen c) (blen name) (blen (natDisplay (O ++ N).length)) = false := by
    intro c m hc h1 h2
    have hcO : c ∉ O := fun h => hc (List.mem_append_left _ h)
    have hle := hal.countP c
    obtain ⟨q, hq1, hq2⟩ := hleft c hc (by rw [hcount c hcO]; omega)
    rw [hcount c hcO] at hq2
    cases hw : arrayWorthIt m (blen c) (blen name) (blen (natDisplay (O ++ N).length)) with
    | false => rfl
    | true =>
      rw [arrayWorth_mono hw (by omega) (natDisplay_mono hq1)] at hq2
      cases hq2
  have hbq : ∀ s, .str s ∈ body → Quoted s := by
    intro s h
    obtain ⟨i, hi⟩ := List.getElem?_of_mem h
    exact hq s (List.mem_of_getElem? (hlit i s hi).1)
  refine ⟨_, hout, ?_⟩
  cases hg : getArray ts name with
  | none =>
    rw [hg] at hvs hscan
    simp only [Option.map_none, Option.getD_none] at hvs
    subst hvs
    simp only [List.filterMap_nil] at hO
    subst hO
    unfold assemble
    simp only
    by_cases hNe : N = []
    · subst hNe
      rw [if_pos rfl]
      have hb : body.flatMap (reread name) = body := by
        refine flatMap_id fun t ht => ?_
        obtain ⟨i, hi⟩ := List.getElem?_of_mem ht
        cases hts : ts[i]? with
        | none =>
          have h1 := List.getElem?_eq_none_iff.1 hts
          rw [List.getElem?_eq_none (by omega)] at hi; cases hi
        | some u =>
          rcases hbody i u hts with ⟨s', k, -, -, h, -⟩ | ⟨h, -⟩
          · simp at h
          · rw [h] at hi; cases hi; exact hm _ (List.mem_of_getElem? hts)
      rw [hb]
      exact array_idle body name sep' [] (by rw [hscan]; rfl) (fun p s h => hbq s (List.mem_of_getElem? h)) (by simp) fun c m hc h1 h2 => hworth c m hc h1 h2
    · rw [if_neg hNe]
      have hsepf : sep.toList.flatMap (reread name) = sep.toList := flatMap_id fun t ht => (hsep t (by simpa using ht)).1
      have hsepn : ∀ t ∈ sep.toList, t.getStr = none := fun t ht => (hsep t (by simpa using ht)).2
      obtain ⟨e1, e2, e3⟩ := entries_again name N
      have hshape : (Token.createdVarDecl ("var ".toList ++ name ++ ['=']) :: .char .openBracket :: entries N ++
          [Token.char .closeBracket, .char .semiColon] ++ sep.toList ++ body).flatMap (reread name) = [.keyword .kVar, .other name, .op .equal] ++ .char .openBracket ::
          ((entries N).flatMap (reread name) ++ .char .closeBracket :: (.char .semiColon :: (sep.toList ++ body.flatMap (reread name)))) := by
        simp only [List.cons_append, List.flatMap_cons, List.flatMap_append, List.append_assoc, hsepf, List.flatMap_nil, List.nil_append]
        simp [reread]
      rw [hshape]
      obtain ⟨b1, b2⟩ := refs_strs hn href
      have hQ : ∀ s, .str s ∈ ([.keyword .kVar, .other name, .op .equal] : List Token) ++
          .char .semiColon :: (sep.toList ++ body.flatMap (reread name)) → .str s ∈ body := by
        intro s hs
        simp only [List.cons_append, List.nil_append, List.mem_cons, reduceCtorEq, false_or, List.mem_append] at hs
        rcases hs with h | h
        · have := hsepn _ h; cases this
        · exact b1 s h
      refine idle_split _ _ _ name sep' ?_ ?_ ?_ ?_
      · have := scan_values_eq name _ e2 4 [] (.char .semiColon :: (sep.toList ++ body.flatMap (reread name)))
        show arrayScan name (if name = name then .equal else .start) 2 [] _ = _
        rw [if_pos rfl]
        rw [List.reverse_nil, List.nil_append] at this
        exact this
      · intro s hs
        rw [List.mem_append, List.mem_append] at hs
        by_cases hA : .str s ∈ (entries N).flatMap (reread name)
        · exact e3 s hA
        · exact hbq s (hQ s (by rw [List.mem_append]; exact hs.imp_left fun h => h.resolve_right hA))
      · intro s hs
        rw [e1]
        obtain ⟨i, hi⟩ := List.getElem?_of_mem (hQ s hs)
        exact (hlit i s hi).2 (by simp)
      · intro c m hc h1 h2
        rw [e1] at hc ⊢
        refine hworth c m hc h1 ?_
        have e0 : ∀ t : Token, t.getStr = none → withContent c t = false := fun t => withContent_none c
        rw [List.countP_append, List.countP_cons (a := Token.char .semiColon), List.countP_append, b2, countP_none c hsepn] at h2
        rw [countP_none c (l := [Token.keyword .kVar, .other name, .op .equal]) (by
          simp only [List.mem_cons, List.not_mem_nil, or_false]
          rintro t (rfl | rfl | rfl) <;> rfl), e0 (.char .semiColon) rfl] at h2
        simpa using h2
  | some r =>
    obtain ⟨vs', eb⟩ := r
    rw [hg] at hvs hscan
    simp only [Option.map_some, Option.getD_some] at hvs
    subst hvs
    unfold assemble
    simp only
    generalize hX : (if vs' = [] then entries N else entriesAfter N) = X
    obtain ⟨pre, rest, p1, p2, p3⟩ := scan_cut name body .start 0 [] vs' eb (by simp) hscan
    obtain ⟨A, post, p4, p5⟩ := scan_values name _ _ _ _ _ p2
    rw [p4, scan_values_eq name A p5] at p2
    simp only [List.reverse_nil, List.nil_append, Nat.zero_add, Option.some.injEq, Prod.mk.injEq] at p2
    obtain ⟨rfl, rfl⟩ := p2
    rw [p4] at p1
    -- the elements that were there
    have hA : ∀ t ∈ A, reread name t = [t] := by
      intro t ht
      obtain ⟨j, hj⟩ := List.getElem?_of_mem ht
      have hbi : body[pre.length + 1 + j]? = some t := by
        rw [p1, List.getElem?_append_right (by omega), show pre.length + 1 + j - pre.length = j + 1 by omega, List.getElem?_cons_succ,
          List.getElem?_append_left (by exact (List.getElem?_eq_some_iff.1 hj).1), hj]
      cases hts : ts[pre.length + 1 + j]? with
      | none =>
        have h1 := List.getElem?_eq_none_iff.1 hts
        rw [List.getElem?_eq_none (by omega)] at hbi; cases hbi
      | some u =>
        rcases hbody _ u hts with ⟨s', k, rfl, h1, -, h⟩ | ⟨h, -⟩
        · exfalso
          rw [h] at hbi; cases hbi
          refine ((hok _).1 h1).2 ⟨mem_solidAt.2 ⟨by omega, .createdVar (arrayRef name k), ?_, rfl⟩, by rw [litAt_some.2 ⟨s', hts, rfl⟩]; simp⟩
          rw [show pre.length + 1 + j - (pre.length + 1) = j by omega]; exact hj
        · rw [h] at hbi; cases hbi; exact hm _ (List.mem_of_getElem? hts)
    have hold : ∀ p ∈ solidAt (pre.length + 1) A, litAt body p = litAt ts p := by
      intro p hp
      cases ht : ts[p]? with
      | none =>
        have h1 := List.getElem?_eq_none_iff.1 ht
        unfold litAt
        rw [ht, List.getElem?_eq_none (by omega)]
      | some t =>
        unfold litAt
        rcases hbody p t ht with ⟨s', k, rfl, h1, -, -⟩ | ⟨h, -⟩
        · exact absurd ⟨hp, by rw [litAt_some.2 ⟨s', ht, rfl⟩]; simp⟩ ((hok p).1 h1).2
        · rw [ht, h]
    have hOA : lits A = O := by
      have e1 := lits_of_solid pre (.char .closeBracket :: post) A [.char .openBracket]
      simp only [List.length_cons, List.length_nil, Nat.zero_add, List.cons_append, List.nil_append] at e1
      rw [← p1] at e1
      rw [hO]
      unfold lits
      rw [← e1]
      exact filterMap_same' hold
    obtain ⟨x1, x2, x3⟩ : lits (X.flatMap (reread name)) = N ∧ .char .closeBracket ∉ X.flatMap (reread name) ∧
        ∀ s, .str s ∈ X.flatMap (reread name) → Quoted s := by
      rw [← hX]
      split
      · exact entries_again name N
      · exact entriesAfter_again name N
    have hshape : (body.take (pre.length + 1 + A.length) ++ X ++ body.drop (pre.length + 1 + A.length)).flatMap (reread name) =
        pre.flatMap (reread name) ++ .char .openBracket :: ((A ++ X.flatMap (reread name)) ++ .char .closeBracket :: post.flatMap (reread name)) := by
      have e : body = (pre ++ .char .openBracket :: A) ++ (.char .closeBracket :: post) := by rw [p1]; simp
      have e1 : body.take (pre.length + 1 + A.length) = pre ++ .char .openBracket :: A := by
        rw [e, List.take_left' (by simp; omega)]
      have e2 : body.drop (pre.length + 1 + A.length) = .char .closeBracket :: post := by
        rw [e, List.drop_left' (by simp; omega)]
      rw [e1, e2, List.flatMap_append, List.flatMap_append, List.flatMap_append, List.flatMap_cons, List.flatMap_cons, flatMap_id hA]
      simp [reread]
    have hclose : .char .closeBracket ∉ A ++ X.flatMap (reread name) := by
      rw [List.mem_append, not_or]; exact ⟨p5, x2⟩
    have hlits : lits (A ++ X.flatMap (reread name)) = O ++ N := by
      rw [← hOA]
      conv => rhs; rw [← x1]
      exact List.filterMap_append ..
    have hpre : ∀ t ∈ pre, Ref name t := fun t ht => href t (by rw [p1]; simp [ht])
    have hpost : ∀ t ∈ post, Ref name t := fun t ht => href t (by rw [p1]; simp [ht])
    obtain ⟨b1, b2⟩ := refs_strs hn hpre
    obtain ⟨b3, b4⟩ := refs_strs hn hpost
    have hPQ : ∀ s, .str s ∈ pre.flatMap (reread name) ++ post.flatMap (reread name) → .str s ∈ pre ∨ .str s ∈ post := by
      intro s hs
      exact (List.mem_append.1 hs).imp (b1 s) (b3 s)
    rw [hshape]
    refine idle_split _ _ _ name sep' ?_ ?_ ?_ ?_
    · unfold getArray
      rw [p3 _ (fun t ht => (hpre t ht).mild hn), scan_values_eq name _ hclose]
      simp only [List.reverse_nil, List.nil_append, Nat.zero_add]
    · intro s hs
      rw [List.mem_append, List.mem_append, List.mem_append] at hs
      rcases hs with (hs | hs | hs) | hs
      · exact hbq s (by rw [p1]; simp [b1 s hs])
      · exact hbq s (by rw [p1]; simp [hs])
      · exact x3 s hs
      · exact hbq s (by rw [p1]; simp [b3 s hs])
    · intro s hs
      rw [hlits]
      rcases hPQ s hs with h | h
      · obtain ⟨i, hi⟩ := List.getElem?_of_mem h
        have hl := (List.getElem?_eq_some_iff.1 hi).1
        refine (hlit i s (by rw [p1, List.getElem?_append_left hl, hi])).2 fun hmem => ?_
        have := (mem_solidAt.1 hmem).1
        omega
      · obtain ⟨i, hi⟩ := List.getElem?_of_mem h
        have e : body = (pre ++ .char .openBracket :: (A ++ [.char .closeBracket])) ++ post := by rw [p1]; simp
        have el : (pre ++ Token.char .openBracket :: (A ++ [Token.char .closeBracket])).length = pre.length + A.length + 2 := by simp; omega
        refine (hlit (pre.length + A.length + 2 + i) s (by rw [e, List.getElem?_append_right (by omega), el]; simpa using hi)).2 fun hmem => ?_
        obtain ⟨-, t, ht, -⟩ := mem_solidAt.1 hmem
        have := (List.getElem?_eq_some_iff.1 ht).1
        omega
    · intro c m hc h1 h2
      rw [hlits] at hc ⊢
      refine hworth c m hc h1 (Nat.le_trans h2 ?_)
      rw [p1, List.countP_append, b2, b4, List.countP_append, List.countP_cons, List.countP_append, List.countP_cons]
      omega

end Verif.Js
