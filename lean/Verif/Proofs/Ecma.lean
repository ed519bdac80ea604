import Verif.Spec.Ecma
/-!
# Reading ECMAScript tokens piece by piece

A text made of whole tokens can be read on its own, if its last token is not changed by what follows.
-/
set_option linter.unusedSimpArgs false
namespace Verif.Spec.Ecma

/-! ## Literals and comments end where they end -/

private theorem map_some {f : List Char → List Char} {x : Option (List Char × List Char)} {t r : List Char}
    (h : (x.map fun p => (f p.1, p.2)) = some (t, r)) : ∃ u, x = some (u, r) ∧ t = f u := by
  cases x with
  | none => cases h
  | some p => obtain ⟨u, v⟩ := p; simp at h; exact ⟨u, by simp [h.2], h.1.symm⟩

theorem afterLine_le : ∀ (s r : List Char), afterLine s = some r → r.length ≤ s.length
  | [], r, h => by simp [afterLine] at h
  | c :: s, r, h => by
    rw [afterLine] at h
    split at h
    · cases h; simp
    · have := afterLine_le s r h; simp; omega

theorem afterLine_append (b : List Char) : ∀ (s r : List Char), afterLine s = some r → afterLine (s ++ b) = some (r ++ b)
  | [], r, h => by simp [afterLine] at h
  | c :: s, r, h => by
    rw [List.cons_append, afterLine]
    rw [afterLine] at h
    split at h
    · rename_i hc; cases h; rw [if_pos hc]
    · rename_i hc; rw [if_neg hc]; exact afterLine_append b s r h

theorem afterBlock_step {c : Char} (s : List Char) (h : ¬(c = '*' ∧ s.head? = some '/')) : afterBlock (c :: s) = afterBlock s := by
  rw [afterBlock]
  rintro s' rfl rfl
  exact h ⟨rfl, rfl⟩

theorem afterBlock_le : ∀ (s r : List Char), afterBlock s = some r → r.length ≤ s.length
  | [], r, h => by simp [afterBlock] at h
  | c :: s, r, h => by
    by_cases hc : c = '*' ∧ s.head? = some '/'
    · obtain ⟨rfl, hs⟩ := hc
      cases s with
      | nil => cases hs
      | cons d s => simp at hs; subst hs; rw [afterBlock] at h; cases h; simp; omega
    · rw [afterBlock_step s hc] at h
      have := afterBlock_le s r h; simp; omega

theorem afterBlock_append (b : List Char) : ∀ (s r : List Char), afterBlock s = some r → afterBlock (s ++ b) = some (r ++ b)
  | [], r, h => by simp [afterBlock] at h
  | c :: s, r, h => by
    by_cases hc : c = '*' ∧ s.head? = some '/'
    · obtain ⟨rfl, hs⟩ := hc
      cases s with
      | nil => cases hs
      | cons d s => simp at hs; subst hs; rw [afterBlock] at h; cases h; simp [afterBlock]
    · rw [afterBlock_step s hc] at h
      cases s with
      | nil => simp [afterBlock] at h
      | cons d s =>
        rw [List.cons_append, afterBlock_step _ (by simpa using hc)]
        exact afterBlock_append b _ r h

theorem string_append (q : Char) (b : List Char) : ∀ (k : Nat) (s t r : List Char), s.length < k → string q s = some (t, r) →
    r.length ≤ s.length ∧ string q (s ++ b) = some (t, r ++ b) := by
  intro k
  induction k with
  | zero => intro s t r h; omega
  | succ k ih =>
    intro s t r hl h
    match s, hl, h with
    | [], _, h => simp [string] at h
    | c :: s, hl, h =>
      by_cases hc : c = '\\'
      · subst hc
        cases s with
        | nil => simp [string] at h
        | cons d s =>
          by_cases hd : d = '\r' ∧ s.head? = some '\n'
          · obtain ⟨rfl, hs⟩ := hd
            cases s with
            | nil => cases hs
            | cons e s =>
              simp at hs; subst hs
              rw [string] at h
              obtain ⟨u, hu, rfl⟩ := map_some (f := fun x => '\\' :: '\r' :: '\n' :: x) h
              obtain ⟨h1, h2⟩ := ih s u r (by simp at hl ⊢; omega) hu
              refine ⟨by simp; omega, ?_⟩
              simp only [List.cons_append]
              rw [string, h2]; rfl
          · have hstep : ∀ s, ¬(d = '\r' ∧ s.head? = some '\n') → string q ('\\' :: d :: s) = (string q s).map fun p => ('\\' :: d :: p.1, p.2) := by
              intro s hs
              rw [string]
              rintro s' rfl rfl
              exact hs ⟨rfl, rfl⟩
            rw [hstep s hd] at h
            obtain ⟨u, hu, rfl⟩ := map_some (f := fun x => '\\' :: d :: x) h
            obtain ⟨h1, h2⟩ := ih s u r (by simp at hl ⊢; omega) hu
            refine ⟨by simp; omega, ?_⟩
            simp only [List.cons_append]
            cases s with
            | nil => simp [string] at hu
            | cons e s => rw [hstep _ (by simpa using hd), h2]; rfl
      · have hstep : ∀ s, string q (c :: s) =
            if c = q then some ([c], s) else if c == '\n' || c == '\r' then none else (string q s).map fun p => (c :: p.1, p.2) := by
          intro s
          rw [string]
          all_goals (intros; exact absurd ‹c = '\\'› hc)
        rw [hstep] at h
        rw [List.cons_append, hstep]
        split at h
        · rename_i hq; cases h; rw [if_pos hq]; exact ⟨by simp, rfl⟩
        · rename_i hq
          rw [if_neg hq]
          split at h
          · cases h
          · rename_i hn
            rw [if_neg hn]
            obtain ⟨u, hu, rfl⟩ := map_some (f := fun x => c :: x) h
            obtain ⟨h1, h2⟩ := ih s u r (by simpa using hl) hu
            exact ⟨by simp; omega, by rw [h2]; rfl⟩

theorem regex_append (b : List Char) : ∀ (k : Nat) (cls : Bool) (s t r : List Char), s.length < k → regex cls s = some (t, r) →
    r.length ≤ s.length ∧ regex cls (s ++ b) = some (t, r ++ b) := by
  intro k
  induction k with
  | zero => intro cls s t r h; omega
  | succ k ih =>
    intro cls s t r hl h
    cases s with
    | nil => simp [regex] at h
    | cons c s =>
      by_cases hc : c = '\\'
      · subst hc
        cases s with
        | nil => simp [regex] at h
        | cons d s =>
          rw [regex] at h
          simp only [List.cons_append]
          rw [regex]
          split at h
          · cases h
          · rename_i hd
            rw [if_neg hd]
            obtain ⟨u, hu, rfl⟩ := map_some (f := fun x => '\\' :: d :: x) h
            obtain ⟨h1, h2⟩ := ih cls s u r (by simp at hl ⊢; omega) hu
            exact ⟨by simp; omega, by rw [h2]; rfl⟩
      · have hstep : ∀ s, regex cls (c :: s) = if lineEnd c then none
            else if c = '/' ∧ cls = false then some ([], s)
            else (regex (if c = '[' then true else if c = ']' then false else cls) s).map fun p => (c :: p.1, p.2) := by
          intro s
          rw [regex]
          all_goals (intros; exact absurd ‹c = '\\'› hc)
        rw [hstep] at h
        rw [List.cons_append, hstep]
        split at h
        · cases h
        · rename_i hn
          rw [if_neg hn]
          split at h
          · rename_i hq; cases h; rw [if_pos hq]; exact ⟨by simp, rfl⟩
          · rename_i hq
            rw [if_neg hq]
            obtain ⟨u, hu, rfl⟩ := map_some (f := fun x => c :: x) h
            obtain ⟨h1, h2⟩ := ih _ s u r (by simpa using hl) hu
            exact ⟨by simp; omega, by rw [h2]; rfl⟩

theorem turn_close {pl : Place} {c : Char} {d : Option Char} (h : pl.turn c d = .close) : c = '`' ∧ ∀ e, pl.turn c e = .close := by
  cases pl with
  | text st =>
    have hc : c = '`' := by
      simp only [Place.turn] at h
      grind
    refine ⟨hc, fun e => ?_⟩
    subst hc
    cases st with
    | nil => rfl
    | cons k st => simp [Place.turn] at h
  | code k st => simp only [Place.turn] at h; grind
  | quoted q k st => simp only [Place.turn] at h; grind
  | regex cls k st => simp only [Place.turn] at h; grind
  | line k st => simp only [Place.turn] at h; grind
  | block k st => simp only [Place.turn] at h; grind

theorem template_append (b : List Char) : ∀ (k : Nat) (pl : Place) (s t r : List Char), s.length < k → template pl s = some (t, r) →
    r.length ≤ s.length ∧ template pl (s ++ b) = some (t, r ++ b) := by
  intro k
  induction k with
  | zero => intro pl s t r h; omega
  | succ k ih =>
    intro pl s t r hl h
    cases s with
    | nil => simp [template] at h
    | cons c s =>
      have hl1 : s.length < k := by simpa using hl
      cases s with
      | nil =>
        rw [template] at h
        rw [List.cons_append, template]
        cases ht : pl.turn c ([] : List Char).head? with
        | stop => rw [ht] at h; cases h
        | close => rw [ht] at h; cases h; rw [(turn_close ht).2]; exact ⟨by simp, rfl⟩
        | one pl' => rw [ht] at h; simp [template] at h
        | two pl' => rw [ht] at h; cases h
      | cons d s =>
        rw [template] at h
        rw [List.cons_append, template]
        have hd : (d :: s ++ b).head? = (d :: s).head? := rfl
        rw [hd]
        cases ht : pl.turn c (d :: s).head? with
        | stop => rw [ht] at h; cases h
        | close => rw [ht] at h; cases h; exact ⟨by simp, rfl⟩
        | one pl' =>
          rw [ht] at h
          obtain ⟨u, hu, rfl⟩ := map_some (f := fun x => c :: x) h
          obtain ⟨h1, h2⟩ := ih pl' (d :: s) u r hl1 hu
          exact ⟨by simp only [List.length_cons] at h1 ⊢; omega, by simp only; rw [h2]; rfl⟩
        | two pl' =>
          rw [ht] at h
          obtain ⟨u, hu, rfl⟩ := map_some (f := fun x => c :: d :: x) h
          obtain ⟨h1, h2⟩ := ih pl' s u r (by simp only [List.length_cons] at hl1; omega) hu
          exact ⟨by simp only [List.length_cons]; omega, by simp only [List.cons_append]; rw [h2]; rfl⟩

/-! ## Numbers and runs of characters -/

theorem number_le : ∀ (r : List Char) (st : Num), (number st r).2.length ≤ r.length
  | [], st => by simp [number]
  | c :: r, st => by
    rw [number]
    split
    · rename_i st' _
      have := number_le r st'
      simp only [List.length_cons]; omega
    · simp

theorem number_append (b : List Char) : ∀ (r : List Char) (st : Num),
    ((number st r).2 = [] → ∀ y, b.head? = some y → ((st.after (number st r).1).bind (·.step y)) = none) →
    number st (r ++ b) = ((number st r).1, (number st r).2 ++ b)
  | [], st, h => by
    cases b with
    | nil => rfl
    | cons y b =>
      have := h rfl y rfl
      simp only [number, Num.after, Option.bind_some] at this
      simp [number, this]
  | c :: r, st, h => by
    rw [List.cons_append, number]
    cases hs : st.step c with
    | none => simp [number, hs]
    | some st' =>
      simp only
      have h' := number_append b r st' (by
        intro hr y hy
        have := h (by rw [number, hs]; exact hr) y hy
        rw [number, hs] at this
        simpa only [Num.after, hs] using this)
      rw [h', number, hs]

theorem while_append (f : Char → Bool) (b : List Char) : ∀ (r : List Char), (r.dropWhile f = [] → ∀ y, b.head? = some y → f y = false) →
    (r ++ b).takeWhile f = r.takeWhile f ∧ (r ++ b).dropWhile f = r.dropWhile f ++ b
  | [], h => by
    cases b with
    | nil => simp
    | cons y b => have := h rfl y rfl; simp [this]
  | c :: r, h => by
    rw [List.cons_append]
    cases hc : f c with
    | false => simp [hc]
    | true =>
      have := while_append f b r (by intro hr; exact h (by simpa [hc] using hr))
      simp [hc, this]

/-! ## Punctuators -/

private theorem prefixes : ∀ p ∈ punctuators, ∀ k, k < 4 → p.take k = [] ∨ p.take k = p ∨ p.take k = ['.', '.'] ∨
    p.take k ∈ punctuators := by decide +kernel

private theorem long : ∀ p ∈ punctuators, p.length ≤ 4 ∧ p ≠ [] := by decide +kernel

theorem punct_self : ∀ p ∈ punctuators, punct p = some (.punct p, []) := by decide +kernel

theorem isPrefixOf_append {p a : List Char} (b : List Char) (h : p.length ≤ a.length) : p.isPrefixOf (a ++ b) = p.isPrefixOf a := by
  rw [Bool.eq_iff_iff, List.isPrefixOf_iff_prefix, List.isPrefixOf_iff_prefix]
  constructor
  · intro hp; exact List.prefix_of_prefix_length_le hp (List.prefix_append a b) h
  · intro hp; exact hp.trans (List.prefix_append a b)

theorem at_append {a b : List Char} {p : List Char} (hp : p ∈ punctuators) (ha : a ≠ []) (hdot : a = ['.', '.'] → b.head? ≠ some '.')
    (hg : a ∈ punctuators → glues (.punct a) b = false) : at_ (a ++ b) p = at_ a p := by
  unfold at_
  by_cases hl : p.length ≤ a.length
  · rw [isPrefixOf_append b hl]
    by_cases hq : p = ['?', '.']
    · subst hq
      match a, hl with
      | [c, d], _ =>
        cases hx : ['?', '.'].isPrefixOf [c, d] with
        | false => simp
        | true =>
          have he : [c, d] = ['?', '.'] := by simp at hx; simp [← hx.1, ← hx.2]
          rw [he] at hg
          have := hg (by decide +kernel)
          cases b with
          | nil => simp
          | cons y b =>
            simp only [glues, Bool.or_eq_false_iff, Bool.and_eq_false_iff] at this
            have hy : digit y = false := by
              rcases this.2 with h | h
              · simp at h
              · exact h
            simp [headDigit, hy]
      | c :: d :: e :: a, _ => simp [headDigit]
    · have : (p == ['?', '.']) = false := by simpa using hq
      rw [this]; simp
  · have hna : p.isPrefixOf a = false := by
      rw [Bool.eq_false_iff, ne_eq, List.isPrefixOf_iff_prefix]
      intro h; exact hl h.length_le
    rw [hna, Bool.false_and]
    cases hx : p.isPrefixOf (a ++ b) with
    | false => rfl
    | true =>
      rw [List.isPrefixOf_iff_prefix] at hx
      have hap : a <+: p := List.prefix_of_prefix_length_le (List.prefix_append a b) hx (by omega)
      obtain ⟨u, hu⟩ := hap
      have hlen : a.length < 4 := by have := (long p hp).1; omega
      have htake : p.take a.length = a := by rw [← hu]; simp
      have h4 := prefixes p hp a.length hlen
      rw [htake] at h4
      obtain ⟨v, hv⟩ := hx
      have hub : u ++ v = b := by
        rw [← hu, List.append_assoc] at hv
        exact List.append_cancel_left hv
      cases u with
      | nil => rw [List.append_nil] at hu; rw [hu] at hl; omega
      | cons y u =>
        subst hub
        rcases h4 with h4 | h4 | h4 | h4
        · exact absurd h4 ha
        · rw [h4] at hl; omega
        · -- `..` only begins `...`
          have h1 : ∀ p ∈ punctuators, ['.', '.'].isPrefixOf p = true → p = ['.', '.', '.'] := by decide +kernel
          have h2 := h1 p hp (by rw [List.isPrefixOf_iff_prefix, ← hu, h4]; exact List.prefix_append _ _)
          rw [h2, h4] at hu
          simp at hu
          exact absurd (by simp [hu.1]) (hdot h4)
        · have := hg h4
          rw [List.cons_append] at this
          simp only [glues, Bool.or_eq_false_iff] at this
          have h5 := this.1.1
          rw [List.any_eq_false] at h5
          have h6 := h5 p hp
          have h7 : (a ++ [y]).isPrefixOf p = true := by
            rw [List.isPrefixOf_iff_prefix, ← hu]
            exact ⟨u, by simp⟩
          rw [h7, Bool.true_and] at h6
          simp only [Bool.not_eq_true] at h6
          rw [Bool.true_and]
          cases hq : (p == ['?', '.']) with
          | false => rw [hq] at h6; simp at h6
          | true =>
            rw [hq] at h6
            have hpq : p = ['?', '.'] := by simpa using hq
            rw [hpq] at hu
            -- `a` is `?`, and `y` the dot
            match a, ha, hu with
            | [c], _, hu => simp at hu; simpa [hu.2.2] using h6
            | c :: d :: a, _, hu => simp at hu

theorem punct_some {s r : List Char} {t : Tok} (h : punct s = some (t, r)) :
    ∃ p ∈ punctuators, t = .punct p ∧ s = p ++ r := by
  unfold punct at h
  cases hf : punctuators.find? (at_ s) with
  | none => rw [hf] at h; cases h
  | some p =>
    rw [hf] at h
    simp only [Option.map_some, Option.some.injEq, Prod.mk.injEq] at h
    obtain ⟨rfl, rfl⟩ := h
    refine ⟨p, List.mem_of_find?_eq_some hf, rfl, ?_⟩
    have := List.find?_some hf
    unfold at_ at this
    rw [Bool.and_eq_true, List.isPrefixOf_iff_prefix] at this
    obtain ⟨v, rfl⟩ := this.1
    simp

theorem punct_append {a b r : List Char} {t : Tok} (h : punct a = some (t, r)) (hr : r = [] → glues t b = false)
    (hdot : a = ['.', '.'] → b.head? ≠ some '.') : punct (a ++ b) = some (t, r ++ b) := by
  obtain ⟨p, hp, rfl, rfl⟩ := punct_some h
  have hpe := (long p hp).2
  have hat : ∀ q ∈ punctuators, at_ (p ++ r ++ b) q = at_ (p ++ r) q := by
    intro q hq
    refine at_append hq (by simp [hpe]) hdot ?_
    intro hmem
    have := punct_self _ hmem
    rw [h] at this
    simp only [Option.some.injEq, Prod.mk.injEq, Tok.punct.injEq] at this
    rw [← this.1]
    exact hr this.2
  unfold punct at h ⊢
  have hf : punctuators.find? (at_ (p ++ r ++ b)) = punctuators.find? (at_ (p ++ r)) := by
    generalize punctuators = l at hat
    induction l with
    | nil => rfl
    | cons x l ih =>
      rw [List.find?_cons, List.find?_cons, hat x List.mem_cons_self, ih (fun q hq => hat q (List.mem_cons_of_mem _ hq))]
  rw [hf]
  cases hg : punctuators.find? (at_ (p ++ r)) with
  | none => rw [hg] at h; cases h
  | some q =>
    rw [hg] at h
    simp only [Option.map_some, Option.some.injEq, Prod.mk.injEq, Tok.punct.injEq] at h ⊢
    obtain ⟨rfl, h2⟩ := h
    exact ⟨rfl, by simp⟩

/-! ## Tokens -/

private theorem digit_not {c : Char} (h : digit c = true) : c ≠ '.' ∧ c ≠ '/' ∧ c ≠ '*' := by
  refine ⟨?_, ?_, ?_⟩ <;> (rintro rfl; revert h; decide)

theorem token_append {re : Bool} {c : Char} {r r' b : List Char} {t : Tok} (h : token re c r = some (t, r'))
    (hr : r' = [] → glues t b = false) (hdot : c :: r = ['.', '.'] → b.head? ≠ some '.') :
    r'.length ≤ r.length ∧ token re c (r ++ b) = some (t, r' ++ b) := by
  unfold token at h ⊢
  have wl : ∀ r : List Char, (r.dropWhile nameChar).length ≤ r.length := fun r => (List.dropWhile_suffix _).length_le
  by_cases h1 : nameStart c = true
  · rw [if_pos h1] at h ⊢
    simp only [Option.some.injEq, Prod.mk.injEq] at h
    obtain ⟨rfl, rfl⟩ := h
    obtain ⟨h2, h3⟩ := while_append nameChar b r (by
      intro he y hy
      have := hr he
      cases b with
      | nil => cases hy
      | cons z b => simp at hy; subst hy; exact this)
    rw [h2, h3]; exact ⟨wl r, rfl⟩
  rw [if_neg h1] at h ⊢
  by_cases h2 : c = '#'
  · rw [if_pos h2] at h ⊢
    by_cases h3 : (r.head?.any nameStart) = true
    · rw [if_pos h3] at h
      simp only [Option.some.injEq, Prod.mk.injEq] at h
      obtain ⟨rfl, rfl⟩ := h
      have h3' : ((r ++ b).head?.any nameStart) = true := by
        cases r with
        | nil => simp at h3
        | cons d r => simpa using h3
      rw [if_pos h3']
      obtain ⟨h4, h5⟩ := while_append nameChar b r (by
        intro he y hy
        have := hr he
        cases b with
        | nil => cases hy
        | cons z b => simp at hy; subst hy; exact this)
      rw [h4, h5]; exact ⟨wl r, rfl⟩
    · rw [if_neg h3] at h; cases h
  rw [if_neg h2] at h ⊢
  by_cases h3 : (digit c || (c == '.' && headDigit r)) = true
  · rw [if_pos h3] at h
    have h3' : (digit c || (c == '.' && headDigit (r ++ b))) = true := by
      cases r with
      | nil => simp [headDigit] at h3; simp [h3]
      | cons d r => exact h3
    rw [if_pos h3']
    simp only [Option.some.injEq, Prod.mk.injEq] at h
    obtain ⟨rfl, rfl⟩ := h
    have := number_append b r (.init c) (by
      intro he y hy
      have := hr he
      cases b with
      | nil => cases hy
      | cons z b =>
        simp at hy; subst hy
        simpa [glues] using this)
    rw [this]; exact ⟨number_le _ _, rfl⟩
  rw [if_neg h3] at h
  have h3' : ¬(digit c || (c == '.' && headDigit (r ++ b))) = true := by
    cases r with
    | cons d r => exact h3
    | nil =>
      intro hx
      have hdg : digit c = false := by
        cases hd : digit c with
        | false => rfl
        | true => simp [hd] at h3
      rw [hdg, Bool.false_or, Bool.and_eq_true] at hx
      have hc : c = '.' := by simpa using hx.1
      subst hc
      have hq : quote '.' = false := by decide
      have hp : punct ['.'] = some (.punct ['.'], []) := by decide +kernel
      simp only [hq, Bool.false_eq_true, if_false, Char.reduceEq, Char.reduceBEq, Bool.false_and, hp, Option.some.injEq, Prod.mk.injEq] at h
      have hg := hr h.2.symm
      rw [← h.1] at hg
      cases b with
      | nil => simp [headDigit] at hx
      | cons y b =>
        have hy : digit y = true := by simpa [headDigit] using hx.2
        simp [glues, hy] at hg
  rw [if_neg h3']
  by_cases h4 : quote c = true
  · rw [if_pos h4] at h ⊢
    cases hs : string c r with
    | none => rw [hs] at h; cases h
    | some p =>
      rw [hs] at h
      simp only [Option.map_some, Option.some.injEq, Prod.mk.injEq] at h
      obtain ⟨rfl, rfl⟩ := h
      obtain ⟨h5, h6⟩ := string_append c b _ r p.1 p.2 (Nat.lt_succ_self _) hs
      rw [h6]; exact ⟨h5, rfl⟩
  rw [if_neg h4] at h ⊢
  by_cases h5 : c = '`'
  · rw [if_pos h5] at h ⊢
    cases hs : template (.text []) r with
    | none => rw [hs] at h; cases h
    | some p =>
      rw [hs] at h
      simp only [Option.map_some, Option.some.injEq, Prod.mk.injEq] at h
      obtain ⟨rfl, rfl⟩ := h
      obtain ⟨h5, h6⟩ := template_append b _ _ r p.1 p.2 (Nat.lt_succ_self _) hs
      rw [h6]; exact ⟨h5, rfl⟩
  rw [if_neg h5] at h ⊢
  by_cases h6 : (c == '/' && re) = true
  · rw [if_pos h6] at h ⊢
    cases hs : regex false r with
    | none => rw [hs] at h; cases h
    | some p =>
      rw [hs] at h
      simp only [Option.map_some, Option.some.injEq, Prod.mk.injEq] at h
      obtain ⟨rfl, rfl⟩ := h
      obtain ⟨h7, h8⟩ := regex_append b _ _ r p.1 p.2 (Nat.lt_succ_self _) hs
      obtain ⟨h9, h10⟩ := while_append nameChar b p.2 (by
        intro he y hy
        have := hr he
        cases b with
        | nil => cases hy
        | cons z b => simp at hy; subst hy; exact this)
      rw [h8]
      simp only [Option.map_some, h9, h10]
      exact ⟨Nat.le_trans (wl _) h7, trivial⟩
  rw [if_neg h6] at h ⊢
  refine ⟨?_, punct_append h hr hdot⟩
  obtain ⟨p, hp, -, he⟩ := punct_some h
  have := congrArg List.length he
  have hl := (long p hp).2
  have : 0 < p.length := List.length_pos_iff.2 hl
  simp at *
  omega

theorem token_le {re : Bool} {c : Char} {r r' : List Char} {t : Tok} (h : token re c r = some (t, r')) : r'.length ≤ r.length :=
  (token_append (b := []) h (by intro _; rfl) (by intro _ h; cases h)).1

/-- The number of turns does not matter. -/
theorem toksF_fuel (goal : List Tok → Bool) : ∀ (n m : Nat) (hist : List Tok) (s : List Char), s.length ≤ n → s.length ≤ m →
    toksF goal n hist s = toksF goal m hist s
  | 0, 0, hist, s, _, _ => rfl
  | 0, m + 1, hist, s, h, _ => by
    have : s = [] := by simpa using h
    subst this; rfl
  | n + 1, 0, hist, s, _, h => by
    have : s = [] := by simpa using h
    subst this; rfl
  | n + 1, m + 1, hist, [], _, _ => rfl
  | n + 1, m + 1, hist, c :: r, h, h' => by
    have h1 : r.length ≤ n := by simpa using h
    have h2 : r.length ≤ m := by simpa using h'
    have ih := fun hist (s : List Char) (hs : s.length ≤ r.length) => toksF_fuel goal n m hist s (by omega) (by omega)
    rw [toksF, toksF]
    split
    · exact ih _ _ (Nat.le_refl _)
    · split
      · cases hx : afterLine r with
        | none => rfl
        | some x => exact ih _ _ (afterLine_le _ _ hx)
      · split
        · cases hx : afterBlock r.tail with
          | none => rfl
          | some x =>
            have := afterBlock_le _ _ hx
            simp at this
            exact ih _ _ (by omega)
        · cases hx : token (goal hist) c r with
          | none => rfl
          | some p =>
            obtain ⟨t, x⟩ := p
            simp only
            rw [ih _ _ (token_le hx)]

theorem toksAfter_nil (goal : List Tok → Bool) (hist : List Tok) : toksAfter goal hist [] = [] := rfl

theorem toksAfter_cons (goal : List Tok → Bool) (hist : List Tok) (c : Char) (r : List Char) : toksAfter goal hist (c :: r) =
    if white c || lineEnd c then toksAfter goal hist r
    else if c = '/' ∧ r.head? = some '/' then
      match afterLine r with
      | some r => toksAfter goal hist r
      | none => [.lineAtEnd]
    else if c = '/' ∧ r.head? = some '*' then
      match afterBlock r.tail with
      | some r => toksAfter goal hist r
      | none => [.bad]
    else
      match token (goal hist) c r with
      | some (t, r) => t :: toksAfter goal (t :: hist) r
      | none => [.bad] := by
  unfold toksAfter
  have ih := fun hist (s : List Char) (hs : s.length ≤ r.length) => toksF_fuel goal r.length s.length hist s hs (Nat.le_refl _)
  rw [List.length_cons, toksF]
  split
  · rfl
  · split
    · cases hx : afterLine r with
      | none => rfl
      | some x => exact ih _ _ (afterLine_le _ _ hx)
    · split
      · cases hx : afterBlock r.tail with
        | none => rfl
        | some x =>
          have := afterBlock_le _ _ hx
          simp at this
          exact ih _ _ (by omega)
      · cases hx : token (goal hist) c r with
        | none => rfl
        | some p =>
          obtain ⟨t, x⟩ := p
          simp only
          rw [ih _ _ (token_le hx)]

/-- A token is read as before if more text follows that does not change the last token. -/
theorem step_append {goal : List Tok → Bool} {hist : List Tok} {b r r' : List Char} {c : Char} {t : Tok}
    (h2 : ¬(c = '/' ∧ r.head? = some '/')) (h3 : ¬(c = '/' ∧ r.head? = some '*')) (hx : token (goal hist) c r = some (t, r'))
    (hlast : ∀ x, (t :: toksAfter goal (t :: hist) r').getLast? = some x → glues x b = false) :
    r'.length ≤ r.length ∧ ¬(c = '/' ∧ (r ++ b).head? = some '/') ∧ ¬(c = '/' ∧ (r ++ b).head? = some '*') ∧
      token (goal hist) c (r ++ b) = some (t, r' ++ b) := by
  have hemp : r' = [] → glues t b = false := by
    rintro rfl
    exact hlast t (by simp [toksAfter_nil])
  have hdot : c :: r = ['.', '.'] → b.head? ≠ some '.' := by
    intro he hb
    simp only [List.cons.injEq] at he
    obtain ⟨rfl, rfl⟩ := he
    have hp : ∀ g, token g '.' ['.'] = some (.punct ['.'], ['.']) := by decide +kernel
    rw [hp] at hx
    simp only [Option.some.injEq, Prod.mk.injEq] at hx
    obtain ⟨rfl, rfl⟩ := hx
    have hp2 : ∀ h, toksAfter goal h ['.'] = [.punct ['.']] := by
      intro h
      rw [toksAfter_cons]
      have hp3 : ∀ g, token g '.' [] = some (.punct ['.'], []) := by decide +kernel
      have hw : (white '.' || lineEnd '.') = false := by decide
      simp [hp3, hw, toksAfter_nil]
    have := hlast (.punct ['.']) (by rw [hp2]; rfl)
    cases b with
    | nil => cases hb
    | cons y b =>
      simp only [List.head?_cons, Option.some.injEq] at hb
      subst hb
      have hg : ∀ d, punctuators.any (fun q => (['.'] ++ ['.']).isPrefixOf q && !(q == ['?', '.'] && d)) = true := by decide +kernel
      simp only [glues, hg, Bool.true_or, Bool.true_eq_false] at this
  obtain ⟨hle, htok⟩ := token_append hx hemp hdot
  have hslash : c = '/' → r = [] → b.head? ≠ some '/' ∧ b.head? ≠ some '*' := by
    rintro rfl rfl
    have hp : ∀ g, token g '/' [] = if g then none else some (.punct ['/'], []) := by decide +kernel
    rw [hp] at hx
    split at hx
    · cases hx
    · simp only [Option.some.injEq, Prod.mk.injEq] at hx
      obtain ⟨rfl, rfl⟩ := hx
      have := hemp rfl
      cases b with
      | nil => simp
      | cons y b =>
        simp only [glues, Bool.or_eq_false_iff, Bool.and_eq_false_iff] at this
        have h4 := this.1.2
        simp at h4
        simpa using h4
  have h2' : ¬(c = '/' ∧ (r ++ b).head? = some '/') := by
    rintro ⟨hc, hh⟩
    cases r with
    | nil => exact (hslash hc rfl).1 hh
    | cons d r => exact h2 ⟨hc, hh⟩
  have h3' : ¬(c = '/' ∧ (r ++ b).head? = some '*') := by
    rintro ⟨hc, hh⟩
    cases r with
    | nil => exact (hslash hc rfl).2 hh
    | cons d r => exact h3 ⟨hc, hh⟩
  exact ⟨hle, h2', h3', htok⟩

/-- A text made of whole tokens can be read on its own, if what follows does not change the last one. -/
theorem toksAfter_append (goal : List Tok → Bool) (b : List Char) : ∀ (k : Nat) (a : List Char) (hist : List Tok), a.length ≤ k →
    (∀ t ∈ toksAfter goal hist a, good t = true) → (∀ t, (toksAfter goal hist a).getLast? = some t → glues t b = false) →
    toksAfter goal hist (a ++ b) = toksAfter goal hist a ++ toksAfter goal ((toksAfter goal hist a).reverse ++ hist) b := by
  intro k
  induction k with
  | zero =>
    intro a hist h
    have : a = [] := by simpa using h
    subst this
    intro _ _
    rfl
  | succ k ih =>
    intro a hist hk hgood hlast
    cases a with
    | nil => rfl
    | cons c r =>
      have hr : r.length ≤ k := by simpa using hk
      have hbad : good .bad = false := rfl
      have hend : good .lineAtEnd = false := rfl
      rw [toksAfter_cons] at hgood hlast
      rw [List.cons_append, toksAfter_cons, toksAfter_cons goal hist c r]
      by_cases h1 : (white c || lineEnd c) = true
      · simp only [if_pos h1] at hgood hlast ⊢
        exact ih r hist hr hgood hlast
      simp only [if_neg h1] at hgood hlast ⊢
      by_cases h2 : c = '/' ∧ r.head? = some '/'
      · have h2' : c = '/' ∧ (r ++ b).head? = some '/' := by
          cases r with
          | nil => simp at h2
          | cons d r => simpa using h2
        simp only [if_pos h2] at hgood hlast ⊢
        rw [if_pos h2']
        cases hx : afterLine r with
        | none => rw [hx] at hgood; have := hgood .lineAtEnd (by simp); rw [hend] at this; cases this
        | some x =>
          rw [hx] at hgood hlast
          rw [afterLine_append b r x hx]
          exact ih x hist (Nat.le_trans (afterLine_le _ _ hx) hr) hgood hlast
      simp only [if_neg h2] at hgood hlast ⊢
      by_cases h3 : c = '/' ∧ r.head? = some '*'
      · have h3' : c = '/' ∧ (r ++ b).head? = some '*' := by
          cases r with
          | nil => simp at h3
          | cons d r => simpa using h3
        have h2' : ¬(c = '/' ∧ (r ++ b).head? = some '/') := by rw [h3'.2]; simp
        simp only [if_pos h3] at hgood hlast ⊢
        rw [if_neg h2', if_pos h3']
        have ht : (r ++ b).tail = r.tail ++ b := by
          cases r with
          | nil => simp at h3
          | cons d r => rfl
        cases hx : afterBlock r.tail with
        | none => rw [hx] at hgood; have := hgood .bad (by simp); rw [hbad] at this; cases this
        | some x =>
          rw [hx] at hgood hlast
          rw [ht, afterBlock_append b _ x hx]
          have := afterBlock_le _ _ hx
          simp at this
          exact ih x hist (by omega) hgood hlast
      simp only [if_neg h3] at hgood hlast ⊢
      cases hx : token (goal hist) c r with
      | none => rw [hx] at hgood; have := hgood .bad (by simp); rw [hbad] at this; cases this
      | some p =>
        obtain ⟨t, r'⟩ := p
        rw [hx] at hgood hlast
        simp only at hgood hlast ⊢
        obtain ⟨hle, h2', h3', htok⟩ := step_append h2 h3 hx hlast
        rw [if_neg h2', if_neg h3', htok]
        simp only
        have := ih r' (t :: hist) (by omega) (fun x hx => hgood x (List.mem_cons_of_mem _ hx)) (by
          intro x hx
          refine hlast x ?_
          rw [List.getLast?_cons, hx]; rfl)
        rw [this]
        simp

end Verif.Spec.Ecma
