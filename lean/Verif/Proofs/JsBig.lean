import Verif.Proofs.JsArrRead
import Verif.Proofs.JsOut
import Verif.Proofs.JsTerm
/-!
# How large the output of `js::minify` can get

Every turn of the tokenizer adds at most two tokens, and every token is a part of the source or small.
-/
set_option linter.unusedSimpArgs false
set_option linter.unusedVariables false

namespace Verif.Js

theorem bindOk {α β : Type} {x : Out α} {f : α → Out β} {b : β} (h : (x >>= f) = .ok b) : ∃ a, x = .ok a ∧ f a = .ok b := by
  cases x with
  | ok a => exact ⟨a, rfl, h⟩
  | err e => cases h
  | panic e => cases h

/-- At most twenty bytes more than the source. -/
def Small (source : List Char) (t : Token) : Prop := blen t.display ≤ blen source + 20

theorem sub_le {s c : List Char} {a b : Nat} (h : sub s a b = .ok c) : blen c ≤ blen s := by
  obtain ⟨p, t, h1, _, _⟩ := sub_ok h
  rw [h1]; simp only [blen_append]; omega

theorem blen_of_digits {l : List Char} (h : ∀ c ∈ l, Spec.Js.isDigit c = true) : blen l = l.length := by
  induction l with
  | nil => rfl
  | cons c l ih =>
    have hc := h c (by simp)
    have : c.utf8Size = 1 := by
      have hd : ∀ c ∈ "0123456789".toList, c.utf8Size = 1 := by decide
      unfold Spec.Js.isDigit at hc
      exact hd c (of_decide_eq_true hc)
    simp [ih (fun c hc => h c (by simp [hc])), this]; omega

theorem natDigitsRev_length (k : Nat) : ∀ fuel n, n < 10 ^ (k + 1) → (natDigitsRev fuel n).length ≤ k + 1 := by
  induction k with
  | zero =>
    intro fuel n h
    cases fuel with
    | zero => simp [natDigitsRev]
    | succ fuel => rw [natDigitsRev, if_pos (by omega)]; simp
  | succ k ih =>
    intro fuel n h
    cases fuel with
    | zero => simp [natDigitsRev]
    | succ fuel =>
      rw [natDigitsRev]
      split
      · simp
      · have := ih fuel (n / 10) (by rw [Nat.pow_succ] at h; omega)
        simp; omega

theorem number_small {n : Nat} (h : n < 2 ^ 64) : blen (natDisplay n) ≤ 20 := by
  rw [blen_of_digits (natDisplay_digits n).2.1, natDisplay, List.length_reverse]
  exact natDigitsRev_length 19 _ _ (Nat.lt_trans h (by decide))

theorem keyword_small (k : Keyword) : blen k.display ≤ 20 := by cases k <;> decide +kernel
theorem cond_small (k : Cond) : blen k.display ≤ 20 := by cases k <;> decide +kernel
theorem op_small (k : Op) : blen k.display ≤ 20 := by cases k <;> decide +kernel
theorem rchar_small (k : RChar) : blen [k.toChar] ≤ 20 := by cases k <;> decide +kernel

theorem word_small {source w : List Char} (h : blen w ≤ blen source) : Small source (wordToken w) := by
  unfold wordToken Small
  split
  · have := keyword_small ‹_›
    simp only [Token.display]; omega
  · split
    · rename_i n hn
      have : n < 2 ^ 64 := by
        unfold parseU64 at hn
        simp only at hn
        split at hn
        · cases hn
        · split at hn
          · rename_i h1; cases hn; exact h1
          · cases hn
      have := number_small this
      simp only [Token.display]; omega
    · split <;> (simp only [Token.display]; omega)

theorem charToken_small (source : List Char) (c : RChar) : Small source (charToken c) := by
  unfold charToken Small
  split
  · have := op_small ‹_›; simp only [Token.display]; omega
  · split
    · have := cond_small ‹_›; simp only [Token.display]; omega
    · have := rchar_small c; simp only [Token.display]; omega

theorem lineLoop_small {source : List Char} {start : Nat} (fuel : Nat) : ∀ (it it' : Peek) (t : Token) (p : Nat),
    lineLoop source start fuel it = .ok (some (t, p), it') → Small source t := by
  induction fuel with
  | zero => intro it it' t p h; cases h
  | succ fuel ih =>
    intro it it' t p h
    unfold lineLoop at h
    split at h
    · cases h
    · split at h
      · obtain ⟨s, h1, h2⟩ := bindOk h
        cases h2
        have := sub_le h1
        unfold Small; simp only [Token.display]; omega
      · exact ih _ _ _ _ h

theorem regexLoop_small {source : List Char} {start : Nat} (fuel : Nat) : ∀ (it it' : Peek) (t : Token) (p : Nat),
    regexLoop source start fuel it = .ok (some (t, p), it') → Small source t := by
  induction fuel with
  | zero => intro it it' t p h; cases h
  | succ fuel ih =>
    intro it it' t p h
    unfold regexLoop at h
    split at h
    · cases h
    · split at h
      · exact ih _ _ _ _ h
      · split at h
        · obtain ⟨⟨g, i, add, it2⟩, h1, h2⟩ := bindOk h
          simp only at h2
          obtain ⟨r, h3, h4⟩ := bindOk h2
          cases h4
          have := sub_le h3
          unfold Small
          cases g <;> cases i <;> simp [Token.display] <;> (try simp only [show ('/' : Char).utf8Size = 1 from rfl, show ('g' : Char).utf8Size = 1 from rfl, show ('i' : Char).utf8Size = 1 from rfl]) <;> omega
        · split at h
          · cases h
          · exact ih _ _ _ _ h

theorem strLoop_small {source : List Char} {start : Nat} {q : RChar} (fuel : Nat) : ∀ (it it' : Peek) (t : Token) (p : Nat),
    strLoop source start q fuel it = .ok (some (t, p), it') → Small source t := by
  induction fuel with
  | zero => intro it it' t p h; cases h
  | succ fuel ih =>
    intro it it' t p h
    unfold strLoop at h
    split at h
    · cases h
    · split at h
      · exact ih _ _ _ _ h
      · split at h
        · obtain ⟨s, h1, h2⟩ := bindOk h
          cases h2
          have := sub_le h1
          unfold Small; simp only [Token.display]; omega
        · exact ih _ _ _ _ h

theorem backtick_small {source : List Char} {start depth : Nat} (fuel : Nat) : ∀ (it it' : Peek) (t : Token) (p : Nat),
    backtick source start depth fuel it = .ok (some (t, p), it') → Small source t := by
  induction fuel with
  | zero => intro it it' t p h; unfold backtick at h; cases h
  | succ fuel ih =>
    intro it it' t p h
    unfold backtick at h
    split at h
    · cases h
    · split at h
      · exact ih _ _ _ _ h
      · split at h
        split at h
        · obtain ⟨⟨b, it2⟩, h1, h2⟩ := bindOk h
          cases b with
          | true => exact ih _ _ _ _ h2
          | false => cases h2
        · split at h
          · obtain ⟨s, h1, h2⟩ := bindOk h
            cases h2
            have := sub_le h1
            unfold Small; simp only [Token.display]; omega
          · exact ih _ _ _ _ h

theorem getLineComment_small {source : List Char} {it it' : Peek} {start p : Nat} {t : Token}
    (h : getLineComment source it start = .ok (some t, it', p)) : Small source t := by
  unfold getLineComment at h
  obtain ⟨⟨r, it2⟩, h1, h2⟩ := bindOk h
  cases r with
  | none => cases h2
  | some r => obtain ⟨t', p'⟩ := r; cases h2; exact lineLoop_small _ _ _ _ _ h1

theorem getRegex_small {source : List Char} {it it' : Peek} {start p : Nat} {v : List Token} {t : Token}
    (h : getRegex source it start v = .ok (some t, it', p)) : Small source t := by
  unfold getRegex at h
  split at h
  · cases h
  · obtain ⟨⟨r, it2⟩, h1, h2⟩ := bindOk h
    cases r with
    | none => cases h2
    | some r => obtain ⟨t', p'⟩ := r; cases h2; exact regexLoop_small _ _ _ _ _ h1

theorem getString_small {source : List Char} {it it' : Peek} {start p : Nat} {q : RChar} {t : Token}
    (h : getString source it start q = .ok (some t, it', p)) : Small source t := by
  unfold getString at h
  obtain ⟨⟨r, it2⟩, h1, h2⟩ := bindOk h
  cases r with
  | none => cases h2
  | some r => obtain ⟨t', p'⟩ := r; cases h2; exact strLoop_small _ _ _ _ _ h1

theorem getBacktick_small {source : List Char} {it it' : Peek} {start p : Nat} {t : Token}
    (h : getBacktick source it start = .ok (some t, it', p)) : Small source t := by
  unfold getBacktick at h
  obtain ⟨⟨r, it2⟩, h1, h2⟩ := bindOk h
  cases r with
  | none => cases h2
  | some r => obtain ⟨t', p'⟩ := r; cases h2; exact backtick_small _ _ _ _ _ h1

theorem comment_end {source : List Char} {x : Out (Nat × Peek)} {license : Bool} {start p : Nat} {t : Token} {it' : Peek}
    (h : (x >>= fun r => if blen source < 1 then Out.panic "attempt to subtract with overflow"
      else (sub source start (min r.1 (blen source - 1) + 1) >>= fun s =>
        Out.ok (if license then Token.license s else .comment s, r.2, min r.1 (blen source - 1) + 2))) = .ok (t, it', p)) : Small source t := by
  obtain ⟨⟨cur, it2⟩, h1, h2⟩ := bindOk h
  split at h2
  · cases h2
  · obtain ⟨s, h3, h4⟩ := bindOk h2
    cases h4
    have := sub_le h3
    unfold Small
    split <;> simp [Token.display] <;> (try simp only [show ('/' : Char).utf8Size = 1 from rfl, show ('*' : Char).utf8Size = 1 from rfl, show ('!' : Char).utf8Size = 1 from rfl]) <;> omega

theorem getComment_small {source : List Char} {it it' : Peek} {start p : Nat} {t : Token}
    (h : getComment source it start = .ok (t, it', p)) : Small source t := by
  unfold getComment at h
  rcases hn : it.next with ⟨_ | ⟨_, c⟩, it1⟩
  · simp only [hn] at h
    exact comment_end (license := false) h
  · simp only [hn] at h
    by_cases hc : (c == '!') = true
    · simp only [hc, if_true] at h
      exact comment_end (license := true) h
    · simp only [hc, if_false] at h
      exact comment_end (license := false) h

/-- `n` tokens, all of them small. -/
def Few (source : List Char) (n : Nat) (v : List Token) : Prop := v.length ≤ n ∧ ∀ t ∈ v, Small source t

theorem Few.cons {source : List Char} {n : Nat} {v : List Token} {t : Token} (h : Few source n v) (ht : Small source t) :
    Few source (n + 1) (t :: v) :=
  ⟨by have := h.1; simp; omega, fun x hx => by rcases List.mem_cons.1 hx with rfl | hx; exact ht; exact h.2 x hx⟩

theorem Few.tail {source : List Char} {n : Nat} {v : List Token} (h : Few source n v) : Few source n v.tail :=
  ⟨by have := h.1; simp; omega, fun x hx => h.2 x (List.mem_of_mem_tail hx)⟩

theorem Few.mono {source : List Char} {n m : Nat} {v : List Token} (h : Few source n v) (hn : n ≤ m) : Few source m v :=
  ⟨Nat.le_trans h.1 hn, h.2⟩

theorem cond_ok (source : List Char) (c : Cond) : Small source (.cond c) := by
  have := cond_small c; unfold Small; simp only [Token.display]; omega

theorem op_ok (source : List Char) (c : Op) : Small source (.op c) := by
  have := op_small c; unfold Small; simp only [Token.display]; omega

theorem defaultArm_few {source : List Char} {n : Nat} {v : List Token} (c : RChar) (h : Few source n v) :
    Few source (n + 1) (defaultArm v c) := by
  unfold defaultArm
  split
  · rename_i v' hv
    unfold handleEqualSign at hv
    split at hv
    · cases hv
    · split at hv <;> first | cases hv; done | skip
      all_goals (cases hv; first | exact h.tail.cons (cond_ok _ _) | exact h.tail.cons (op_ok _ _))
  · exact h.cons (charToken_small _ _)

theorem pushOpt_few {source : List Char} {n : Nat} {v : List Token} {o : Option Token} (h : Few source n v)
    (ho : ∀ t, o = some t → Small source t) : Few source (n + 1) (pushOpt v o) := by
  cases o with
  | none => exact h.mono (by omega)
  | some t => exact h.cons (ho t rfl)

theorem reserved_few {source : List Char} {n : Nat} {v v' : List Token} {it it' : Peek} {pos pos' : Nat} {c : RChar} (h : Few source n v)
    (hr : reserved source v it pos c = .ok (v', it', pos')) : Few source (n + 1) v' := by
  unfold reserved at hr
  split at hr
  · obtain ⟨⟨s, it1, p1⟩, h1, h2⟩ := bindOk hr
    cases h2
    exact pushOpt_few h fun t ht => by subst ht; exact getString_small h1
  · obtain ⟨⟨s, it1, p1⟩, h1, h2⟩ := bindOk hr
    cases h2
    exact pushOpt_few h fun t ht => by subst ht; exact getString_small h1
  · obtain ⟨⟨s, it1, p1⟩, h1, h2⟩ := bindOk hr
    cases h2
    exact pushOpt_few h fun t ht => by subst ht; exact getBacktick_small h1
  · split at hr
    · obtain ⟨⟨s, it1, p1⟩, h1, h2⟩ := bindOk hr
      cases h2
      exact pushOpt_few h.tail fun t ht => by subst ht; exact getLineComment_small h1
    · rcases hg : regexGuard it v with ⟨g, it1⟩
      rw [hg] at hr
      simp only at hr
      split at hr
      · obtain ⟨⟨s, it2, p1⟩, h1, h2⟩ := bindOk hr
        cases s with
        | none => cases h2; exact h.cons (op_ok _ _)
        | some t => cases h2; exact h.cons (getRegex_small h1)
      · cases hr; exact defaultArm_few _ h
  · split at hr
    · obtain ⟨⟨s, it1, p1⟩, h1, h2⟩ := bindOk hr
      cases h2
      exact h.tail.cons (getComment_small h1)
    · cases hr; exact defaultArm_few _ h
  · split at hr
    · cases hr; exact h.tail.cons (cond_ok _ _)
    · cases hr; exact defaultArm_few _ h
  · split at hr
    · cases hr; exact h.tail.cons (cond_ok _ _)
    · cases hr; exact defaultArm_few _ h
  · cases hr; exact defaultArm_few _ h

theorem fillOther_few {source : List Char} {n : Nat} {v v' : List Token} {start pos : Nat} (h : Few source n v)
    (hr : fillOther source v start pos = .ok v') : Few source (n + 1) v' ∧ (pos ≤ start → v' = v) := by
  unfold fillOther at hr
  split at hr
  · obtain ⟨w, h1, h2⟩ := bindOk hr
    cases h2
    exact ⟨h.cons (word_small (sub_le h1)), fun h => by omega⟩
  · cases hr; exact ⟨h.mono (by omega), fun _ => rfl⟩

theorem dotStep_few {source : List Char} {n : Nat} {v v' : List Token} {start start' pos : Nat} {it it' : Peek} {rc : RChar} (h : Few source n v)
    (hr : dotStep source v start pos it rc = .ok (some (v', start'), it')) :
    (v' = v ∧ start' = start) ∨ (Few source (n + 1) v' ∧ start' = pos) := by
  unfold dotStep at hr
  split at hr
  · unfold dotCheck at hr
    obtain ⟨⟨num, it1⟩, h1, h2⟩ := bindOk hr
    simp only at h2
    split at h2
    · split at h2
      · split at h2
        · obtain ⟨w, h3, h4⟩ := bindOk h2
          cases h4
          exact .inr ⟨(fillOther_few h h3).1, rfl⟩
        · cases h2
      · cases h2
    · cases h2; exact .inl ⟨rfl, rfl⟩
  · cases hr; exact .inl ⟨rfl, rfl⟩

theorem tokLoop_few {source : List Char} (fuel : Nat) : ∀ (n start : Nat) (v v' : List Token) (it : Peek), Few source n v →
    tokLoop source fuel v start it = .ok v' → Few source (n + 2 * fuel) v' := by
  induction fuel with
  | zero => intro n start v v' it _ h; cases h
  | succ fuel ih =>
    intro n start v v' it hv h
    unfold tokLoop at h
    split at h
    · exact (fillOther_few hv h).1.mono (by omega)
    · split at h
      · exact (ih _ _ _ _ _ hv h).mono (by omega)
      · obtain ⟨⟨r, it1⟩, h1, h2⟩ := bindOk h
        cases r with
        | none => exact (ih _ _ _ _ _ hv h2).mono (by omega)
        | some r =>
          obtain ⟨v1, s1⟩ := r
          simp only at h2
          obtain ⟨v2, h3, h4⟩ := bindOk h2
          obtain ⟨⟨v3, it3, p3⟩, h5, h6⟩ := bindOk h4
          have hv2 : Few source (n + 1) v2 := by
            rcases dotStep_few hv h1 with ⟨rfl, rfl⟩ | ⟨hf, rfl⟩
            · exact (fillOther_few hv h3).1
            · have := (fillOther_few hf h3).2 (Nat.le_refl _)
              rw [this]; exact hf
          exact (ih _ _ _ _ _ (reserved_few hv2 h5) h6).mono (by omega)

theorem indices_length (s : List Char) : (indices s).length ≤ blen s := by
  have : ∀ (s : List Char) n, (indicesFrom n s).length = s.length := by
    intro s
    induction s with
    | nil => intro n; rfl
    | cons c s ih => intro n; simp [indicesFrom, ih]
  rw [indices, this]
  induction s with
  | nil => exact Nat.le_refl _
  | cons c s ih => have := Char.utf8Size_pos c; simp; omega

theorem tokenize_few {s : List Char} {ts : List Token} (h : tokenize s = .ok ts) : Few s (4 * blen s + 2) ts := by
  unfold tokenize at h
  obtain ⟨v, h1, h2⟩ := bindOk h
  cases h2
  have hi := indices_length s
  have := tokLoop_few _ 0 _ _ _ _ ⟨Nat.le_refl _, by simp⟩ h1
  refine ⟨?_, fun t ht => this.2 t (List.mem_reverse.1 ht)⟩
  have := this.1
  simp only [Peek.weight, List.length_nil, Option.isSome] at this
  simp only [List.length_reverse]
  simp at this
  omega

theorem spaceAfter_size (t : Token) (n : Option Token) : blen (spaceAfter t n).toList ≤ 1 := by
  have : ∀ t : Token, blen t.getRequired.toList ≤ 1 := by
    intro t; cases t <;> first | exact Nat.le_refl 1 | exact Nat.zero_le _
  unfold spaceAfter
  split <;> cases n <;> first | exact this _ | exact Nat.zero_le _

theorem display_few {source : List Char} (ts : List Token) : ∀ prev, (∀ t ∈ ts, Small source t) →
    blen (displayFrom prev ts) ≤ ts.length * (blen source + 22) := by
  induction ts with
  | nil => intro prev _; simp [displayFrom]
  | cons t ts ih =>
    intro prev h
    have h1 := h t (by simp)
    have h2 := ih (some t) (fun t ht => h t (by simp [ht]))
    have h3 := spaceAfter_size t ts.head?
    have h4 : blen (if spaceBefore prev t then [' '] else []) ≤ 1 := by split <;> decide
    unfold Small at h1
    rw [displayFrom]
    simp only [blen_append, List.length_cons, Nat.add_mul]
    omega

theorem dropWhile_mem {α : Type} {p : α → Bool} {l : List α} {x : α} (h : x ∈ l.dropWhile p) : x ∈ l :=
  (List.dropWhile_sublist p).subset h

/-- At most the square of the source, so to speak. -/
theorem minify_big {s out : List Char} (h : minify s = .ok out) : blen out ≤ (4 * blen s + 2) * (blen s + 22) := by
  unfold minify minifyTokens at h
  obtain ⟨ts, h1, h2⟩ := bindOk h
  obtain ⟨ts', h3, h4⟩ := bindOk h1
  cases h4
  cases h2
  obtain ⟨f1, f2⟩ := tokenize_few h3
  rw [cleanTokens_eq]
  have hl : ((ts'.filter keepTok).dropWhile (· == .char .semiColon)).length ≤ ts'.length :=
    Nat.le_trans (List.dropWhile_sublist _).length_le (List.filter_sublist).length_le
  refine Nat.le_trans (display_few _ _ fun t ht => f2 t (List.mem_filter.1 (dropWhile_mem ht)).1) ?_
  exact Nat.mul_le_mul_right _ (by omega)

end Verif.Js
