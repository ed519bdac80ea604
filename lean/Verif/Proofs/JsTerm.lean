import Verif.Model.JsTools
/-!
# The JavaScript tokenizer stops

Every loop of the tokenizer takes at least one item from the iterator per turn; `Peek.weight` bounds how many items can
still come, replays included.
-/
set_option linter.unusedSimpArgs false

namespace Verif.Js

namespace Peek

theorem next_none {it it' : Peek} (h : it.next = (none, it')) : it' = it := by
  obtain ⟨inner, saved, peeked, sv⟩ := it
  unfold next at h
  cases peeked <;> cases sv <;> cases saved <;> cases inner <;> simp_all

theorem next_some {it it' : Peek} {p : Nat × Char} (h : it.next = (some p, it')) : it'.weight + 1 ≤ it.weight := by
  obtain ⟨inner, saved, peeked, sv⟩ := it
  unfold next at h
  cases peeked <;> cases sv <;> cases saved <;> cases inner <;> simp_all [weight] <;>
    (obtain ⟨-, h⟩ := h; subst h; simp) <;> omega

theorem next_le (it : Peek) : it.next.2.weight ≤ it.weight := by
  rcases h : it.next with ⟨_ | p, it'⟩
  · rw [next_none h]; exact Nat.le_refl _
  · have := next_some h; simp only; omega

theorem peek_le (it : Peek) : it.peek.2.weight ≤ it.weight := by
  obtain ⟨inner, saved, peeked, sv⟩ := it
  unfold peek
  cases peeked <;> cases sv <;> cases inner <;> simp [weight] <;> omega

theorem peek_some {it it' : Peek} {p : Nat × Char} (h : it.peek = (some p, it')) :
    it'.peeked = some p ∧ it'.weight ≤ it.weight ∧ (it'.next).1 = some p ∧ it'.isSaving = it.isSaving := by
  have h1 := peek_le it
  rw [h] at h1
  obtain ⟨inner, saved, peeked, sv⟩ := it
  unfold peek at h
  cases peeked <;> cases inner <;> simp_all <;> (obtain ⟨ha, hb⟩ := h; subst hb; simp_all [next])

theorem peek_none {it it' : Peek} (h : it.peek = (none, it')) : it' = it := by
  obtain ⟨inner, saved, peeked, sv⟩ := it
  unfold peek at h
  cases peeked <;> cases inner <;> simp_all

theorem startSave_le {it : Peek} : it.startSave.weight ≤ it.weight + 1 ∧ it.startSave.peeked = it.peeked := by
  obtain ⟨inner, saved, peeked, sv⟩ := it
  cases peeked <;> simp [startSave, weight] <;> omega

theorem startSave_none {it : Peek} (h : it.peeked = none) : it.startSave.weight = it.weight := by
  obtain ⟨inner, saved, peeked, sv⟩ := it
  simp at h; subst h; simp [startSave, weight]

theorem dropSave_le (it : Peek) : it.dropSave.weight ≤ it.weight := by
  obtain ⟨inner, saved, peeked, sv⟩ := it
  cases peeked <;> simp [dropSave, weight] <;> omega

theorem stopSave_le (it : Peek) : it.stopSave.weight ≤ it.weight := by
  obtain ⟨inner, saved, peeked, sv⟩ := it
  cases peeked <;> simp [stopSave, weight] <;> omega

end Peek

/-- The computation does not run for ever, and if it gives a value, the measure of that value is at most `n`. -/
def Good {α : Type} (w : α → Nat) (n : Nat) (r : Out α) : Prop := r ≠ noFuel ∧ ∀ a, r = .ok a → w a ≤ n

theorem Good.ok {α : Type} {w : α → Nat} {n : Nat} {a : α} (h : w a ≤ n) : Good w n (.ok a) :=
  ⟨by simp [noFuel], by intro b hb; cases hb; exact h⟩

theorem Good.err {α : Type} {w : α → Nat} {n : Nat} {e : String} : Good w n (.err e : Out α) :=
  ⟨by simp [noFuel], by intro b hb; cases hb⟩

theorem Good.panic {α : Type} {w : α → Nat} {n : Nat} {e : String} (h : e ≠ "out of fuel") : Good w n (.panic e : Out α) :=
  ⟨by simpa [noFuel] using h, by intro b hb; cases hb⟩

theorem Good.mono {α : Type} {w : α → Nat} {n m : Nat} {r : Out α} (h : Good w n r) (hm : n ≤ m) : Good w m r :=
  ⟨h.1, fun a ha => Nat.le_trans (h.2 a ha) hm⟩

theorem Good.bind {α β : Type} {w : α → Nat} {w' : β → Nat} {n m : Nat} {r : Out α} {f : α → Out β} (h : Good w n r)
    (hf : ∀ a, w a ≤ n → Good w' m (f a)) : Good w' m (r >>= f) := by
  cases r with
  | ok a => exact hf a (h.2 a rfl)
  | err e => exact Good.err
  | panic e =>
    refine ⟨?_, by intro b hb; cases hb⟩
    intro he
    apply h.1
    have : Out.panic (α := β) e = noFuel := he
    simp only [noFuel, Out.panic.injEq] at this ⊢
    exact this

theorem sub_good (source : List Char) (a b : Nat) : Good (fun _ => 0) 0 (sub source a b) := by
  unfold sub Out.ofOption
  cases slice source a b with
  | none => exact Good.panic (by decide)
  | some s => exact Good.ok (Nat.le_refl _)

/-- Measure of the results. -/
def w2 {α : Type} (r : α × Peek) : Nat := r.2.weight
def w3 {α : Type} (r : α × Peek × Nat) : Nat := r.2.1.weight

theorem lineLoop_good (source : List Char) (start fuel : Nat) (it : Peek) (h : it.weight < fuel) :
    Good w2 it.weight (lineLoop source start fuel it) := by
  induction fuel generalizing it with
  | zero => omega
  | succ fuel ih =>
    unfold lineLoop
    rcases hn : it.next with ⟨_ | ⟨pos, c⟩, it'⟩
    · simp only; rw [Peek.next_none hn]; exact Good.ok (Nat.le_refl _)
    · have hw := Peek.next_some hn
      simp only
      by_cases hc : (RChar.ofChar c == some .backline) = true
      · rw [if_pos hc]
        exact (sub_good _ _ _).bind fun s _ => Good.ok (by simp only [w2]; omega)
      · rw [if_neg hc]
        exact (ih it' (by omega)).mono (by omega)

theorem getLineComment_good (source : List Char) (it : Peek) (startPos : Nat) :
    Good w3 it.weight (getLineComment source it startPos) := by
  unfold getLineComment
  refine (lineLoop_good source _ _ it (Nat.lt_succ_self _)).bind ?_
  rintro ⟨_ | ⟨t, p⟩, it'⟩ h <;> exact Good.ok h

theorem strLoop_good (source : List Char) (startPos : Nat) (start : RChar) (fuel : Nat) (it : Peek) (h : it.weight < fuel) :
    Good w2 it.weight (strLoop source startPos start fuel it) := by
  induction fuel generalizing it with
  | zero => omega
  | succ fuel ih =>
    unfold strLoop
    rcases hn : it.next with ⟨_ | ⟨pos, c⟩, it'⟩
    · simp only; rw [Peek.next_none hn]; exact Good.ok (Nat.le_refl _)
    · have hw := Peek.next_some hn
      have hw' := Peek.next_le it'
      simp only
      by_cases hb : (c == '\\') = true
      · rw [if_pos hb]
        exact (ih _ (by omega)).mono (by omega)
      · rw [if_neg hb]
        by_cases hc : (RChar.ofChar c == some start) = true
        · rw [if_pos hc]
          exact (sub_good _ _ _).bind fun s _ => Good.ok (by simp only [w2]; omega)
        · rw [if_neg hc]
          exact (ih it' (by omega)).mono (by omega)

theorem getString_good (source : List Char) (it : Peek) (startPos : Nat) (start : RChar) :
    Good w3 it.weight (getString source it startPos start) := by
  unfold getString
  refine (strLoop_good source _ _ _ it (Nat.lt_succ_self _)).bind ?_
  rintro ⟨_ | ⟨t, p⟩, it'⟩ h <;> exact Good.ok h

theorem commentLoop_good (fuel : Nat) (prev : RChar) (cur : Nat) (it : Peek) (h : it.weight < fuel) :
    Good w2 it.weight (commentLoop fuel prev cur it) := by
  induction fuel generalizing it prev cur with
  | zero => omega
  | succ fuel ih =>
    unfold commentLoop
    rcases hn : it.next with ⟨_ | ⟨pos, c⟩, it'⟩
    · simp only; rw [Peek.next_none hn]; exact Good.ok (Nat.le_refl _)
    · have hw := Peek.next_some hn
      simp only
      cases RChar.ofChar c with
      | none => exact (ih _ _ _ (by omega)).mono (by omega)
      | some rc =>
        simp only
        by_cases hb : (rc == .slash && prev == .star) = true
        · rw [if_pos hb]
          by_cases hp : pos < 2
          · rw [if_pos hp]; exact Good.panic (by decide)
          · rw [if_neg hp]; exact Good.ok (by simp only [w2]; omega)
        · rw [if_neg hb]; exact (ih _ _ _ (by omega)).mono (by omega)

theorem getComment_good (source : List Char) (it : Peek) (startPos : Nat) :
    Good w3 it.weight (getComment source it startPos) := by
  have key : ∀ (l : Bool) (sp : Nat) (prev : RChar) (it' : Peek), it'.weight ≤ it.weight →
      Good w3 it.weight (do
        let (cur, it) ← commentLoop (it'.weight + 1) prev sp it'
        if blen source < 1 then .panic "attempt to subtract with overflow"
        else do
          let cur := min cur (blen source - 1)
          let s ← sub source sp (cur + 1)
          .ok (if l then .license s else .comment s, it, cur + 2) : Out (Token × Peek × Nat)) := by
    intro l sp prev it' h
    refine (commentLoop_good _ prev sp it' (Nat.lt_succ_self _)).bind ?_
    rintro ⟨cur, it''⟩ h2
    simp only [w2] at h2
    simp only
    by_cases hp : blen source < 1
    · rw [if_pos hp]; exact Good.panic (by decide)
    · rw [if_neg hp]
      exact (sub_good _ _ _).bind fun s _ => Good.ok (by simp only [w3]; omega)
  unfold getComment
  rcases hn : it.next with ⟨_ | ⟨pos, c⟩, it'⟩
  · simp only; exact key false _ _ _ (by rw [Peek.next_none hn]; exact Nat.le_refl _)
  · have hw := Peek.next_some hn
    simp only
    by_cases hc : (c == '!') = true
    · simp only [hc, if_true]; exact key true _ _ _ (by omega)
    · simp only [hc]; exact key false startPos.succ _ it' (by omega)

theorem flagLoop_good (fuel : Nat) (it : Peek) (g i : Bool) (add : Nat) (h : it.weight < fuel) :
    Good (fun r => r.2.2.2.weight) it.weight (flagLoop fuel it g i add) := by
  induction fuel generalizing it g i add with
  | zero => omega
  | succ fuel ih =>
    unfold flagLoop
    rcases hn : it.peek with ⟨_ | ⟨pos, c⟩, it'⟩
    · simp only; rw [Peek.peek_none hn]; exact Good.ok (Nat.le_refl _)
    · obtain ⟨-, h2, h3, -⟩ := Peek.peek_some hn
      have h4 : it'.next.2.weight + 1 ≤ it'.weight := by
        rcases hx : it'.next with ⟨_ | p, it2⟩
        · rw [hx] at h3; cases h3
        · exact Peek.next_some hx
      split
      · rename_i heq; cases heq; exact (ih _ _ _ _ (by omega)).mono (by omega)
      · rename_i heq; cases heq; exact (ih _ _ _ _ (by omega)).mono (by omega)
      · rename_i heq; cases heq; exact Good.ok h2

theorem regexLoop_good (source : List Char) (startPos fuel : Nat) (it : Peek) (h : it.weight < fuel) :
    Good w2 (it.weight - (if it.peeked.isSome then 1 else 0)) (regexLoop source startPos fuel it) := by
  induction fuel generalizing it with
  | zero => omega
  | succ fuel ih =>
    unfold regexLoop
    rcases hn : it.next with ⟨_ | ⟨pos, c⟩, it'⟩
    · simp only
      have hp : it.peeked = none := by
        unfold Peek.next at hn
        cases hq : it.peeked with
        | none => rfl
        | some p => rw [hq] at hn; simp at hn
      rw [Peek.next_none hn, hp]
      exact Good.ok (by have := Peek.stopSave_le it; simp [w2]; omega)
    · have hw := Peek.next_some hn
      have hw' := Peek.next_le it'
      have hk : it'.weight ≤ it.weight - (if it.peeked.isSome then 1 else 0) := by split <;> omega
      simp only
      by_cases hb : (c == '\\') = true
      · rw [if_pos hb]
        exact (ih _ (by omega)).mono (by omega)
      · rw [if_neg hb]
        by_cases hc : (RChar.ofChar c == some .slash) = true
        · rw [if_pos hc]
          refine (flagLoop_good _ it' false false 0 (Nat.lt_succ_self _)).bind ?_
          rintro ⟨g, i, add, it2⟩ h2
          simp only at h2 ⊢
          have := Peek.dropSave_le it2
          exact (sub_good _ _ _).bind fun s _ => Good.ok (by simp only [w2]; omega)
        · rw [if_neg hc]
          by_cases hd : (RChar.ofChar c == some .backline) = true
          · rw [if_pos hd]
            have := Peek.stopSave_le it'
            exact Good.ok (by simp only [w2]; omega)
          · rw [if_neg hd]
            exact (ih it' (by omega)).mono (by omega)

theorem getRegex_good (source : List Char) (it : Peek) (startPos : Nat) (v : List Token) :
    Good w3 it.weight (getRegex source it startPos v) := by
  unfold getRegex
  by_cases hv : (!regexAllowed v) = true
  · rw [if_pos hv]; exact Good.ok (Nat.le_refl _)
  · rw [if_neg hv]
    have h1 := regexLoop_good source startPos _ it.startSave (Nat.lt_succ_self _)
    have h2 := @Peek.startSave_le it
    have h3 : it.startSave.weight - (if it.startSave.peeked.isSome then 1 else 0) ≤ it.weight := by
      cases hp : it.peeked with
      | none => rw [h2.2, hp, Peek.startSave_none hp]; simp
      | some p => rw [h2.2, hp]; simp; omega
    refine (h1.mono h3).bind ?_
    rintro ⟨_ | ⟨t, p⟩, it'⟩ h <;> exact Good.ok h

theorem backtick_good (source : List Char) (fuel : Nat) :
    (∀ startPos depth (it : Peek), it.weight < fuel → Good w2 it.weight (backtick source startPos depth fuel it)) ∧
    (∀ depth count (it : Peek), it.weight < fuel → Good w2 it.weight (interpolation source depth count fuel it)) := by
  induction fuel with
  | zero => exact ⟨fun _ _ _ h => absurd h (Nat.not_lt_zero _), fun _ _ _ h => absurd h (Nat.not_lt_zero _)⟩
  | succ fuel ih =>
    constructor
    · intro startPos depth it h
      unfold backtick
      rcases hn : it.next with ⟨_ | ⟨pos, c⟩, it'⟩
      · simp only; rw [Peek.next_none hn]; exact Good.ok (Nat.le_refl _)
      · have hw := Peek.next_some hn
        have hw' := Peek.next_le it'
        simp only
        by_cases hb : (c == '\\') = true
        · rw [if_pos hb]
          exact (ih.1 _ _ _ (by omega)).mono (by omega)
        · rw [if_neg hb]
          have key : ∀ (brace : Bool) (it2 : Peek), it2.weight ≤ it'.weight → Good w2 it.weight
              (if brace then do
                match ← interpolation source depth 0 fuel it2 with
                | (true, it) => backtick source startPos depth fuel it
                | (false, it) => .ok (none, it)
              else if c == '`' then do
                let s ← sub source startPos (pos + 1)
                .ok (some (.str s, pos), it2)
              else backtick source startPos depth fuel it2 : Out (Option (Token × Nat) × Peek)) := by
            intro brace it2 h2
            cases brace with
            | true =>
              rw [if_pos rfl]
              refine (ih.2 depth 0 it2 (by omega)).bind ?_
              rintro ⟨_ | _, it3⟩ h3
              · exact Good.ok (by simp only [w2] at h3 ⊢; omega)
              · simp only [w2] at h3
                exact (ih.1 _ _ _ (by omega)).mono (by omega)
            | false =>
              rw [if_neg (by simp)]
              by_cases hc : (c == '`') = true
              · rw [if_pos hc]
                exact (sub_good _ _ _).bind fun s _ => Good.ok (by simp only [w2]; omega)
              · rw [if_neg hc]
                exact (ih.1 _ _ _ (by omega)).mono (by omega)
          by_cases hd : (c == '$') = true
          · simp only [hd, if_true]
            exact key _ _ (Peek.peek_le it')
          · simp only [hd]
            exact key _ _ (Nat.le_refl _)
    · intro depth count it h
      unfold interpolation
      rcases hn : it.next with ⟨_ | ⟨pos, c⟩, it'⟩
      · simp only; rw [Peek.next_none hn]; exact Good.ok (Nat.le_refl _)
      · have hw := Peek.next_some hn
        have hw' := Peek.next_le it'
        simp only
        by_cases hb : (c == '\\') = true
        · rw [if_pos hb]
          exact (ih.2 _ _ _ (by omega)).mono (by omega)
        · rw [if_neg hb]
          by_cases hq : (c == '"' || c == '\'') = true
          · rw [if_pos hq]
            refine (getString_good source it' pos _).bind ?_
            rintro ⟨r, it2, p⟩ h2
            simp only [w3] at h2
            exact (ih.2 depth count it2 (by omega)).mono (by omega)
          · rw [if_neg hq]
            by_cases ht : (c == '`') = true
            · rw [if_pos ht]
              by_cases hd : depth ≥ maxBacktickNesting
              · rw [if_pos hd]; exact Good.err
              · rw [if_neg hd]
                refine (ih.1 pos (depth + 1) it' (by omega)).bind ?_
                rintro ⟨r, it2⟩ h2
                simp only [w2] at h2
                exact (ih.2 depth count it2 (by omega)).mono (by omega)
            · rw [if_neg ht]
              by_cases ho : (c == '{') = true
              · rw [if_pos ho]; exact (ih.2 _ _ _ (by omega)).mono (by omega)
              · rw [if_neg ho]
                by_cases hcl : (c == '}') = true
                · rw [if_pos hcl]
                  by_cases h0 : count - 1 = 0
                  · rw [if_pos h0]; exact Good.ok (by simp only [w2]; omega)
                  · rw [if_neg h0]; exact (ih.2 _ _ _ (by omega)).mono (by omega)
                · rw [if_neg hcl]; exact (ih.2 _ _ _ (by omega)).mono (by omega)

theorem getBacktick_good (source : List Char) (it : Peek) (startPos : Nat) :
    Good w3 it.weight (getBacktick source it startPos) := by
  unfold getBacktick
  refine ((backtick_good source _).1 startPos 0 it (Nat.lt_succ_self _)).bind ?_
  rintro ⟨_ | ⟨t, p⟩, it'⟩ h <;> exact Good.ok h

theorem fillOther_good (source : List Char) (v : List Token) (start pos : Nat) :
    Good (fun _ => 0) 0 (fillOther source v start pos) := by
  unfold fillOther
  split
  · exact (sub_good _ _ _).bind fun s _ => Good.ok (Nat.le_refl _)
  · exact Good.ok (Nat.le_refl _)

theorem checkIfNumber_good (source : List Char) (it : Peek) (start pos : Nat) :
    Good w2 it.weight (checkIfNumber source it start pos) := by
  unfold checkIfNumber
  refine (sub_good _ _ _).bind fun w _ => ?_
  split
  · exact Good.ok (Nat.le_refl _)
  · split
    · exact Good.ok (Nat.le_refl _)
    · have := Peek.peek_le it
      split <;> (rename_i heq; rw [heq] at this; exact Good.ok this)

theorem dotCheck_good (source : List Char) (v : List Token) (start pos : Nat) (it : Peek) :
    Good w2 it.weight (dotCheck source v start pos it) := by
  unfold dotCheck
  refine (checkIfNumber_good source it start pos).bind ?_
  rintro ⟨num, it'⟩ h
  simp only [w2] at h
  simp only
  have hp := Peek.peek_le it'
  split
  · split
    · rename_i heq; rw [heq] at hp; simp only at hp
      split
      · exact (fillOther_good _ _ _ _).bind fun v _ => Good.ok (by simp only [w2]; omega)
      · exact Good.ok (by simp only [w2]; omega)
    · rename_i heq; rw [heq] at hp; exact Good.ok (by simp only [w2] at *; omega)
  · exact Good.ok h

theorem regexGuard_le (it : Peek) (v : List Token) : (regexGuard it v).2.weight ≤ it.weight := by
  have := Peek.peek_le it
  unfold regexGuard
  split <;> (rename_i heq; rw [heq] at this; exact this)

theorem reserved_good (source : List Char) (v : List Token) (it : Peek) (pos : Nat) (c : RChar) :
    Good w3 it.weight (reserved source v it pos c) := by
  unfold reserved
  split
  · refine (getString_good source it pos _).bind ?_
    rintro ⟨r, it2, p⟩ h; exact Good.ok h
  · refine (getString_good source it pos _).bind ?_
    rintro ⟨r, it2, p⟩ h; exact Good.ok h
  · refine (getBacktick_good source it pos).bind ?_
    rintro ⟨r, it2, p⟩ h; exact Good.ok h
  · split
    · refine (getLineComment_good source it pos).bind ?_
      rintro ⟨r, it2, p⟩ h; exact Good.ok h
    · have hg := regexGuard_le it v
      revert hg
      rcases regexGuard it v with ⟨g, it'⟩
      intro hg
      simp only at hg ⊢
      cases g with
      | true =>
        rw [if_pos rfl]
        refine ((getRegex_good source it' pos v).mono hg).bind ?_
        rintro ⟨_ | r, it2, p⟩ h <;> exact Good.ok h
      | false => rw [if_neg (by simp)]; exact Good.ok hg
  · split
    · refine (getComment_good source it pos).bind ?_
      rintro ⟨r, it2, p⟩ h; exact Good.ok h
    · exact Good.ok (Nat.le_refl _)
  · split <;> exact Good.ok (Nat.le_refl _)
  · split <;> exact Good.ok (Nat.le_refl _)
  · exact Good.ok (Nat.le_refl _)

theorem tokLoop_good (source : List Char) (fuel : Nat) (v : List Token) (start : Nat) (it : Peek) (h : it.weight < fuel) :
    tokLoop source fuel v start it ≠ noFuel := by
  suffices Good (fun _ => 0) 0 (tokLoop source fuel v start it) from this.1
  induction fuel generalizing it v start with
  | zero => omega
  | succ fuel ih =>
    unfold tokLoop
    rcases hn : it.next with ⟨_ | ⟨pos, c⟩, it'⟩
    · exact fillOther_good _ _ _ _
    · have hw := Peek.next_some hn
      simp only
      cases RChar.ofChar c with
      | none => exact ih _ _ _ (by omega)
      | some rc =>
        simp only
        have h1 : Good w2 it'.weight (dotStep source v start pos it' rc) := by
          unfold dotStep
          split
          · exact dotCheck_good _ _ _ _ _
          · exact Good.ok (Nat.le_refl _)
        refine h1.bind ?_
        rintro ⟨_ | ⟨v1, st1⟩, it2⟩ h2
        · simp only [w2] at h2
          exact ih v start it2 (by omega)
        · simp only [w2] at h2
          simp only
          refine (fillOther_good _ _ _ _).bind fun v2 _ => ?_
          refine (reserved_good source v2 it2 pos rc).bind ?_
          rintro ⟨v3, it3, p3⟩ h3
          simp only [w3] at h3
          exact ih v3 (p3 + 1) it3 (by omega)

/-- More fuel changes nothing. -/
theorem tokLoop_fuel (source : List Char) (fuel : Nat) (v : List Token) (start : Nat) (it : Peek)
    (h : tokLoop source fuel v start it ≠ noFuel) :
    tokLoop source (fuel + 1) v start it = tokLoop source fuel v start it := by
  induction fuel generalizing it v start with
  | zero => exact absurd rfl h
  | succ fuel ih =>
    rw [tokLoop]
    rw [tokLoop] at h
    conv => rhs; rw [tokLoop]
    rcases hn : it.next with ⟨_ | ⟨pos, c⟩, it'⟩
    · rfl
    · simp only [hn] at h ⊢
      cases hc : RChar.ofChar c with
      | none => simp only [hc] at h ⊢; exact ih _ _ _ h
      | some rc =>
        simp only [hc] at h ⊢
        cases hx : dotStep source v start pos it' rc with
        | err e => rfl
        | panic e => rfl
        | ok a =>
          rw [hx] at h
          obtain ⟨_ | ⟨v1, st1⟩, it2⟩ := a
          · exact ih _ _ _ h
          · simp only [Out.bind_ok] at h ⊢
            cases hy : fillOther source v1 st1 pos with
            | err e => rfl
            | panic e => rfl
            | ok v2 =>
              rw [hy] at h
              simp only [Out.bind_ok] at h ⊢
              cases hz : reserved source v2 it2 pos rc with
              | err e => rfl
              | panic e => rfl
              | ok b =>
                rw [hz] at h
                obtain ⟨v3, it3, p3⟩ := b
                exact ih _ _ _ h

theorem tokenize_ne_noFuel (source : List Char) : tokenize source ≠ noFuel := by
  have h := tokLoop_good source (Peek.weight { inner := indices source } + 1) [] 0 { inner := indices source }
    (Nat.lt_succ_self _)
  revert h
  unfold tokenize
  simp only
  cases tokLoop source (Peek.weight { inner := indices source } + 1) [] 0 { inner := indices source } <;>
    simp [noFuel]

end Verif.Js
