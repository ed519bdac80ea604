import Verif.Proofs.JsTerm
import Verif.Spec.Js
/-!
# The loops of the JavaScript tokenizer on characters

`At it off cs` says that the iterator will deliver the characters `cs`, the first one at byte offset `off`. Each loop of
the tokenizer is shown to do what the corresponding function of the specification says.
-/
set_option linter.unusedSimpArgs false

namespace Verif.Js
open Spec.Js

theorem ofChar_size {c : Char} {rc : RChar} (h : RChar.ofChar c = some rc) : c.utf8Size = 1 := by
  unfold RChar.ofChar at h
  split at h <;> first | rfl | (simp at h)

theorem toChar_ofChar (rc : RChar) : RChar.ofChar rc.toChar = some rc := by cases rc <;> rfl

theorem ofChar_inv {c : Char} {rc : RChar} (h : RChar.ofChar c = some rc) :
    c = rc.toChar ∨ (c = '\r' ∧ rc = .backline) := by
  unfold RChar.ofChar at h
  split at h <;> simp at h <;> subst h <;> simp [RChar.toChar]

theorem ofChar_eq_iff {c : Char} {rc : RChar} (h : rc ≠ .backline) :
    (RChar.ofChar c == some rc) = true ↔ c = rc.toChar := by
  constructor
  · intro hc
    have hc := eq_of_beq hc
    rcases ofChar_inv hc with h' | ⟨_, h'⟩
    · exact h'
    · exact absurd h' h
  · intro hc
    rw [hc, toChar_ofChar]; simp

theorem ofChar_newline {c : Char} : (RChar.ofChar c == some .backline) = isNewline c := by
  by_cases h1 : c = '\n'
  · subst h1; rfl
  · by_cases h2 : c = '\r'
    · subst h2; rfl
    · have : isNewline c = false := by simp [isNewline, h1, h2]
      rw [this]
      cases hc : RChar.ofChar c with
      | none => rfl
      | some rc =>
        rcases ofChar_inv hc with h' | ⟨h', _⟩
        · cases rc <;> simp_all [RChar.toChar]
        · exact absurd h' h2

/-! ## The iterator -/

structure At (it : Peek) (off : Nat) (cs : List Char) : Prop where
  saving : it.isSaving = false
  items : it.peeked.toList ++ (it.saved ++ it.inner) = indicesFrom off cs
  calm : ∀ p ∈ it.saved, p.2 ≠ '.' ∧ p.2 ≠ '/' ∧ p.2 ≠ '$'
  one : it.peeked.isSome = true → it.saved = []

theorem At.next_cons {it : Peek} {off : Nat} {c : Char} {cs : List Char} (h : At it off (c :: cs)) :
    ∃ it', it.next = (some (off, c), it') ∧ At it' (off + c.utf8Size) cs ∧ it'.weight + 1 ≤ it.weight ∧
      (c = '.' ∨ c = '/' ∨ c = '$' → it'.saved = []) := by
  obtain ⟨inner, saved, peeked, sv⟩ := it
  obtain ⟨h1, h2, h3, h4⟩ := h
  simp only at h1 h2 h3 h4
  subst h1
  simp only [indicesFrom] at h2
  cases peeked with
  | some p =>
    have hs := h4 rfl
    subst hs
    simp only [Option.toList_some, List.nil_append, List.cons_append, List.cons.injEq] at h2
    obtain ⟨hp, h2⟩ := h2
    subst hp
    refine ⟨_, rfl, ⟨rfl, by simpa using h2, by simp, by simp⟩, Peek.next_some rfl, by simp⟩
  | none =>
    simp only [Option.toList_none, List.nil_append] at h2
    cases saved with
    | cons p r =>
      simp only [List.cons_append, List.cons.injEq] at h2
      obtain ⟨hp, h2⟩ := h2
      subst hp
      refine ⟨_, rfl, ⟨rfl, by simpa using h2, fun q hq => h3 q (List.mem_cons_of_mem _ hq), by simp⟩, Peek.next_some rfl, ?_⟩
      have := h3 _ (List.mem_cons_self)
      intro hc
      rcases hc with hc | hc | hc <;> simp_all
    | nil =>
      cases inner with
      | nil => simp at h2
      | cons p r =>
        simp only [List.nil_append, List.cons.injEq] at h2
        obtain ⟨hp, h2⟩ := h2
        subst hp
        exact ⟨_, rfl, ⟨rfl, by simpa using h2, by simp, by simp⟩, Peek.next_some rfl, by simp⟩

theorem At.next_nil {it : Peek} {off : Nat} (h : At it off []) : it.next = (none, it) := by
  obtain ⟨inner, saved, peeked, sv⟩ := it
  obtain ⟨h1, h2, h3, h4⟩ := h
  simp only at h1 h2 h3 h4
  subst h1
  cases peeked <;> cases saved <;> cases inner <;> simp_all [indicesFrom, Peek.next]

theorem At.peek_nil {it : Peek} {off : Nat} (h : At it off []) : it.peek = (none, it) := by
  obtain ⟨inner, saved, peeked, sv⟩ := it
  obtain ⟨h1, h2, h3, h4⟩ := h
  simp only at h1 h2 h3 h4
  subst h1
  cases peeked <;> cases saved <;> cases inner <;> simp_all [indicesFrom, Peek.peek]

theorem At.peek_cons {it : Peek} {off : Nat} {c : Char} {cs : List Char} (h : At it off (c :: cs)) (hs : it.saved = []) :
    ∃ it', it.peek = (some (off, c), it') ∧ At it' off (c :: cs) ∧ it'.saved = [] ∧ it'.peeked = some (off, c) ∧
      it'.weight ≤ it.weight := by
  have hw := Peek.peek_le it
  obtain ⟨inner, saved, peeked, sv⟩ := it
  obtain ⟨h1, h2, h3, h4⟩ := h
  simp only at h1 h2 h3 h4 hs
  subst h1 hs
  simp only [indicesFrom, List.nil_append] at h2
  cases peeked with
  | some p =>
    simp only [Option.toList_some, List.cons_append, List.nil_append, List.cons.injEq] at h2
    obtain ⟨hp, h2⟩ := h2
    subst hp
    exact ⟨_, rfl, ⟨rfl, by simp [indicesFrom, h2], by simp, by simp⟩, rfl, rfl, hw⟩
  | none =>
    cases inner with
    | nil => simp at h2
    | cons p r =>
      simp only [Option.toList_none, List.nil_append, List.cons.injEq] at h2
      obtain ⟨hp, h2⟩ := h2
      subst hp
      exact ⟨_, rfl, ⟨rfl, by simp [indicesFrom, h2], by simp, by simp⟩, rfl, rfl, hw⟩

theorem At.init (s : List Char) : At { inner := indices s } 0 s :=
  ⟨rfl, by simp [indices], by simp, by simp⟩

theorem sub_eq {source p m t : List Char} {a b : Nat} (hs : source = p ++ (m ++ t)) (ha : a = blen p)
    (hb : b = blen p + blen m) : sub source a b = .ok m := by
  unfold sub
  rw [slice_append' hs ha hb]; rfl

theorem blen_one {c : Char} (h : c.utf8Size = 1) : blen [c] = 1 := by simp [h]

/-! ## Line comments -/

theorem lineLoop_eq (source : List Char) : ∀ (cs pre acc : List Char) (fuel : Nat) (it : Peek),
    source = pre ++ (acc ++ cs) → At it (blen pre + blen acc) cs → it.weight < fuel →
    match closeLine cs with
    | some (b, r) => ∃ it', lineLoop source (blen pre) fuel it = .ok (some (.comment (acc ++ b), blen pre + blen acc + blen b), it') ∧
        At it' (blen pre + blen acc + blen b + 1) r ∧ ∃ nl, cs = b ++ nl :: r ∧ isNewline nl = true
    | none => ∃ it', lineLoop source (blen pre) fuel it = .ok (none, it') ∧ At it' (blen source) [] := by
  intro cs
  induction cs with
  | nil =>
    intro pre acc fuel it hs ha hf
    cases fuel with
    | zero => omega
    | succ fuel =>
      simp only [closeLine]
      refine ⟨it, ?_, ?_⟩
      · unfold lineLoop; rw [ha.next_nil]
      · rw [hs]; simpa using ha
  | cons c cs ih =>
    intro pre acc fuel it hs ha hf
    cases fuel with
    | zero => omega
    | succ fuel =>
      obtain ⟨it', hn, ha', hw, -⟩ := ha.next_cons
      unfold lineLoop
      rw [hn]
      simp only [closeLine, ofChar_newline]
      by_cases hc : isNewline c = true
      · rw [if_pos hc, if_pos hc]
        have h1 : c.utf8Size = 1 := by
          simp only [isNewline, Bool.or_eq_true, beq_iff_eq] at hc
          rcases hc with h | h <;> subst h <;> rfl
        simp only
        refine ⟨it', ?_, by simpa [h1] using ha', c, rfl, hc⟩
        rw [sub_eq (p := pre) (m := acc) (t := c :: cs) hs rfl rfl]
        simp
      · rw [if_neg hc, if_neg hc]
        have := ih pre (acc ++ [c]) fuel it' (by simpa using hs) (by simpa [Nat.add_assoc] using ha') (by omega)
        cases hb : closeLine cs with
        | none => rw [hb] at this; simpa using this
        | some p =>
          rw [hb] at this
          obtain ⟨it2, h1, h2, nl, h3, h4⟩ := this
          refine ⟨it2, ?_, ?_, nl, by simp [h3], h4⟩
          · rw [h1]; simp [Nat.add_assoc]
          · simpa [Nat.add_assoc] using h2

/-! ## Strings -/

theorem quoteSize {q : RChar} (hq : q = .quote ∨ q = .doubleQuote) : q.toChar.utf8Size = 1 := by
  rcases hq with h | h <;> subst h <;> rfl

theorem strLoop_eq (source : List Char) (q : RChar) (hq : q = .quote ∨ q = .doubleQuote) :
    ∀ (n : Nat) (cs pre acc : List Char) (fuel : Nat) (it : Peek), cs.length < n →
    source = pre ++ (acc ++ cs) → At it (blen pre + blen acc) cs → it.weight < fuel →
    match closeString q.toChar cs with
    | some (t, r) => ∃ it', strLoop source (blen pre) q fuel it =
          .ok (some (.str (acc ++ t), blen pre + blen acc + blen t - 1), it') ∧
        At it' (blen pre + blen acc + blen t) r ∧ cs = t ++ r ∧ t ≠ []
    | none => ∃ it', strLoop source (blen pre) q fuel it = .ok (none, it') ∧ At it' (blen source) [] := by
  have hqb : q.toChar ≠ '\\' := by rcases hq with h | h <;> subst h <;> decide
  have hqr : q ≠ .backline := by rcases hq with h | h <;> subst h <;> decide
  intro n
  induction n with
  | zero => intro cs; intros; omega
  | succ n ih =>
    intro cs pre acc fuel it hl hs ha hf
    cases fuel with
    | zero => omega
    | succ fuel =>
      cases cs with
      | nil =>
        simp only [closeString]
        refine ⟨it, ?_, ?_⟩
        · unfold strLoop; rw [ha.next_nil]
        · rw [hs]; simpa using ha
      | cons c cs =>
        obtain ⟨it', hn, ha', hw, -⟩ := ha.next_cons
        unfold strLoop
        rw [hn]
        simp only
        by_cases hb : c = '\\'
        · subst hb
          rw [if_pos (by simp)]
          cases cs with
          | nil =>
            simp only [closeString]
            rw [show it'.next.2 = it' by rw [ha'.next_nil]]
            have := ih [] pre (acc ++ ['\\']) fuel it' (by simp at hl ⊢; omega) (by simpa using hs)
              (by simpa [Nat.add_assoc] using ha') (by omega)
            simpa [closeString] using this
          | cons d cs =>
            obtain ⟨it2, hn2, ha2, hw2, -⟩ := ha'.next_cons
            rw [show it'.next.2 = it2 by rw [hn2]]
            have := ih cs pre (acc ++ ['\\', d]) fuel it2 (by simp at hl ⊢; omega) (by simpa using hs)
              (by simpa [Nat.add_assoc] using ha2) (by omega)
            simp only [closeString]
            cases hb : closeString q.toChar cs with
            | none => rw [hb] at this; simpa using this
            | some p =>
              rw [hb] at this
              obtain ⟨it3, h1, h2, h3, h4⟩ := this
              refine ⟨it3, ?_, ?_, by simp [h3], by simp⟩
              · rw [h1]; simp [Nat.add_assoc]
              · simpa [Nat.add_assoc] using h2
        · rw [if_neg (by simpa using hb)]
          have hcs : closeString q.toChar (c :: cs) =
              if c = q.toChar then some ([c], cs) else (closeString q.toChar cs).map fun p => (c :: p.1, p.2) := by
            rw [closeString]
            · intro h1 h2; exact absurd h1 hb
            · intro d ds h1 h2; exact absurd h1 hb
          rw [hcs]
          by_cases hc : c = q.toChar
          · rw [if_pos ((ofChar_eq_iff hqr).2 hc), if_pos hc]
            have h1 : c.utf8Size = 1 := by rw [hc]; exact quoteSize hq
            simp only
            refine ⟨it', ?_, by simpa using ha', rfl, by simp⟩
            rw [sub_eq (p := pre) (m := acc ++ [c]) (t := cs) (by simpa using hs) rfl (by simp [h1]; omega)]
            simp [h1]
          · rw [if_neg hc, if_neg (fun h => hc ((ofChar_eq_iff hqr).1 h))]
            have := ih cs pre (acc ++ [c]) fuel it' (by simp at hl ⊢; omega) (by simpa using hs)
              (by simpa [Nat.add_assoc] using ha') (by omega)
            cases hb : closeString q.toChar cs with
            | none => rw [hb] at this; simpa using this
            | some p =>
              rw [hb] at this
              obtain ⟨it3, h1, h2, h3, h4⟩ := this
              refine ⟨it3, ?_, ?_, by simp [h3], by simp⟩
              · rw [h1]; simp [Nat.add_assoc]
              · simpa [Nat.add_assoc] using h2

/-! ## Block comments -/

/-- Offset of the last character of `cs`, which starts at `off` (`cur` if there is none). -/
def lastOff (cur off : Nat) : List Char → Nat
  | [] => cur
  | c :: cs => lastOff off (off + c.utf8Size) cs

theorem commentLoop_eq : ∀ (cs : List Char) (off fuel : Nat) (prev : RChar) (cur : Nat) (it : Peek),
    2 ≤ off → At it off cs → it.weight < fuel →
    if prev = .star ∧ cs.head? = some '/' then
      ∃ it', commentLoop fuel prev cur it = .ok (off - 2, it') ∧ At it' (off + 1) cs.tail
    else
      match closeBlock cs with
      | some (b, r) => ∃ it', commentLoop fuel prev cur it = .ok (off + blen b - 1, it') ∧ At it' (off + blen b + 2) r ∧
          cs = b ++ '*' :: '/' :: r
      | none => ∃ it', commentLoop fuel prev cur it = .ok (lastOff cur off cs, it') ∧ At it' (off + blen cs) [] := by
  intro cs
  induction cs with
  | nil =>
    intro off fuel prev cur it ho ha hf
    cases fuel with
    | zero => omega
    | succ fuel =>
      rw [if_neg (by simp)]
      simp only [closeBlock]
      refine ⟨it, ?_, by simpa using ha⟩
      unfold commentLoop; rw [ha.next_nil]; rfl
  | cons c cs ih =>
    intro off fuel prev cur it ho ha hf
    cases fuel with
    | zero => omega
    | succ fuel =>
      obtain ⟨it', hn, ha', hw, -⟩ := ha.next_cons
      by_cases hc : prev = .star ∧ (c :: cs).head? = some '/'
      · rw [if_pos hc]
        obtain ⟨hp, hc⟩ := hc
        simp only [List.head?_cons, Option.some.injEq] at hc
        subst hp hc
        have e : RChar.ofChar '/' = some .slash := rfl
        rw [commentLoop, hn]
        simp only [e]
        rw [if_pos (by decide), if_neg (by omega)]
        exact ⟨it', rfl, ha'⟩
      · rw [if_neg hc]
        have hrc : ∀ rc, RChar.ofChar c = some rc → (rc == .slash && prev == .star) = false := by
          intro rc h
          cases hx : (rc == .slash && prev == .star) with
          | false => rfl
          | true =>
            simp only [Bool.and_eq_true, beq_iff_eq] at hx
            obtain ⟨h1, h2⟩ := hx
            subst h1
            exact absurd ⟨h2, by simp [(ofChar_eq_iff (by decide)).1 (by rw [h]; rfl : (RChar.ofChar c == some .slash) = true), RChar.toChar]⟩ hc
        have step : commentLoop (fuel + 1) prev cur it = commentLoop fuel ((RChar.ofChar c).getD .space) off it' := by
          rw [commentLoop, hn]
          simp only
          cases h : RChar.ofChar c with
          | none => rfl
          | some rc => simp only [hrc rc h]; rfl
        rw [step]
        have := ih (off + c.utf8Size) fuel ((RChar.ofChar c).getD .space) off it' (by omega) ha' (by omega)
        by_cases hst : c = '*' ∧ cs.head? = some '/'
        · obtain ⟨h1, h2⟩ := hst
          subst h1
          cases cs with
          | nil => simp at h2
          | cons d cs =>
            simp only [List.head?_cons, Option.some.injEq] at h2
            subst h2
            have e : (RChar.ofChar '*').getD .space = .star := rfl
            rw [e] at this ⊢
            rw [if_pos (by simp)] at this
            obtain ⟨it2, h3, h4⟩ := this
            have e1 : ('*' : Char).utf8Size = 1 := rfl
            have e2 : ('/' : Char).utf8Size = 1 := rfl
            simp only [closeBlock, blen_nil]
            refine ⟨it2, ?_, by simpa [e1] using h4, rfl⟩
            rw [h3, e1]
            simp
        · have hcb : closeBlock (c :: cs) = (closeBlock cs).map fun p => (c :: p.1, p.2) := by
            rw [closeBlock]
            intro r h1 h2
            exact hst ⟨h1, by simp [h2]⟩
          have hneg : ¬ ((RChar.ofChar c).getD .space = .star ∧ cs.head? = some '/') := by
            rintro ⟨h1, h2⟩
            cases h : RChar.ofChar c with
            | none => rw [h] at h1; simp at h1
            | some rc =>
              rw [h] at h1
              simp only [Option.getD_some] at h1
              subst h1
              have h3 : (RChar.ofChar c == some .star) = true := by rw [h]; rfl
              exact hst ⟨(ofChar_eq_iff (by decide)).1 h3, h2⟩
          rw [if_neg hneg] at this
          rw [hcb]
          cases hb : closeBlock cs with
          | none =>
            rw [hb] at this
            simpa [lastOff, Nat.add_assoc] using this
          | some p =>
            rw [hb] at this
            obtain ⟨it3, h1, h2, h3⟩ := this
            refine ⟨it3, ?_, ?_, by simp [h3]⟩
            · rw [h1]; simp [Nat.add_assoc]
            · simpa [Nat.add_assoc] using h2

/-! ## Template literals -/

/-- Put a text in front of the end of a template literal. -/
def pre (t : List Char) : Close → Close
  | .closed u r => .closed (t ++ u) r
  | x => x

@[simp] theorem pre_nil (x : Close) : pre [] x = x := by cases x <;> rfl
theorem cons_pre (c : Char) (t : List Char) (x : Close) : (pre t x).cons c = pre (c :: t) x := by cases x <;> rfl
theorem cons_eq_pre (c : Char) (x : Close) : x.cons c = pre [c] x := by cases x <;> rfl
theorem pre_pre (t u : List Char) (x : Close) : pre t (pre u x) = pre (t ++ u) x := by cases x <;> simp [pre]

/-- Enlarge the stack at its outer end. -/
def Place.app : Place → List Nat → Place
  | .text st, l => .text (st ++ l)
  | .code n st, l => .code n (st ++ l)
  | .quoted q n st, l => .quoted q n (st ++ l)

/-- Once the inner literal is closed, the outer one goes on. -/
def andThen (L : Nat) (p : Place) : Close → Close
  | .closed t r => pre t (closeTemplate L p r)
  | x => x

theorem andThen_cons (L : Nat) (p : Place) (c : Char) (x : Close) : andThen L p (x.cons c) = (andThen L p x).cons c := by
  cases x <;> first | rfl | exact (cons_pre c _ _).symm

theorem ct_nil (L : Nat) (p : Place) : closeTemplate L p [] = .unclosed := by cases p <;> rfl

theorem ct_last (L : Nat) (p : Place) : closeTemplate L p ['\\'] = .unclosed := by cases p <;> rfl

theorem ct_esc (L : Nat) (p : Place) (c : Char) (cs : List Char) :
    closeTemplate L p ('\\' :: c :: cs) = ((closeTemplate L p cs).cons c).cons '\\' := by
  cases p <;> simp [closeTemplate]

theorem ct_text (L : Nat) (st : List Nat) {c : Char} (cs : List Char) (hc : c ≠ '\\') :
    closeTemplate L (.text st) (c :: cs) =
      if c = '$' ∧ cs.head? = some '{' then (closeTemplate L (.code 0 st) cs).cons c
      else if c = '`' then
        match st with
        | [] => .closed [c] cs
        | n :: st => (closeTemplate L (.code n st) cs).cons c
      else (closeTemplate L (.text st) cs).cons c := by
  rw [closeTemplate.eq_def]
  cases st <;> split <;> simp_all
  all_goals (obtain ⟨h, h'⟩ := ‹_ ∧ _›; subst h h'; subst_vars; rfl)

theorem ct_code (L n : Nat) (st : List Nat) {c : Char} (cs : List Char) (hc : c ≠ '\\') :
    closeTemplate L (.code n st) (c :: cs) =
      if c = '"' ∨ c = '\'' then (closeTemplate L (.quoted c n st) cs).cons c
      else if c = '`' then
        if L ≤ st.length then .tooDeep else (closeTemplate L (.text (n :: st)) cs).cons c
      else if c = '{' then (closeTemplate L (.code (n + 1) st) cs).cons c
      else if c = '}' then
        if n = 1 then (closeTemplate L (.text st) cs).cons c else (closeTemplate L (.code (n - 1) st) cs).cons c
      else (closeTemplate L (.code n st) cs).cons c := by
  rw [closeTemplate]
  · intro h; exact absurd h hc
  · intro d ds h; exact absurd h hc

theorem ct_quoted (L : Nat) (q : Char) (n : Nat) (st : List Nat) {c : Char} (cs : List Char) (hc : c ≠ '\\') :
    closeTemplate L (.quoted q n st) (c :: cs) =
      if c = q then (closeTemplate L (.code n st) cs).cons c else (closeTemplate L (.quoted q n st) cs).cons c := by
  rw [closeTemplate]
  · intro h; exact absurd h hc
  · intro d ds h; exact absurd h hc

theorem closeTemplate_nested (L n : Nat) (st : List Nat) : ∀ (k : Nat) (p : Place) (cs : List Char), cs.length < k →
    closeTemplate L (Place.app p (n :: st)) cs = andThen L (.code n st) (closeTemplate (L - (st.length + 1)) p cs) := by
  intro k
  induction k with
  | zero => intros; omega
  | succ k ih =>
    intro p cs hl
    match cs, hl with
    | [], _ => simp only [ct_nil, andThen]
    | c :: cs, hl =>
      have ih' := ih
      have ih := fun p => ih p cs (by simpa using hl)
      by_cases hc : c = '\\'
      · subst hc
        cases cs with
        | nil => simp only [ct_last, andThen]
        | cons d cs =>
          rw [ct_esc, ct_esc, andThen_cons, andThen_cons]
          rw [ih' p cs (by simp at hl ⊢; omega)]
      · cases p with
        | text σ =>
          simp only [Place.app]
          rw [ct_text _ _ _ hc, ct_text _ _ _ hc]
          have e1 := ih (.code 0 σ)
          have e2 := ih (.text σ)
          simp only [Place.app] at e1 e2
          by_cases h1 : c = '$' ∧ cs.head? = some '{'
          · rw [if_pos h1, if_pos h1, andThen_cons, e1]
          · rw [if_neg h1, if_neg h1]
            by_cases h2 : c = '`'
            · rw [if_pos h2, if_pos h2]
              cases σ with
              | nil => simp only [List.nil_append, andThen]; exact cons_eq_pre _ _
              | cons m σ =>
                have e3 := ih (.code m σ)
                simp only [Place.app] at e3
                simp only [List.cons_append]
                rw [andThen_cons, e3]
            · rw [if_neg h2, if_neg h2, andThen_cons, e2]
        | code m σ =>
          simp only [Place.app]
          rw [ct_code _ _ _ _ hc, ct_code _ _ _ _ hc]
          have e1 := ih (.quoted c m σ)
          have e2 := ih (.text (m :: σ))
          have e3 := ih (.code (m + 1) σ)
          have e4 := ih (.text σ)
          have e5 := ih (.code (m - 1) σ)
          have e6 := ih (.code m σ)
          simp only [Place.app, List.cons_append] at e1 e2 e3 e4 e5 e6
          rw [e1, e2, e3, e4, e5, e6]
          have hL : (L ≤ (σ ++ n :: st).length) = (L - (st.length + 1) ≤ σ.length) := by
            simp only [List.length_append, List.length_cons, eq_iff_iff]; omega
          simp only [hL]
          repeat' split
          all_goals first | rw [andThen_cons] | rfl
        | quoted q m σ =>
          simp only [Place.app]
          rw [ct_quoted _ _ _ _ _ hc, ct_quoted _ _ _ _ _ hc]
          have e1 := ih (.code m σ)
          have e2 := ih (.quoted q m σ)
          simp only [Place.app] at e1 e2
          rw [e1, e2]
          split <;> rw [andThen_cons]

theorem closeString_step {q c : Char} (cs : List Char) (hc : c ≠ '\\') : closeString q (c :: cs) =
    if c = q then some ([c], cs) else (closeString q cs).map fun p => (c :: p.1, p.2) := by
  rw [closeString]
  · intro h; exact absurd h hc
  · intro d ds h; exact absurd h hc

theorem closeTemplate_quoted (L : Nat) (q : Char) (n : Nat) (st : List Nat) : ∀ (k : Nat) (cs : List Char), cs.length < k →
    closeTemplate L (.quoted q n st) cs =
      match closeString q cs with
      | some (t, r) => pre t (closeTemplate L (.code n st) r)
      | none => .unclosed := by
  intro k
  induction k with
  | zero => intros; omega
  | succ k ih =>
    intro cs hl
    match cs, hl with
    | [], _ => simp only [ct_nil, closeString]
    | c :: cs, hl =>
      by_cases hc : c = '\\'
      · subst hc
        cases cs with
        | nil => simp only [ct_last, closeString]
        | cons d cs =>
          rw [ct_esc, ih cs (by simp at hl ⊢; omega)]
          simp only [closeString]
          cases closeString q cs with
          | none => rfl
          | some p => simp [cons_pre]
      · rw [ct_quoted _ _ _ _ _ hc, closeString_step _ hc, ih cs (by simpa using hl)]
        by_cases h : c = q
        · rw [if_pos h, if_pos h]; exact cons_eq_pre _ _
        · rw [if_neg h, if_neg h]
          cases closeString q cs with
          | none => rfl
          | some p => simp [cons_pre]

private theorem cons_closed {c : Char} {x : Close} {t r : List Char} (h : x.cons c = .closed t r) :
    ∃ u, t = c :: u ∧ x = .closed u r := by
  cases x with
  | closed u r' => cases h; exact ⟨u, rfl, rfl⟩
  | unclosed => cases h
  | tooDeep => cases h

theorem closeTemplate_split (L : Nat) : ∀ (k : Nat) (p : Place) (cs : List Char) {t r : List Char}, cs.length < k →
    closeTemplate L p cs = .closed t r → cs = t ++ r := by
  intro k
  induction k with
  | zero => intros; omega
  | succ k ih =>
    intro p cs t r hl h
    match cs, hl with
    | [], _ => rw [ct_nil] at h; cases h
    | c :: cs, hl =>
      have one : ∀ {p}, (closeTemplate L p cs).cons c = .closed t r → c :: cs = t ++ r := by
        intro p h
        obtain ⟨u, hu, h'⟩ := cons_closed h
        rw [hu, ih p cs (by simpa using hl) h']; rfl
      by_cases hc : c = '\\'
      · subst hc
        cases cs with
        | nil => rw [ct_last] at h; cases h
        | cons d cs =>
          rw [ct_esc] at h
          obtain ⟨u, hu, h'⟩ := cons_closed h
          obtain ⟨u', hu', h'⟩ := cons_closed h'
          rw [hu, hu', ih p cs (by simp at hl ⊢; omega) h']; rfl
      · cases p with
        | text st =>
          rw [ct_text _ _ _ hc] at h
          split at h
          · exact one h
          · split at h
            · cases st with
              | nil => cases h; rfl
              | cons n st => exact one h
            · exact one h
        | code n st =>
          rw [ct_code _ _ _ _ hc] at h
          repeat' split at h
          all_goals first | exact one h | cases h
        | quoted q n st =>
          rw [ct_quoted _ _ _ _ _ hc] at h
          split at h <;> exact one h

/-- What `backtick` answers, against the specification. -/
def TextOk (source : List Char) (off : Nat) (acc : List Char) (res : Out (Option (Token × Nat) × Peek)) : Close → Prop
  | .closed t r => ∃ it', res = .ok (some (.str (acc ++ t), off + blen t - 1), it') ∧ At it' (off + blen t) r
  | .unclosed => ∃ it', res = .ok (none, it') ∧ At it' (blen source) []
  | .tooDeep => res = .err "Too nested backtick (`) string"

/-- What `interpolation` answers, against the specification. -/
def CodeOk (source : List Char) (L off : Nat) (cs : List Char) (res : Out (Bool × Peek)) (x : Close) : Prop :=
  (∃ t r it', res = .ok (true, it') ∧ At it' (off + blen t) r ∧ cs = t ++ r ∧ x = pre t (closeTemplate L (.text []) r)) ∨
  (∃ it', res = .ok (false, it') ∧ At it' (blen source) [] ∧ x = .unclosed) ∨
  (res = .err "Too nested backtick (`) string" ∧ x = .tooDeep)

theorem TextOk.cons {source : List Char} {off : Nat} {acc : List Char} {res : Out (Option (Token × Nat) × Peek)}
    {x : Close} {t : List Char} (h : TextOk source (off + blen t) (acc ++ t) res x) :
    TextOk source off acc res (pre t x) := by
  cases x with
  | closed u r =>
    obtain ⟨it', h1, h2⟩ := h
    refine ⟨it', ?_, by simpa [Nat.add_assoc] using h2⟩
    rw [h1]; simp [Nat.add_assoc]
  | unclosed => exact h
  | tooDeep => exact h

theorem CodeOk.cons {source : List Char} {L off : Nat} {cs t : List Char} {res : Out (Bool × Peek)} {x : Close}
    (h : CodeOk source L (off + blen t) cs res x) : CodeOk source L off (t ++ cs) res (pre t x) := by
  rcases h with ⟨u, r, it', h1, h2, h3, h4⟩ | ⟨it', h1, h2, h3⟩ | ⟨h1, h2⟩
  · exact .inl ⟨t ++ u, r, it', h1, by simpa [Nat.add_assoc] using h2, by simp [h3], by rw [h4, pre_pre]⟩
  · exact .inr (.inl ⟨it', h1, h2, by rw [h3]; rfl⟩)
  · exact .inr (.inr ⟨h1, by rw [h2]; rfl⟩)

theorem getString_eq {source : List Char} {q : RChar} (hq : q = .quote ∨ q = .doubleQuote) {cs pre acc : List Char}
    {it : Peek} (hs : source = pre ++ (acc ++ cs)) (ha : At it (blen pre + blen acc) cs) :
    match closeString q.toChar cs with
    | some (t, r) => ∃ it', getString source it (blen pre) q =
          .ok (some (.str (acc ++ t)), it', blen pre + blen acc + blen t - 1) ∧
        At it' (blen pre + blen acc + blen t) r ∧ cs = t ++ r ∧ t ≠ []
    | none => ∃ it', getString source it (blen pre) q = .ok (none, it', blen pre) ∧ At it' (blen source) [] := by
  have := strLoop_eq source q hq (cs.length + 1) cs pre acc (it.weight + 1) it (Nat.lt_succ_self _) hs ha (Nat.lt_succ_self _)
  unfold getString
  cases h : closeString q.toChar cs with
  | none =>
    rw [h] at this
    obtain ⟨it', h1, h2⟩ := this
    exact ⟨it', by rw [h1]; rfl, h2⟩
  | some p =>
    rw [h] at this
    obtain ⟨it', h1, h2⟩ := this
    exact ⟨it', by rw [h1]; rfl, h2⟩

theorem backtick_eq (source : List Char) (fuel : Nat) :
    (∀ (p acc cs : List Char) (it : Peek) (d : Nat), source = p ++ (acc ++ cs) → At it (blen p + blen acc) cs →
      it.weight < fuel →
      TextOk source (blen p + blen acc) acc (backtick source (blen p) d fuel it) (closeTemplate (1000 - d) (.text []) cs)) ∧
    (∀ (p cs : List Char) (it : Peek) (d n : Nat), source = p ++ cs → At it (blen p) cs → it.weight < fuel →
      (1 ≤ n ∨ cs.head? = some '{') →
      CodeOk source (1000 - d) (blen p) cs (interpolation source d n fuel it) (closeTemplate (1000 - d) (.code n []) cs)) := by
  induction fuel with
  | zero => exact ⟨by intros; omega, by intros; omega⟩
  | succ fuel ih =>
    obtain ⟨ihB, ihI⟩ := ih
    constructor
    · intro p acc cs it d hs ha hf
      cases cs with
      | nil =>
        rw [ct_nil]
        refine ⟨it, ?_, by rw [hs]; simpa using ha⟩
        unfold backtick; rw [ha.next_nil]
      | cons c cs =>
        obtain ⟨it', hn, ha', hw, hsv⟩ := ha.next_cons
        unfold backtick
        rw [hn]
        simp only
        by_cases hb : c = '\\'
        · subst hb
          rw [if_pos (by decide)]
          cases cs with
          | nil =>
            rw [show it'.next.2 = it' by rw [ha'.next_nil], ct_last]
            have := ihB p (acc ++ ['\\']) [] it' d (by simpa using hs) (by simpa [Nat.add_assoc] using ha') (by omega)
            rw [ct_nil] at this
            exact this
          | cons e cs =>
            obtain ⟨it2, hn2, ha2, hw2, -⟩ := ha'.next_cons
            rw [show it'.next.2 = it2 by rw [hn2], ct_esc, cons_eq_pre e, cons_pre]
            have := ihB p (acc ++ ['\\', e]) cs it2 d (by simpa using hs) (by simpa [Nat.add_assoc] using ha2) (by omega)
            exact TextOk.cons (by simpa [Nat.add_assoc] using this)
        · rw [if_neg (by simpa using hb), ct_text _ _ _ hb]
          have plain : TextOk source (blen p + blen acc) acc (backtick source (blen p) d fuel it')
              ((closeTemplate (1000 - d) (.text []) cs).cons c) := by
            rw [cons_eq_pre]
            have := ihB p (acc ++ [c]) cs it' d (by simpa using hs) (by simpa [Nat.add_assoc] using ha') (by omega)
            exact TextOk.cons (by simpa [Nat.add_assoc] using this)
          by_cases hd : c = '$'
          · have hd' : (c == '$') = true := by simpa using hd
            have hbq : ¬ c = '`' := by rw [hd]; decide
            rw [if_pos hd']
            cases cs with
            | nil =>
              rw [ha'.peek_nil]
              have hq' : ¬ ((c == '`') = true) := by simpa using hbq
              rw [if_neg (show ¬ (c = '$' ∧ ([] : List Char).head? = some '{') by simp), if_neg hbq]
              simp only [Option.map_none]
              rw [if_neg (by decide), if_neg hq']
              exact plain
            | cons e cs =>
              obtain ⟨it2, hp2, ha2, hs2, hpk, hw2⟩ := ha'.peek_cons (hsv (.inr (.inr hd)))
              rw [hp2]
              by_cases he : e = '{'
              · subst he
                rw [if_pos (show c = '$' ∧ ('{' :: cs).head? = some '{' from ⟨hd, rfl⟩)]
                simp only [Option.map_some]
                rw [if_pos (by decide)]
                have hi := ihI (p ++ (acc ++ [c])) ('{' :: cs) it2 d 0 (by simpa using hs)
                  (by simpa [Nat.add_assoc] using ha2) (by omega) (.inr rfl)
                have hg := ((backtick_good source fuel).2 d 0 it2 (by omega)).2
                rcases hi with ⟨t, r, it3, h1, h2, h3, h4⟩ | ⟨it3, h1, h2, h3⟩ | ⟨h1, h3⟩
                · simp only [Int.natCast_zero] at h1
                  rw [h1] at hg ⊢
                  have hw3 := hg _ rfl
                  simp only [w2] at hw3
                  simp only [Out.bind_ok]
                  rw [h4, cons_pre]
                  have := ihB p (acc ++ (c :: t)) r it3 d (by rw [hs, h3]; simp)
                    (by simpa [Nat.add_assoc] using h2) (by omega)
                  exact TextOk.cons (by simpa [Nat.add_assoc] using this)
                · simp only [Int.natCast_zero] at h1
                  rw [h1, h3]
                  exact ⟨it3, rfl, h2⟩
                · simp only [Int.natCast_zero] at h1
                  rw [h1, h3]
                  rfl
              · have hq' : ¬ ((c == '`') = true) := by simpa using hbq
                rw [if_neg (show ¬ (c = '$' ∧ (e :: cs).head? = some '{') by simp [he]), if_neg hbq]
                simp only [Option.map_some]
                rw [if_neg (by simpa using he), if_neg hq']
                rw [cons_eq_pre]
                have := ihB p (acc ++ [c]) (e :: cs) it2 d (by simpa using hs) (by simpa [Nat.add_assoc] using ha2) (by omega)
                exact TextOk.cons (by simpa [Nat.add_assoc] using this)
          · have hd' : ¬ ((c == '$') = true) := by simpa using hd
            rw [if_neg hd', if_neg (show ¬ (c = '$' ∧ cs.head? = some '{') from fun h => hd h.1)]
            rw [if_neg (show ¬ (false, it').1 = true by simp)]
            by_cases hq : c = '`'
            · have hq' : (c == '`') = true := by simpa using hq
              rw [if_pos hq, if_pos hq']
              have h1 : c.utf8Size = 1 := by rw [hq]; rfl
              refine ⟨it', ?_, by simpa using ha'⟩
              rw [sub_eq (p := p) (m := acc ++ [c]) (t := cs) (by simpa using hs) rfl (by simp [h1]; omega)]
              simp [h1]
            · have hq' : ¬ ((c == '`') = true) := by simpa using hq
              rw [if_neg hq, if_neg hq']
              exact plain
    · intro p cs it d n hs ha hf hn1
      cases cs with
      | nil =>
        rw [ct_nil]
        refine .inr (.inl ⟨it, ?_, by rw [hs]; simpa using ha, rfl⟩)
        unfold interpolation; rw [ha.next_nil]
      | cons c cs =>
        obtain ⟨it', hn, ha', hw, -⟩ := ha.next_cons
        unfold interpolation
        rw [hn]
        simp only
        by_cases hb : c = '\\'
        · subst hb
          have hn1' : 1 ≤ n := by
            rcases hn1 with h | h
            · exact h
            · simp at h
          rw [if_pos (by decide)]
          cases cs with
          | nil =>
            rw [show it'.next.2 = it' by rw [ha'.next_nil], ct_last]
            have := ihI (p ++ ['\\']) [] it' d n (by simpa using hs) (by simpa [Nat.add_assoc] using ha') (by omega) (.inl hn1')
            rw [ct_nil] at this
            have := CodeOk.cons (t := ['\\']) (off := blen p) (by simpa using this)
            simpa [pre] using this
          | cons e cs =>
            obtain ⟨it2, hn2, ha2, hw2, -⟩ := ha'.next_cons
            rw [show it'.next.2 = it2 by rw [hn2], ct_esc, cons_eq_pre e, cons_pre]
            have := ihI (p ++ ['\\', e]) cs it2 d n (by simpa using hs) (by simpa [Nat.add_assoc] using ha2) (by omega) (.inl hn1')
            exact CodeOk.cons (t := ['\\', e]) (by simpa [Nat.add_assoc] using this)
        · rw [if_neg (by simpa using hb), ct_code _ _ _ _ hb]
          have hs' : source = (p ++ [c]) ++ cs := by simpa using hs
          have ha'' : At it' (blen (p ++ [c])) cs := by simpa using ha'
          by_cases hq : c = '"' ∨ c = '\''
          · have hn1 : 1 ≤ n := by
              rcases hn1 with h | h
              · exact h
              · simp at h; subst h; simp at hq
            rw [if_pos (by simpa using hq), if_pos hq]
            rw [closeTemplate_quoted _ _ _ _ _ _ (Nat.lt_succ_self _), cons_eq_pre]
            obtain ⟨q, hqq, hqe, hqc⟩ : ∃ q : RChar, (q = .quote ∨ q = .doubleQuote) ∧
                (if (c == '"') = true then RChar.doubleQuote else RChar.quote) = q ∧ q.toChar = c := by
              rcases hq with h | h
              · exact ⟨.doubleQuote, .inr rfl, by simp [h], by simp [h, RChar.toChar]⟩
              · exact ⟨.quote, .inl rfl, by simp [h], by simp [h, RChar.toChar]⟩
            rw [hqe]
            have hg := (getString_good source it' (blen p) q).2
            have := getString_eq (source := source) hqq (cs := cs) (pre := p) (acc := [c]) (it := it') (by simpa using hs)
              (by simpa using ha')
            rw [hqc] at this
            cases hcl : closeString c cs with
            | none =>
              rw [hcl] at this
              obtain ⟨it2, h1, h2⟩ := this
              rw [h1] at hg ⊢
              have hw3 := hg _ rfl
              simp only [w3] at hw3
              simp only [Out.bind_ok]
              have := ihI source [] it2 d n (by simp) h2 (by omega) (.inl hn1)
              rw [ct_nil] at this
              rcases this with ⟨t, r, it3, h3, h4, h5, h6⟩ | ⟨it3, h3, h4, h5⟩ | ⟨h3, h4⟩
              · simp at h5
                rw [h5.1, h5.2, ct_nil] at h6
                simp [h5.2] at h4
                -- at the end of the text nothing is closed
                cases fuel with
                | zero => omega
                | succ fuel =>
                  unfold interpolation at h3
                  rw [h2.next_nil] at h3
                  simp at h3
              · exact .inr (.inl ⟨it3, h3, h4, rfl⟩)
              · cases h4
            | some tr =>
              rw [hcl] at this
              obtain ⟨it2, h1, h2, h3, h4⟩ := this
              rw [h1] at hg ⊢
              have hw3 := hg _ rfl
              simp only [w3] at hw3
              simp only [Out.bind_ok]
              have := ihI (p ++ (c :: tr.1)) tr.2 it2 d n (by rw [hs, h3]; simp) (by simpa [Nat.add_assoc] using h2)
                (by omega) (.inl hn1)
              have := CodeOk.cons (t := c :: tr.1) (off := blen p) (by simpa [Nat.add_assoc] using this)
              rw [h3, pre_pre]
              simpa using this
          · rw [if_neg (by simpa using hq), if_neg hq]
            by_cases hbq : c = '`'
            · have hn1 : 1 ≤ n := by
                rcases hn1 with h | h
                · exact h
                · simp at h; subst h; simp at hbq
              rw [if_pos (by simpa using hbq), if_pos hbq]
              by_cases hd : d ≥ maxBacktickNesting
              · rw [if_pos hd, if_pos (by simp [maxBacktickNesting] at hd ⊢; omega)]
                exact .inr (.inr ⟨rfl, rfl⟩)
              · rw [if_neg hd, if_neg (by simp [maxBacktickNesting] at hd ⊢; omega)]
                have hnest := closeTemplate_nested (1000 - d) n [] (cs.length + 1) (.text []) cs (Nat.lt_succ_self _)
                simp only [Place.app, List.nil_append, List.length_nil, Nat.zero_add] at hnest
                rw [hnest, show 1000 - d - 1 = 1000 - (d + 1) by omega, cons_eq_pre]
                have hB := ihB p [c] cs it' (d + 1) (by simpa using hs) (by simpa using ha') (by omega)
                have hg := ((backtick_good source fuel).1 (blen p) (d + 1) it' (by omega)).2
                cases hx : closeTemplate (1000 - (d + 1)) (.text []) cs with
                | closed t r =>
                  rw [hx] at hB
                  obtain ⟨it2, h1, h2⟩ := hB
                  rw [h1] at hg ⊢
                  have hw3 := hg _ rfl
                  simp only [w2] at hw3
                  simp only [Out.bind_ok, andThen]
                  have hcs : cs = t ++ r := closeTemplate_split _ _ _ _ (Nat.lt_succ_self _) hx
                  have := ihI (p ++ (c :: t)) r it2 d n (by rw [hs, hcs]; simp) (by simpa [Nat.add_assoc] using h2)
                    (by omega) (.inl hn1)
                  have := CodeOk.cons (t := c :: t) (off := blen p) (by simpa [Nat.add_assoc] using this)
                  rw [hcs, pre_pre]
                  simpa using this
                | unclosed =>
                  rw [hx] at hB
                  obtain ⟨it2, h1, h2⟩ := hB
                  rw [h1] at hg ⊢
                  have hw3 := hg _ rfl
                  simp only [w2] at hw3
                  simp only [Out.bind_ok, andThen]
                  cases fuel with
                  | zero => omega
                  | succ fuel =>
                    refine .inr (.inl ⟨it2, ?_, h2, rfl⟩)
                    unfold interpolation
                    rw [h2.next_nil]
                | tooDeep =>
                  rw [hx] at hB
                  rw [hB]
                  exact .inr (.inr ⟨rfl, rfl⟩)
            · rw [if_neg (by simpa using hbq), if_neg hbq]
              by_cases ho : c = '{'
              · rw [if_pos (by simpa using ho), if_pos ho, cons_eq_pre]
                have := ihI _ cs it' d (n + 1) hs' ha'' (by omega) (.inl (by omega))
                exact CodeOk.cons (t := [c]) (by simpa using this)
              · have hn1 : 1 ≤ n := by
                  rcases hn1 with h | h
                  · exact h
                  · simp at h; exact absurd h ho
                rw [if_neg (by simpa using ho), if_neg ho]
                by_cases hcl : c = '}'
                · rw [if_pos (by simpa using hcl), if_pos hcl]
                  by_cases h1 : n = 1
                  · rw [if_pos h1, if_pos (by omega)]
                    exact .inl ⟨[c], cs, it', rfl, by simpa using ha', rfl, cons_eq_pre _ _⟩
                  · rw [if_neg h1, if_neg (by omega), cons_eq_pre]
                    have := ihI _ cs it' d (n - 1) hs' ha'' (by omega) (.inl (by omega))
                    rw [show ((n - 1 : Nat) : Int) = (n : Int) - 1 by omega] at this
                    exact CodeOk.cons (t := [c]) (by simpa using this)
                · rw [if_neg (by simpa using hcl), if_neg hcl, cons_eq_pre]
                  have := ihI _ cs it' d n hs' ha'' (by omega) (.inl hn1)
                  exact CodeOk.cons (t := [c]) (by simpa using this)

/-! ## Regular expressions -/

theorem indicesFrom_snoc (off : Nat) (l : List Char) (c : Char) :
    indicesFrom off (l ++ [c]) = indicesFrom off l ++ [(off + blen l, c)] := by
  induction l generalizing off with
  | nil => simp [indicesFrom]
  | cons d l ih => simp [indicesFrom, ih, Nat.add_assoc]

/-- An iterator in saving mode that has delivered `done` from offset `off` on, and will deliver `cs`. -/
structure Sv (it : Peek) (off : Nat) (done cs : List Char) : Prop where
  saving : it.isSaving = true
  items : it.peeked.toList ++ it.inner = indicesFrom (off + blen done) cs
  saved : it.saved = indicesFrom off done ++ it.peeked.toList

theorem Sv.next_cons {it : Peek} {off : Nat} {done : List Char} {c : Char} {cs : List Char} (h : Sv it off done (c :: cs)) :
    ∃ it', it.next = (some (off + blen done, c), it') ∧ Sv it' off (done ++ [c]) cs ∧ it'.weight + 1 ≤ it.weight ∧
      it'.peeked = none := by
  obtain ⟨inner, saved, peeked, sv⟩ := it
  obtain ⟨h1, h2, h3⟩ := h
  simp only at h1 h2 h3
  subst h1 h3
  simp only [indicesFrom] at h2
  cases peeked with
  | some p =>
    simp only [Option.toList_some, List.cons_append, List.nil_append, List.cons.injEq] at h2
    obtain ⟨hp, h2⟩ := h2
    subst hp
    exact ⟨_, rfl, ⟨rfl, by simp [h2, Nat.add_assoc], by simp [indicesFrom_snoc]⟩, Peek.next_some rfl, rfl⟩
  | none =>
    cases inner with
    | nil => simp at h2
    | cons p r =>
      simp only [Option.toList_none, List.nil_append, List.cons.injEq] at h2
      obtain ⟨hp, h2⟩ := h2
      subst hp
      refine ⟨_, rfl, ⟨rfl, by simp [h2, Nat.add_assoc], by simp [indicesFrom_snoc]⟩, Peek.next_some rfl, rfl⟩

theorem Sv.next_nil {it : Peek} {off : Nat} {done : List Char} (h : Sv it off done []) :
    it.next = (none, it) ∧ it.peeked = none := by
  obtain ⟨inner, saved, peeked, sv⟩ := it
  obtain ⟨h1, h2, h3⟩ := h
  simp only at h1 h2 h3
  subst h1
  cases peeked <;> cases inner <;> simp_all [indicesFrom, Peek.next]

theorem Sv.peek_nil {it : Peek} {off : Nat} {done : List Char} (h : Sv it off done []) : it.peek = (none, it) := by
  obtain ⟨inner, saved, peeked, sv⟩ := it
  obtain ⟨h1, h2, h3⟩ := h
  simp only at h1 h2 h3
  subst h1
  cases peeked <;> cases inner <;> simp_all [indicesFrom, Peek.peek]

theorem Sv.peek_cons {it : Peek} {off : Nat} {done : List Char} {c : Char} {cs : List Char} (h : Sv it off done (c :: cs)) :
    ∃ it', it.peek = (some (off + blen done, c), it') ∧ Sv it' off done (c :: cs) ∧ it'.weight ≤ it.weight := by
  have hw := Peek.peek_le it
  obtain ⟨inner, saved, peeked, sv⟩ := it
  obtain ⟨h1, h2, h3⟩ := h
  simp only at h1 h2 h3
  subst h1 h3
  simp only [indicesFrom] at h2
  cases peeked with
  | some p =>
    simp only [Option.toList_some, List.cons_append, List.nil_append, List.cons.injEq] at h2
    obtain ⟨hp, h2⟩ := h2
    subst hp
    exact ⟨_, rfl, ⟨rfl, by simp [h2, indicesFrom], rfl⟩, hw⟩
  | none =>
    cases inner with
    | nil => simp at h2
    | cons p r =>
      simp only [Option.toList_none, List.nil_append, List.cons.injEq] at h2
      obtain ⟨hp, h2⟩ := h2
      subst hp
      exact ⟨_, rfl, ⟨rfl, by simp [h2, indicesFrom], by simp⟩, hw⟩

theorem At.startSave {it : Peek} {off : Nat} {cs : List Char} (h : At it off cs) (hs : it.saved = []) :
    Sv it.startSave off [] cs := by
  obtain ⟨inner, saved, peeked, sv⟩ := it
  obtain ⟨h1, h2, h3, h4⟩ := h
  simp only at h1 h2 h3 h4 hs
  subst h1 hs
  cases peeked <;> exact ⟨rfl, by simpa [Peek.startSave] using h2, by simp [Peek.startSave, indicesFrom]⟩

theorem Sv.dropSave {it : Peek} {off : Nat} {done cs : List Char} (h : Sv it off done cs) :
    At it.dropSave (off + blen done) cs := by
  obtain ⟨inner, saved, peeked, sv⟩ := it
  obtain ⟨h1, h2, h3⟩ := h
  exact ⟨rfl, by simpa [Peek.dropSave] using h2, by simp [Peek.dropSave], by simp [Peek.dropSave]⟩

theorem mem_indicesFrom {p : Nat × Char} {off : Nat} {l : List Char} (h : p ∈ indicesFrom off l) : p.2 ∈ l := by
  induction l generalizing off with
  | nil => simp [indicesFrom] at h
  | cons d l ih =>
    simp only [indicesFrom, List.mem_cons] at h
    rcases h with h | h
    · simp [h]
    · exact List.mem_cons_of_mem _ (ih h)

theorem Sv.stopSave {it : Peek} {off : Nat} {done cs : List Char} (h : Sv it off done cs) (hp : it.peeked = none)
    (hc : calm done = true) : At it.stopSave off (done ++ cs) := by
  obtain ⟨inner, saved, peeked, sv⟩ := it
  obtain ⟨h1, h2, h3⟩ := h
  simp only at h1 h2 h3 hp
  subst hp h3
  refine ⟨rfl, ?_, ?_, by simp [Peek.stopSave]⟩
  · simp only [Option.toList_none, List.nil_append] at h2
    simp [Peek.stopSave, indicesFrom_append, h2]
  · simp only [Peek.stopSave, Option.toList_none, List.append_nil]
    intro p hp
    have := List.all_eq_true.1 hc _ (mem_indicesFrom hp)
    simpa [and_assoc] using this

theorem flagLoop_eq : ∀ (r : List Char) (fuel : Nat) (it : Peek) (g i : Bool) (add off : Nat) (done : List Char),
    Sv it off done r → it.weight < fuel →
    ∃ it', flagLoop fuel it g i add = .ok (g || (r.takeWhile isFlag).contains 'g', i || (r.takeWhile isFlag).contains 'i',
        add + (r.takeWhile isFlag).length, it') ∧ Sv it' off (done ++ r.takeWhile isFlag) (r.dropWhile isFlag) := by
  intro r
  induction r with
  | nil =>
    intro fuel it g i add off done h hf
    cases fuel with
    | zero => omega
    | succ fuel =>
      refine ⟨it, ?_, by simpa using h⟩
      unfold flagLoop; rw [h.peek_nil]; simp
  | cons c r ih =>
    intro fuel it g i add off done h hf
    cases fuel with
    | zero => omega
    | succ fuel =>
      obtain ⟨it', hp, h', hw⟩ := h.peek_cons
      obtain ⟨it2, hn, h2, hw2, -⟩ := h'.next_cons
      unfold flagLoop
      rw [hp]
      by_cases hi : c = 'i'
      · subst hi
        simp only [hn]
        obtain ⟨it3, h3, h4⟩ := ih fuel it2 g true (add + 1) off (done ++ ['i']) h2 (by omega)
        refine ⟨it3, ?_, ?_⟩
        · rw [h3]; simp [isFlag, Nat.add_assoc, Nat.add_comm 1]
        · simpa [isFlag] using h4
      · by_cases hg : c = 'g'
        · subst hg
          simp only [hn]
          obtain ⟨it3, h3, h4⟩ := ih fuel it2 true i (add + 1) off (done ++ ['g']) h2 (by omega)
          refine ⟨it3, ?_, ?_⟩
          · rw [h3]; simp [isFlag, Nat.add_assoc, Nat.add_comm 1]
          · simpa [isFlag] using h4
        · have hfl : isFlag c = false := by simp [isFlag, hi, hg]
          refine ⟨it', ?_, by simpa [hfl] using h'⟩
          split
          · rename_i heq; simp at heq; exact absurd heq.1.2 hi
          · rename_i heq; simp at heq; exact absurd heq.1.2 hg
          · rename_i heq; simp at heq; simp [hfl, heq.2]

theorem flags_size (r : List Char) : blen (r.takeWhile isFlag) = (r.takeWhile isFlag).length := by
  induction r with
  | nil => rfl
  | cons c r ih =>
    by_cases h : isFlag c = true
    · have : c.utf8Size = 1 := by
        simp only [isFlag, Bool.or_eq_true, beq_iff_eq] at h
        rcases h with h | h <;> subst h <;> rfl
      simp [h, ih, this]; omega
    · simp [h]

theorem closeRegex_step {c : Char} (cs : List Char) (hc : c ≠ '\\') : closeRegex (c :: cs) =
    if c = '/' then some ([], cs) else if isNewline c then none else (closeRegex cs).map fun p => (c :: p.1, p.2) := by
  rw [closeRegex]
  · intro h; exact absurd h hc
  · intro d ds h; exact absurd h hc

theorem regexLine_step {c : Char} (cs : List Char) (hc : c ≠ '\\') : regexLine (c :: cs) =
    if isNewline c then [c] else c :: regexLine cs := by
  rw [regexLine]
  · intro h; exact absurd h hc
  · intro d ds h; exact absurd h hc

theorem regexLoop_eq (source : List Char) : ∀ (n : Nat) (cs p done : List Char) (fuel : Nat) (it : Peek), cs.length < n →
    source = p ++ ('/' :: (done ++ cs)) → Sv it (blen p + 1) done cs → it.weight < fuel →
    match closeRegex cs with
    | some (b, r) => ∃ it', regexLoop source (blen p) fuel it =
          .ok (some (.regex (done ++ b) ((r.takeWhile isFlag).contains 'g') ((r.takeWhile isFlag).contains 'i'),
            blen p + 1 + blen done + blen b + (r.takeWhile isFlag).length), it') ∧
        At it' (blen p + 1 + blen done + blen b + 1 + (r.takeWhile isFlag).length) (r.dropWhile isFlag) ∧
        cs = b ++ '/' :: r
    | none => calm (done ++ regexLine cs) = true → ∃ it', regexLoop source (blen p) fuel it = .ok (none, it') ∧
        At it' (blen p + 1) (done ++ cs) := by
  intro n
  induction n with
  | zero => intros; omega
  | succ n ih =>
    intro cs p done fuel it hl hs h hf
    cases fuel with
    | zero => omega
    | succ fuel =>
      cases cs with
      | nil =>
        simp only [closeRegex, regexLine]
        intro hc
        obtain ⟨h1, h2⟩ := h.next_nil
        refine ⟨it.stopSave, ?_, h.stopSave h2 (by simpa using hc)⟩
        unfold regexLoop; rw [h1]
      | cons c cs =>
        obtain ⟨it', hn, h', hw, hp'⟩ := h.next_cons
        unfold regexLoop
        rw [hn]
        simp only
        by_cases hb : c = '\\'
        · subst hb
          rw [if_pos (by decide)]
          cases cs with
          | nil =>
            rw [show it'.next.2 = it' by rw [h'.next_nil.1]]
            have := ih [] p (done ++ ['\\']) fuel it' (by simp at hl ⊢; omega) (by simpa using hs) h' (by omega)
            simpa [closeRegex, regexLine] using this
          | cons d cs =>
            obtain ⟨it2, hn2, h2, hw2, -⟩ := h'.next_cons
            rw [show it'.next.2 = it2 by rw [hn2]]
            have := ih cs p (done ++ ['\\', d]) fuel it2 (by simp at hl ⊢; omega) (by simpa using hs)
              (by simpa using h2) (by omega)
            simp only [closeRegex, regexLine]
            cases hcr : closeRegex cs with
            | none =>
              rw [hcr] at this
              simpa using this
            | some br =>
              rw [hcr] at this
              obtain ⟨it3, h3, h4, h5⟩ := this
              refine ⟨it3, ?_, ?_, by simp [h5]⟩
              · rw [h3]; simp [Nat.add_assoc]
              · simpa [Nat.add_assoc] using h4
        · rw [if_neg (by simpa using hb), closeRegex_step _ hb, regexLine_step _ hb]
          by_cases hsl : c = '/'
          · subst hsl
            rw [if_pos rfl, if_pos (by decide)]
            obtain ⟨it3, h3, h4⟩ := flagLoop_eq cs (it'.weight + 1) it' false false 0 _ _ h' (Nat.lt_succ_self _)
            rw [h3]
            simp only [Out.bind_ok]
            rw [sub_eq (p := p ++ ['/']) (m := done) (t := '/' :: cs) (by simpa using hs)
              (by simp [show ('/' : Char).utf8Size = 1 from rfl]) (by simp [show ('/' : Char).utf8Size = 1 from rfl])]
            refine ⟨it3.dropSave, ?_, ?_, rfl⟩
            · simp
            · have := h4.dropSave
              simpa [flags_size, Nat.add_assoc, show ('/' : Char).utf8Size = 1 from rfl] using this
          · have hsl' : ¬ (RChar.ofChar c == some .slash) = true := fun h => hsl ((ofChar_eq_iff (by decide)).1 h)
            rw [if_neg hsl, if_neg hsl']
            by_cases hnl : isNewline c = true
            · rw [if_pos hnl, if_pos (by rw [ofChar_newline]; exact hnl), if_pos hnl]
              simp only
              intro hc
              exact ⟨it'.stopSave, rfl, by simpa using h'.stopSave hp' hc⟩
            · have hnl' : ¬ (RChar.ofChar c == some .backline) = true := by rw [ofChar_newline]; exact hnl
              rw [if_neg hnl, if_neg hnl', if_neg hnl]
              have := ih cs p (done ++ [c]) fuel it' (by simp at hl ⊢; omega) (by simpa using hs) h' (by omega)
              cases hcr : closeRegex cs with
              | none =>
                rw [hcr] at this
                simpa using this
              | some br =>
                rw [hcr] at this
                obtain ⟨it3, h3, h4, h5⟩ := this
                refine ⟨it3, ?_, ?_, by simp [h5]⟩
                · rw [h3]; simp [Nat.add_assoc]
                · simpa [Nat.add_assoc] using h4

end Verif.Js
