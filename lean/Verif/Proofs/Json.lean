import Verif.Model.Json
import Verif.Spec.Json
/-!
# Lemmas about the JSON string minifier
-/
set_option linter.unusedSimpArgs false

namespace Verif.Json
open Spec.Json

/-- The filter as one pass: `nx` is the character following the scanned text. -/
def scan (m : St) : List Char → Option Char → List Char × St
  | [], _ => ([], m)
  | c :: cs, nx =>
    let k := keepElement m c (cs.head?.or nx)
    let r := scan k.2 cs nx
    (if k.1 then c :: r.1 else r.1, r.2)

theorem scan_append (m : St) (s t : List Char) (nx : Option Char) :
    scan m (s ++ t) nx =
      ((scan m s (t.head?.or nx)).1 ++ (scan (scan m s (t.head?.or nx)).2 t nx).1,
        (scan (scan m s (t.head?.or nx)).2 t nx).2) := by
  induction s generalizing m with
  | nil => simp [scan]
  | cons c cs ih =>
    have hh : ((cs ++ t).head?).or nx = cs.head?.or (t.head?.or nx) := by
      cases cs <;> simp
    simp only [List.cons_append, scan, hh, ih]
    split <;> simp

theorem scan_append_of {m m' m'' : St} {s t o1 o2 : List Char} {nx : Option Char}
    (h1 : scan m s (t.head?.or nx) = (o1, m')) (h2 : scan m' t nx = (o2, m'')) :
    scan m (s ++ t) nx = (o1 ++ o2, m'') := by
  rw [scan_append, h1, h2]

/-! ## The iterator and the single pass agree -/

/-- What is still to come out of a filter. -/
def Filter.rest (f : Filter) : List Char :=
  if f.initialized then f.item1.toList ++ f.iter else f.iter

theorem nextLoop_spec (m : St) (i : Option Char) (iter : List Char) :
    (∀ c f, nextLoop m i iter = (some c, f) →
        (scan m (i.toList ++ iter) none).1 = c :: (scan f.minifier f.rest none).1 ∧
        f.initialized = true ∧ f.rest.length < (i.toList ++ iter).length ∧ (f.item1 = none → f.iter = [])) ∧
    (∀ f, (i = none → iter = []) → nextLoop m i iter = (none, f) → (scan m (i.toList ++ iter) none).1 = []) := by
  induction iter generalizing m i with
  | nil =>
    cases i with
    | none => simp [nextLoop, scan]
    | some a =>
      simp only [nextLoop, Option.toList, List.append_nil, scan, List.head?_nil, Option.or_none]
      cases hk : (keepElement m a none).1 <;> simp [Filter.rest, scan, ← and_imp]
      · intro c f h; cases h.2; simp [h, scan]
  | cons x xs ih =>
    cases i with
    | none => simp [nextLoop]
    | some a =>
      have h' := ih (keepElement m a (some x)).2 (some x)
      simp only [Option.toList, List.cons_append, List.nil_append] at h' ⊢
      rw [nextLoop]
      cases hk : (keepElement m a (some x)).1
      · rw [scan]
        simp only [List.head?_cons, Option.some_or, hk]
        constructor
        · intro c f hf
          have := h'.1 c f (by simpa using hf)
          refine ⟨by simpa using this.1, this.2.1, ?_, this.2.2.2⟩
          have := this.2.2.1
          simp at this ⊢; omega
        · intro f _ hf
          have := h'.2 f (by simp) (by simpa using hf)
          simpa using this
      · rw [scan]
        simp only [List.head?_cons, Option.some_or, hk]
        simp only [if_true, Prod.mk.injEq, Option.some.injEq, and_imp]
        constructor
        · rintro c f rfl rfl
          simp [Filter.rest]
        · intro f _ h; simp at h

theorem collect_spec (n : Nat) (f : Filter) (hi : f.initialized = true) (hn : f.rest.length < n)
    (hr : f.item1 = none → f.iter = []) : collect n f = (scan f.minifier f.rest none).1 := by
  induction n generalizing f with
  | zero => omega
  | succ n ih =>
    have hs := nextLoop_spec f.minifier f.item1 f.iter
    unfold collect Filter.next
    simp only [hi, if_true]
    have hrest : f.rest = f.item1.toList ++ f.iter := by simp [Filter.rest, hi]
    rcases hl : nextLoop f.minifier f.item1 f.iter with ⟨_ | c, f'⟩
    · simp only
      rw [hrest, hs.2 f' hr hl]
    · simp only
      obtain ⟨h1, h2, h3, h4⟩ := hs.1 c f' hl
      rw [hrest, h1, ih f' h2 (by rw [hrest] at hn; omega) h4]

/-- `to_string` is the single pass. -/
theorem minifyStr_eq (s : List Char) : minifyStr s = (scan {} s none).1 := by
  have key : ∀ n, s.length < n → collect n { iter := s } = (scan {} s none).1 := by
    intro n hn
    have h1 : collect n { iter := s } = collect n { iter := s.tail, item1 := s.head?, initialized := true } := by
      cases n with
      | zero => rfl
      | succ n => simp [collect, Filter.next]
    rw [h1, collect_spec n _ rfl]
    · cases s <;> simp [Filter.rest]
    · cases s <;> simp [Filter.rest] <;> simp at hn <;> omega
    · cases s <;> simp
  exact key _ (by simp [minify])

/-! ## Invariants of the state -/

/-- Outside a string the counter is zero. -/
def St.Ok (m : St) : Prop := m.isString = false → m.esc = 0

theorem keepElement_ok {m : St} (h : m.Ok) (c : Char) (nx : Option Char) : (keepElement m c nx).2.Ok := by
  unfold keepElement isWhitespaceOutsideString step St.Ok at *
  grind

/-- A state outside a string is the initial state. -/
theorem St.Ok.eq_init {m : St} (h : m.Ok) (hs : m.isString = false) : m = {} := by
  cases m; simp_all [St.Ok]

theorem scan_ok {m : St} (h : m.Ok) (s : List Char) (nx : Option Char) : (scan m s nx).2.Ok := by
  induction s generalizing m with
  | nil => exact h
  | cons c cs ih => exact ih (keepElement_ok h _ _)

/-! ## Outside strings -/

theorem keepElement_out {c : Char} (nx : Option Char) (hq : c ≠ '"') :
    keepElement {} c nx = (!isAsciiControl c && !isWhitespace c, {}) := by
  unfold keepElement isWhitespaceOutsideString step
  by_cases h : isAsciiControl c <;> simp [h, hq]

theorem keepElement_quote (nx : Option Char) : keepElement {} '"' nx = (true, { isString := true }) := by
  unfold keepElement isWhitespaceOutsideString step
  simp [show isAsciiControl '"' = false by decide]

theorem scan_out {s : List Char} (nx : Option Char) (hq : ∀ c ∈ s, c ≠ '"') :
    scan {} s nx = (s.filter fun c => !isAsciiControl c && !isWhitespace c, {}) := by
  induction s with
  | nil => rfl
  | cons c cs ih =>
    simp only [scan, keepElement_out _ (hq c (by simp)), ih (fun d hd => hq d (by simp [hd])), List.filter_cons]

theorem scan_ws {w : List Char} (nx : Option Char) (hw : IsWs w) : scan {} w nx = ([], {}) := by
  rw [scan_out]
  · congr 1
    rw [List.filter_eq_nil_iff]
    intro c hc
    rcases hw c hc with h | h | h | h <;> subst h <;> decide
  · intro c hc
    rcases hw c hc with h | h | h | h <;> subst h <;> decide

/-! ## Inside strings -/

theorem visible_eq (c : Char) : visible c = !isAsciiControl c := by
  unfold visible isAsciiControl
  rw [Bool.eq_iff_iff]
  simp

/-- The escape counter after a string body followed by a quote. -/
def cnt (e : Nat) : List Char → Nat
  | [] => e
  | c :: cs =>
    if isAsciiControl c then cnt e cs
    else if c = '\\' ∧ (cs = [] ∨ cs.head? = some '"') then cnt 3 cs
    else cnt (e - 1) cs

theorem swallowed_cons (c : Char) (cs : List Char) :
    Swallowed (c :: cs) ↔ Swallowed cs ∨
      (c = '\\' ∧ (cs = [] ∨ cs.head? = some '"') ∧ (cs.filter visible).length < 3) := by
  constructor
  · rintro ⟨p, q, h, hq⟩
    cases p with
    | nil =>
      right
      simp only [List.cons_append, List.nil_append, List.cons.injEq] at h
      refine ⟨h.1, ?_⟩
      cases cs with
      | nil => simp
      | cons d ds =>
        simp only [List.cons_append, List.cons.injEq] at h
        obtain ⟨_, rfl, rfl⟩ := h
        have e1 : visible '"' = true := by decide
        simp [List.filter_append, List.filter_cons, e1] at hq ⊢
        omega
    | cons d ds =>
      left
      simp only [List.cons_append, List.cons.injEq] at h
      exact ⟨ds, q, h.2, hq⟩
  · rintro (⟨p, q, h, hq⟩ | ⟨rfl, h, hl⟩)
    · exact ⟨c :: p, q, by simp [h], hq⟩
    · cases cs with
      | nil => exact ⟨[], [], rfl, by simp⟩
      | cons d ds =>
        simp only [List.head?_cons, Option.some.injEq, reduceCtorEq, false_or] at h
        subst h
        refine ⟨[], ds ++ ['"'], rfl, ?_⟩
        have e1 : visible '"' = true := by decide
        simp [List.filter_append, List.filter_cons, e1] at hl ⊢
        omega

theorem cnt_pos (e : Nat) (he : e ≤ 3) (b : List Char) :
    0 < cnt e b ↔ Swallowed b ∨ (b.filter visible).length < e := by
  induction b generalizing e with
  | nil =>
    have : ¬ Swallowed [] := by
      rintro ⟨p, q, h, _⟩
      have := congrArg List.length h
      simp at this; omega
    simp [cnt, this]
  | cons c cs ih =>
    rw [swallowed_cons]
    unfold cnt
    by_cases hc : isAsciiControl c
    · have hb : c ≠ '\\' := by rintro rfl; revert hc; decide
      simp [hc, visible_eq, List.filter_cons, hb, ih e he]
    · by_cases ht : c = '\\' ∧ (cs = [] ∨ cs.head? = some '"')
      · rw [if_neg hc, if_pos ht, ih 3 (by omega)]
        simp only [ht, true_and, List.filter_cons]
        have : visible c = true := by simp [visible_eq, hc]
        rw [ht.1] at this
        simp only [this, if_true, List.length_cons]
        grind
      · rw [if_neg hc, if_neg ht, ih (e - 1) (by omega)]
        have : visible c = true := by simp [visible_eq, hc]
        simp only [List.filter_cons, this, if_true, List.length_cons]
        grind

theorem keepElement_in (e : Nat) (c : Char) (nx : Option Char) (hc : isAsciiControl c = false)
    (hq : c ≠ '"' ∨ 0 < e) :
    keepElement { isString := true, esc := e } c nx =
      (true, { isString := true, esc := if c = '\\' ∧ nx = some '"' then 3 else e - 1 }) := by
  unfold keepElement isWhitespaceOutsideString step
  by_cases h1 : c = '\\' ∧ nx = some '"'
  · obtain ⟨rfl, rfl⟩ := h1
    simp [hc]
  · have : (c == '\\' && nx == some '"') = false := by
      rw [Bool.eq_false_iff]; simpa using h1
    simp only [this, hc, h1]
    rcases hq with h | h
    · cases e <;> simp [h]
    · simp [h]

theorem keepElement_ctrl (m : St) (c : Char) (nx : Option Char) (hc : isAsciiControl c = true) :
    keepElement m c nx = (false, m) := by
  simp [keepElement, hc]

theorem head_or (cs : List Char) :
    (cs.head?.or (some '"') = some '"') ↔ (cs = [] ∨ cs.head? = some '"') := by
  cases cs <;> simp

theorem scan_in_cons (e : Nat) (c : Char) (cs : List Char) (hc : isAsciiControl c = false)
    (hq : c ≠ '"' ∨ 0 < e) :
    scan { isString := true, esc := e } (c :: cs) (some '"') =
      (c :: (scan { isString := true, esc := if c = '\\' ∧ (cs = [] ∨ cs.head? = some '"') then 3 else e - 1 } cs
        (some '"')).1,
       (scan { isString := true, esc := if c = '\\' ∧ (cs = [] ∨ cs.head? = some '"') then 3 else e - 1 } cs
        (some '"')).2) := by
  simp only [scan, keepElement_in _ _ _ hc hq, head_or, if_true]

theorem cnt_cons_vis (e : Nat) (c : Char) (cs : List Char) (hc : isAsciiControl c = false) :
    cnt e (c :: cs) = cnt (if c = '\\' ∧ (cs = [] ∨ cs.head? = some '"') then 3 else e - 1) cs := by
  rw [cnt]
  simp only [hc]
  by_cases h : c = '\\' ∧ (cs = [] ∨ cs.head? = some '"') <;> simp [h]

theorem isHex_vis {c : Char} (h : isHex c = true) : isAsciiControl c = false ∧ c ≠ '"' ∧ c ≠ '\\' := by
  refine ⟨?_, ?_, ?_⟩
  · unfold isHex at h
    unfold isAsciiControl
    simp only [Bool.or_eq_true, Bool.and_eq_true, decide_eq_true_eq, Char.le_def, UInt32.le_iff_toNat_le] at h
    simp only [Bool.or_eq_false_iff, decide_eq_false_iff_not, beq_eq_false_iff_ne]
    have e : c.toNat = c.val.toNat := rfl
    simp only [show '0'.val.toNat = 48 from rfl, show '9'.val.toNat = 57 from rfl,
      show 'a'.val.toNat = 97 from rfl, show 'f'.val.toNat = 102 from rfl,
      show 'A'.val.toNat = 65 from rfl, show 'F'.val.toNat = 70 from rfl] at h
    omega
  · rintro rfl; revert h; decide
  · rintro rfl; revert h; decide

/-- Scanning a legal string body from inside the string: everything visible is kept and the scanner stays inside. -/
theorem scan_body {b : List Char} (hb : Body b) (e : Nat) :
    scan { isString := true, esc := e } b (some '"') =
      (b.filter visible, { isString := true, esc := cnt e b }) := by
  induction hb generalizing e with
  | nil => rfl
  | @plain c b hq hs hlo hb ih =>
    by_cases hc : isAsciiControl c
    · simp only [scan, keepElement_ctrl _ _ _ hc, ih, List.filter_cons, visible_eq, hc, cnt, if_true]
      simp
    · simp only [Bool.not_eq_true] at hc
      rw [scan_in_cons _ _ _ hc (.inl hq), ih, cnt_cons_vis _ _ _ hc]
      simp [List.filter_cons, visible_eq, hc]
  | @esc c b hm hb ih =>
    have hc0 : isAsciiControl '\\' = false := by decide
    have hc : isAsciiControl c = false := by
      simp only [List.mem_cons, List.not_mem_nil, or_false] at hm
      rcases hm with h | h | h | h | h | h | h | h <;> subst h <;> decide
    rw [scan_in_cons _ _ _ hc0 (.inl (by decide)), cnt_cons_vis _ _ _ hc0]
    by_cases hq : c = '"'
    · subst hq
      simp only [List.head?_cons, or_true, and_self, if_true]
      rw [scan_in_cons _ _ _ hc (.inr (by decide)), ih, cnt_cons_vis _ _ _ hc]
      simp [List.filter_cons, visible_eq, hc, hc0]
    · rw [scan_in_cons _ _ _ hc (.inl hq), ih, cnt_cons_vis _ _ _ hc]
      simp [List.filter_cons, visible_eq, hc, hc0]
  | @uni h1 h2 h3 h4 b e1 e2 e3 e4 hb ih =>
    have hc0 : isAsciiControl '\\' = false := by decide
    have hcu : isAsciiControl 'u' = false := by decide
    have v1 := isHex_vis e1
    have v2 := isHex_vis e2
    have v3 := isHex_vis e3
    have v4 := isHex_vis e4
    rw [scan_in_cons _ _ _ hc0 (.inl (by decide)), cnt_cons_vis _ _ _ hc0,
      scan_in_cons _ _ _ hcu (.inl (by decide)), cnt_cons_vis _ _ _ hcu,
      scan_in_cons _ _ _ v1.1 (.inl v1.2.1), cnt_cons_vis _ _ _ v1.1,
      scan_in_cons _ _ _ v2.1 (.inl v2.2.1), cnt_cons_vis _ _ _ v2.1,
      scan_in_cons _ _ _ v3.1 (.inl v3.2.1), cnt_cons_vis _ _ _ v3.1,
      scan_in_cons _ _ _ v4.1 (.inl v4.2.1), cnt_cons_vis _ _ _ v4.1, ih]
    simp [List.filter_cons, visible_eq, hc0, hcu, v1.1, v2.1, v3.1, v4.1]

/-- The closing quote is recognised iff the counter is zero. -/
theorem keepElement_close (e : Nat) (nx : Option Char) :
    keepElement { isString := true, esc := e } '"' nx =
      (true, if e = 0 then {} else { isString := true, esc := e - 1 }) := by
  unfold keepElement isWhitespaceOutsideString step
  simp only [show isAsciiControl '"' = false by decide]
  cases e <;> simp [show isWhitespace '"' = false by decide]

theorem scan_quoted {b : List Char} (hb : Body b) (nx : Option Char) :
    scan {} (quoted b) nx =
      ('"' :: (b.filter visible ++ ['"']), if cnt 0 b = 0 then {} else { isString := true, esc := cnt 0 b - 1 }) := by
  unfold quoted
  have h1 : scan {} ['"'] (some '"') = (['"'], { isString := true }) := by
    simp [scan, keepElement_quote]
  have h2 : ∀ nx, scan {} ['"'] nx = (['"'], { isString := true }) := by
    intro nx; simp [scan, keepElement_quote]
  have h3 : scan { isString := true, esc := cnt 0 b } ['"'] nx =
      (['"'], if cnt 0 b = 0 then {} else { isString := true, esc := cnt 0 b - 1 }) := by
    simp [scan, keepElement_close]
  have h4 : scan { isString := true } (b ++ ['"']) nx = _ := scan_append_of (scan_body hb 0) h3
  exact scan_append_of (h2 _) h4

/-- For a string body that is not swallowed, the scanner is outside again after the literal. -/
theorem scan_quoted_good {b : List Char} (hb : Body b) (hg : ¬ Swallowed b) (nx : Option Char) :
    scan {} (quoted b) nx = ('"' :: (b.filter visible ++ ['"']), {}) := by
  rw [scan_quoted hb]
  have : ¬ 0 < cnt 0 b := by rw [cnt_pos 0 (by omega)]; simpa using hg
  simp only [show cnt 0 b = 0 by omega, if_true]

/-! ## Numbers -/

theorem isDigit_plain {c : Char} (h : isDigit c = true) :
    c ≠ '"' ∧ isAsciiControl c = false ∧ isWhitespace c = false := by
  unfold isDigit at h
  simp only [Bool.and_eq_true, decide_eq_true_eq, Char.le_def, UInt32.le_iff_toNat_le] at h
  simp only [show '0'.val.toNat = 48 from rfl, show '9'.val.toNat = 57 from rfl] at h
  have e : c.toNat = c.val.toNat := rfl
  refine ⟨?_, ?_, ?_⟩
  · rintro rfl; revert h; decide
  · unfold isAsciiControl
    simp only [Bool.or_eq_false_iff, decide_eq_false_iff_not, beq_eq_false_iff_ne]
    omega
  · unfold isWhitespace
    simp only [Bool.or_eq_false_iff, Bool.and_eq_false_iff, decide_eq_false_iff_not, beq_eq_false_iff_ne]
    omega

/-- Characters the scanner passes through outside strings. -/
def Plain (c : Char) : Prop := c ≠ '"' ∧ isAsciiControl c = false ∧ isWhitespace c = false

theorem number_plain {s : List Char} (h : IsNumber s) : ∀ c ∈ s, Plain c := by
  obtain ⟨sign, int, frac, exp, rfl, h1, h2, h3, h4⟩ := h
  have pd : ∀ c, isDigit c = true → Plain c := fun c h => isDigit_plain h
  have pl : ∀ c, c ∈ ['-', '0', '.', 'e', 'E', '+'] → Plain c := by
    intro c hc
    simp only [List.mem_cons, List.not_mem_nil, or_false] at hc
    rcases hc with h | h | h | h | h | h <;> subst h <;> unfold Plain <;> decide
  intro c hc
  simp only [List.mem_append] at hc
  rcases hc with ((hc | hc) | hc) | hc
  · rcases h1 with rfl | rfl
    · simp at hc
    · exact pl c (by simp at hc; simp [hc])
  · rcases h2 with rfl | ⟨d, ds, rfl, hd, _, hds⟩
    · exact pl c (by simp at hc; simp [hc])
    · simp only [List.mem_cons] at hc
      rcases hc with rfl | hc
      · exact pd _ hd
      · exact pd _ (hds _ hc)
  · rcases h3 with rfl | ⟨ds, rfl, _, hds⟩
    · simp at hc
    · simp only [List.mem_cons] at hc
      rcases hc with rfl | hc
      · exact pl _ (by simp)
      · exact pd _ (hds _ hc)
  · rcases h4 with rfl | ⟨e, sg, ds, rfl, he, hsg, _, hds⟩
    · simp at hc
    · simp only [List.mem_cons, List.mem_append] at hc
      rcases hc with rfl | hc | hc
      · exact pl _ (by rcases he with rfl | rfl <;> simp)
      · rcases hsg with rfl | rfl | rfl
        · simp at hc
        · exact pl c (by simp at hc; simp [hc])
        · exact pl c (by simp at hc; simp [hc])
      · exact pd _ (hds _ hc)

theorem scan_plain {s : List Char} (nx : Option Char) (h : ∀ c ∈ s, Plain c) : scan {} s nx = (s, {}) := by
  rw [scan_out _ (fun c hc => (h c hc).1)]
  congr 1
  rw [List.filter_eq_self]
  intro c hc
  simp [(h c hc).2]

theorem scan_one {c : Char} (nx : Option Char) (h : Plain c) : scan {} [c] nx = ([c], {}) :=
  scan_plain nx (by simpa using h)

/-! ## JSON texts -/

/-- The string literals the scanner gets right. -/
abbrev Good (b : List Char) : Prop := ¬ Swallowed b

theorem plain_punct {c : Char} (h : c ∈ ['[', ']', '{', '}', ',', ':']) : Plain c := by
  simp only [List.mem_cons, List.not_mem_nil, or_false] at h
  rcases h with h | h | h | h | h | h <;> subst h <;> unfold Plain <;> decide

theorem compactElems_cons (v : JVal) (vs : JVals) (h : vs ≠ .nil) :
    compactElems (.cons v vs) = compact v ++ (',' :: compactElems vs) := by
  cases vs with
  | nil => exact absurd rfl h
  | cons _ _ => rfl

theorem compactMems_cons (k : List Char) (v : JVal) (ms : JMems) (h : ms ≠ .nil) :
    compactMems (.cons k v ms) = (quoted k ++ (':' :: compact v)) ++ (',' :: compactMems ms) := by
  cases ms with
  | nil => exact absurd rfl h
  | cons _ _ _ => rfl

theorem elems_ne_nil {vs : JVals} {s : List Char} (h : Elems vs s) : vs ≠ .nil := by
  cases h <;> simp

theorem members_ne_nil {ms : JMems} {s : List Char} (h : Members ms s) : ms ≠ .nil := by
  cases h <;> simp

theorem squeezedE_ne {vs : JVals} (h : vs ≠ .nil) : squeezedE vs ≠ .nil := by
  cases vs <;> simp_all [squeezedE]

theorem squeezedM_ne {ms : JMems} (h : ms ≠ .nil) : squeezedM ms ≠ .nil := by
  cases ms <;> simp_all [squeezedM]

theorem scan_cons_plain {c : Char} (hc : Plain c) {s o : List Char} {m : St} {nx : Option Char}
    (h : scan {} s nx = (o, m)) : scan {} (c :: s) nx = (c :: o, m) :=
  scan_append_of (s := [c]) (scan_one _ hc) h

mutual
theorem scan_value {v : JVal} {s : List Char} (h : Value v s) (hg : AllStrings Good v) (nx : Option Char) :
    scan {} s nx = (compact (squeezed v), {}) := by
  cases h with
  | null => simp [scan_plain nx (s := ['n', 'u', 'l', 'l']) (by simp [Plain]; decide), squeezed, compact]
  | tru => simp [scan_plain nx (s := ['t', 'r', 'u', 'e']) (by simp [Plain]; decide), squeezed, compact]
  | fls => simp [scan_plain nx (s := ['f', 'a', 'l', 's', 'e']) (by simp [Plain]; decide), squeezed, compact]
  | num hn => rw [scan_plain nx (number_plain hn)]; simp [squeezed, compact]
  | str hb => rw [scan_quoted_good hb (by simpa [AllStrings] using hg)]; simp [squeezed, compact, quoted]
  | arrNil hw =>
    rw [scan_cons_plain (plain_punct (by simp)) (scan_append_of (scan_ws _ hw) (scan_one nx (plain_punct (by simp))))]
    simp [squeezed, squeezedE, compact, compactElems]
  | arr he =>
    rw [scan_cons_plain (plain_punct (by simp)) (scan_append_of (scan_elems he (by simpa [AllStrings] using hg) _)
      (scan_one nx (plain_punct (by simp))))]
    simp [squeezed, compact]
  | objNil hw =>
    rw [scan_cons_plain (plain_punct (by simp)) (scan_append_of (scan_ws _ hw) (scan_one nx (plain_punct (by simp))))]
    simp [squeezed, squeezedM, compact, compactMems]
  | obj he =>
    rw [scan_cons_plain (plain_punct (by simp)) (scan_append_of (scan_members he (by simpa [AllStrings] using hg) _)
      (scan_one nx (plain_punct (by simp))))]
    simp [squeezed, compact]
theorem scan_text {v : JVal} {s : List Char} (h : Text v s) (hg : AllStrings Good v) (nx : Option Char) :
    scan {} s nx = (compact (squeezed v), {}) := by
  cases h with
  | mk h1 hv h2 =>
    rw [scan_append_of (scan_ws _ h1) (scan_append_of (scan_value hv hg _) (scan_ws nx h2))]
    simp
theorem scan_elems {vs : JVals} {s : List Char} (h : Elems vs s) (hg : AllStringsE Good vs) (nx : Option Char) :
    scan {} s nx = (compactElems (squeezedE vs), {}) := by
  cases h with
  | one hv =>
    rw [scan_text hv (by simp [AllStringsE] at hg; exact hg) nx]
    simp [squeezedE, compactElems]
  | cons hv he =>
    simp only [AllStringsE] at hg
    rw [scan_append_of (scan_text hv hg.1 _) (scan_cons_plain (plain_punct (by simp)) (scan_elems he hg.2 nx)),
      squeezedE, compactElems_cons _ _ (squeezedE_ne (elems_ne_nil he))]
theorem scan_members {ms : JMems} {s : List Char} (h : Members ms s) (hg : AllStringsM Good ms) (nx : Option Char) :
    scan {} s nx = (compactMems (squeezedM ms), {}) := by
  cases h with
  | one h1 hk h2 hv =>
    simp only [AllStringsM] at hg
    rw [scan_append_of (scan_ws _ h1) (scan_append_of (scan_quoted_good hk hg.1 _)
      (scan_append_of (scan_ws _ h2) (scan_cons_plain (plain_punct (by simp)) (scan_text hv hg.2.1 nx))))]
    simp [squeezedM, compactMems, quoted]
  | cons h1 hk h2 hv he =>
    simp only [AllStringsM] at hg
    rw [scan_append_of (scan_append_of (scan_ws _ h1) (scan_append_of (scan_quoted_good hk hg.1 _)
      (scan_append_of (scan_ws _ h2) (scan_cons_plain (plain_punct (by simp)) (scan_text hv hg.2.1 _)))))
      (scan_cons_plain (plain_punct (by simp)) (scan_members he hg.2.2 nx)),
      squeezedM, compactMems_cons _ _ _ (squeezedM_ne (members_ne_nil he))]
    simp [quoted]
end

/-! ## Deletion only -/

theorem scan_sublist (m : St) (s : List Char) (nx : Option Char) : (scan m s nx).1.Sublist s := by
  induction s generalizing m with
  | nil => simp [scan]
  | cons c cs ih =>
    simp only [scan]
    split
    · exact (ih _).cons_cons _
    · exact (ih _).cons _

theorem keepElement_solid (m : St) (c : Char) (nx : Option Char) (hw : isWhitespace c = false)
    (hc : isAsciiControl c = false) : (keepElement m c nx).1 = true := by
  simp [keepElement, isWhitespaceOutsideString, hw, hc]

theorem scan_solid (m : St) (s : List Char) (nx : Option Char) :
    (scan m s nx).1.filter (fun c => !isWhitespace c && !isAsciiControl c) =
      s.filter (fun c => !isWhitespace c && !isAsciiControl c) := by
  induction s generalizing m with
  | nil => simp [scan]
  | cons c cs ih =>
    simp only [scan]
    by_cases h : isWhitespace c = false ∧ isAsciiControl c = false
    · rw [if_pos (keepElement_solid m c _ h.1 h.2)]
      simp [List.filter_cons, h, ih]
    · have h' : (!isWhitespace c && !isAsciiControl c) = false := by
        rw [Bool.eq_false_iff]; simpa using h
      split <;> simp [List.filter_cons, h', ih]

/-! ## Running twice -/

/-- No backslash is separated from a quote by ASCII control characters only. -/
def NoSplitEscape (s : List Char) : Prop :=
  ∀ p u q, s = p ++ ('\\' :: (u ++ '"' :: q)) → (∀ c ∈ u, isAsciiControl c = true) → u = []

theorem NoSplitEscape.tail {c : Char} {s : List Char} (h : NoSplitEscape (c :: s)) : NoSplitEscape s := by
  intro p u q hs hu
  exact h (c :: p) u q (by simp [hs]) hu

theorem keepElement_nx {m : St} {c : Char} {n1 n2 : Option Char}
    (h : m.isString = true → c = '\\' → (n1 = some '"' ↔ n2 = some '"')) :
    keepElement m c n1 = keepElement m c n2 := by
  have : step m c n1 = step m c n2 := by
    unfold step
    by_cases h1 : m.isString = true
    · by_cases h2 : c = '\\'
      · have := h h1 h2
        have h3 : (n1 == some '"') = (n2 == some '"') := by
          rw [Bool.eq_iff_iff]; simpa using this
        simp only [h3]
      · have : (c == '\\') = false := by simpa using h2
        simp [this]
    · simp [h1]
  simp [keepElement, isWhitespaceOutsideString, this]

theorem keepElement_backslash (m : St) (nx : Option Char) :
    (keepElement m '\\' nx).1 = true ∧ (m.isString = true → (keepElement m '\\' nx).2.isString = true) := by
  constructor
  · exact keepElement_solid _ _ _ (by decide) (by decide)
  · intro h
    unfold keepElement isWhitespaceOutsideString step
    simp only [show isAsciiControl '\\' = false by decide, h]
    simp
    grind

/-- In a string, a visible character is kept. -/
theorem keepElement_in_string {m : St} (hm : m.isString = true) {c : Char} (hc : isAsciiControl c = false)
    (nx : Option Char) : (keepElement m c nx).1 = true := by
  by_cases hw : isWhitespace c = false
  · exact keepElement_solid _ _ _ hw hc
  · have hq : c ≠ '"' := by rintro rfl; exact hw (by decide)
    have hb : c ≠ '\\' := by rintro rfl; exact hw (by decide)
    have hs : (step m c nx).isString = true := by
      unfold step
      simp [hm, hq, hb]
      split <;> simp [hm]
    simp [keepElement, isWhitespaceOutsideString, hs, hc]

/-- In a string, the first character that is no control character is the next one kept. -/
theorem scan_in_head {m : St} (hm : m.isString = true) (s : List Char) (nx : Option Char) :
    (scan m s nx).1.head? = (s.dropWhile isAsciiControl).head? := by
  induction s with
  | nil => rfl
  | cons c cs ih =>
    by_cases hc : isAsciiControl c = true
    · rw [List.dropWhile_cons_of_pos hc, scan, keepElement_ctrl _ _ _ hc]
      simpa using ih
    · rw [List.dropWhile_cons_of_neg hc, scan,
        if_pos (keepElement_in_string hm (Bool.eq_false_iff.2 hc) _)]
      rfl

theorem scan_idem (m : St) (s : List Char) (h : NoSplitEscape s) :
    scan m (scan m s none).1 none = scan m s none := by
  induction s generalizing m with
  | nil => rfl
  | cons c cs ih =>
    have ih := ih (keepElement m c (cs.head?.or none)).2 h.tail
    simp only [scan]
    by_cases hk : (keepElement m c (cs.head?.or none)).1 = true
    · rw [if_pos hk]
      simp only [scan]
      have hkk : keepElement m c ((scan (keepElement m c (cs.head?.or none)).2 cs none).1.head?.or none) =
          keepElement m c (cs.head?.or none) := by
        apply keepElement_nx
        rintro hm rfl
        cases cs with
        | nil => simp [scan]
        | cons d ds =>
          have hs := (keepElement_backslash m (some d)).2 hm
          simp only [List.head?_cons, Option.some_or, Option.or_none]
          rw [scan_in_head hs]
          by_cases hd : isAsciiControl d = true
          · rw [List.dropWhile_cons_of_pos hd]
            refine ⟨fun e => ?_, fun e => ?_⟩
            · exfalso
              obtain ⟨q, hq⟩ : ∃ q, ds.dropWhile isAsciiControl = '"' :: q := by
                cases hx : ds.dropWhile isAsciiControl with
                | nil => simp [hx] at e
                | cons x xs => simp [hx] at e; exact ⟨xs, by rw [e]⟩
              have := h [] (d :: ds.takeWhile isAsciiControl) q
                (by simp [← hq, List.takeWhile_append_dropWhile])
                (by
                  intro c hc
                  rcases List.mem_cons.1 hc with rfl | hc
                  · exact hd
                  · exact List.all_eq_true.1 List.all_takeWhile _ hc)
              simp at this
            · simp only [Option.some.injEq] at e
              rw [e] at hd
              exact absurd hd (by decide)
          · rw [List.dropWhile_cons_of_neg hd, List.head?_cons]
      rw [hkk, ih, if_pos hk]
    · rw [if_neg hk]
      simp only [Bool.not_eq_true] at hk
      have : (keepElement m c (cs.head?.or none)).2 = m := by
        unfold keepElement isWhitespaceOutsideString at hk ⊢
        by_cases hc : isAsciiControl c
        · simp [hc]
        · simp only [hc] at hk ⊢
          simp at hk ⊢
          unfold step at hk ⊢
          have hq : c ≠ '"' := by rintro rfl; exact absurd hk.2 (by decide)
          have hb : c ≠ '\\' := by rintro rfl; exact absurd hk.2 (by decide)
          cases hm : m.isString
          · simp [hq]
          · simp [hm, hq, hb] at hk ⊢
            split at hk <;> simp_all
      rw [this] at ih ⊢
      rw [ih]

end Verif.Json
