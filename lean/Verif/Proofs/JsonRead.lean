import Verif.Proofs.Utf8
import Verif.Proofs.Json
import Verif.Spec.JsonRead
/-!
# Lemmas about the streaming JSON minifier

The state machine is abstracted in three steps: `InternalReader` to the list of byte events it will produce, the
decoder to a list of characters with a possible error at the end, and `JsonRead` to the characters still to be
filtered.
-/
set_option linter.unusedSimpArgs false

namespace Verif.JsonRead
open Json (St keepElement scan minifyStr)

abbrev Ev := Except Kind UInt8

/-! ## Bytes -/

/-- What `InternalReader` with buffer size `n` gets out of a script, from the moment its (full) buffer is exhausted. A
chunk that is not a positive multiple of `n` long ends in a short read, after which nothing more is read. -/
def scriptEvs (n : Nat) : List Event → List Ev
  | [] => []
  | .fail k :: es => .error k :: scriptEvs n es
  | .chunk bs :: es =>
    bs.map .ok ++ (if bs ≠ [] ∧ bs.length % n = 0 then scriptEvs n es else [])

/-- The byte events still to come out of an `InternalReader`. -/
def evs (r : InternalReader) : List Ev :=
  (r.buffer.data.drop r.buffer.readPos).map .ok ++
    (if r.buffer.dataSize = r.bufferSize then scriptEvs r.bufferSize r.read else [])

structure Inv (r : InternalReader) : Prop where
  pos : 0 < r.bufferSize
  size : r.buffer.bufferSize = r.bufferSize
  data : r.buffer.dataSize = r.buffer.data.length

theorem readData_ok {rd : List Event} {b : Buffer} (hn : 0 < b.bufferSize) :
    match readData rd b with
    | (some k, rd', b') => b' = b ∧ scriptEvs b.bufferSize rd = .error k :: scriptEvs b.bufferSize rd'
    | (none, rd', b') => b'.readPos = 0 ∧ b'.dataSize = b'.data.length ∧ b'.bufferSize = b.bufferSize ∧
        scriptEvs b.bufferSize rd = b'.data.map .ok ++
          (if b'.dataSize = b.bufferSize then scriptEvs b.bufferSize rd' else []) := by
  unfold readData Script.read
  cases rd with
  | nil =>
    simp only [scriptEvs, List.length_nil]
    refine ⟨trivial, trivial, trivial, ?_⟩
    rw [if_neg (by omega)]; rfl
  | cons e es =>
    cases e with
    | fail k => simp [scriptEvs]
    | chunk bs =>
      by_cases h : bs.length ≤ b.bufferSize
      · simp only [h, if_true, scriptEvs]
        refine ⟨trivial, trivial, trivial, ?_⟩
        by_cases h2 : bs.length = b.bufferSize
        · have : bs ≠ [] := by rintro rfl; simp at h2; omega
          rw [if_pos ⟨this, by rw [h2, Nat.mod_self]⟩, if_pos h2]
        · rw [if_neg h2, if_neg]
          rintro ⟨hne, hm⟩
          have := List.length_pos_iff.2 hne
          rw [Nat.mod_eq_of_lt (by omega)] at hm
          omega
      · simp only [h, if_false, scriptEvs]
        have hl : (bs.take b.bufferSize).length = b.bufferSize := by simp; omega
        refine ⟨trivial, trivial, trivial, ?_⟩
        rw [if_pos hl]
        have hne : bs ≠ [] := by rintro rfl; simp at h
        have hne' : bs.drop b.bufferSize ≠ [] := by
          intro h'; have := congrArg List.length h'; simp at this; omega
        have hm : (bs.drop b.bufferSize).length % b.bufferSize = bs.length % b.bufferSize := by
          rw [List.length_drop]
          exact (Nat.mod_eq_sub_mod (by omega)).symm
        simp only [hm, hne, hne', ne_eq, not_false_eq_true, true_and]
        rw [← List.append_assoc, ← List.map_append, List.take_append_drop]

theorem next_spec {r : InternalReader} (hi : Inv r) :
    Inv r.next.2 ∧ r.next.2.bufferSize = r.bufferSize ∧
    match evs r with
    | [] => r.next.1 = none ∧ evs r.next.2 = []
    | e :: es => r.next.1 = some e ∧ evs r.next.2 = es := by
  obtain ⟨h1, h2, h3⟩ := hi
  unfold InternalReader.next Buffer.next
  have h0 : (r.bufferSize == 0) = false := by simp; omega
  rw [h0]
  simp only [Bool.false_eq_true, if_false]
  by_cases hp : r.buffer.readPos ≥ r.buffer.dataSize
  · simp only [hp, if_true]
    have hd : r.buffer.data.drop r.buffer.readPos = [] := by rw [List.drop_eq_nil_iff]; omega
    by_cases hc : r.buffer.cont = true
    · simp only [hc, if_true]
      have hc' : r.buffer.dataSize = r.bufferSize := by simpa [Buffer.cont, h2] using hc
      have he : evs r = scriptEvs r.bufferSize r.read := by
        simp only [evs, hd, hc', if_true, List.map_nil, List.nil_append]
      have hr := readData_ok (rd := r.read) (b := r.buffer) (by omega)
      rcases hrd : readData r.read r.buffer with ⟨_ | k, rd', b'⟩
      · rw [hrd] at hr
        simp only at hr ⊢
        obtain ⟨e1, e2, e3, e4⟩ := hr
        rw [h2] at e4
        by_cases hz : b'.readPos ≥ b'.dataSize
        · simp only [hz, if_true]
          have hd0 : b'.data = [] := List.eq_nil_of_length_eq_zero (by omega)
          have hs0 : b'.dataSize ≠ r.bufferSize := by rw [e2, hd0]; simp; omega
          rw [he, e4, if_neg hs0, hd0]
          refine ⟨⟨h1, by simp [e3, h2], by simp [e2]⟩, trivial, ?_⟩
          simp only [List.map_nil, List.append_nil]
          refine ⟨trivial, ?_⟩
          simp [evs, hd0, hs0]
        · simp only [hz, if_false]
          cases hdt : b'.data with
          | nil => rw [hdt] at e2; simp at e2; omega
          | cons d ds =>
            rw [hdt] at e2 e4
            simp only [e1, List.getElem?_cons_zero]
            refine ⟨⟨h1, by simp [e3, h2], by simp [e2, hdt]⟩, trivial, ?_⟩
            rw [he, e4]
            simp only [List.map_cons, List.cons_append]
            refine ⟨trivial, ?_⟩
            simp [evs]
      · rw [hrd] at hr
        simp only at hr ⊢
        obtain ⟨rfl, e2⟩ := hr
        rw [h2] at e2
        rw [he, e2]
        refine ⟨⟨h1, h2, h3⟩, trivial, rfl, ?_⟩
        simp [evs, hd, hc']
    · simp only [hc]
      have hc' : r.buffer.dataSize ≠ r.bufferSize := by simpa [Buffer.cont, h2] using hc
      have he : evs r = [] := by
        simp only [evs, hd, hc', if_false, List.map_nil, List.nil_append]
      rw [he]
      exact ⟨⟨h1, h2, h3⟩, rfl, rfl, he⟩
  · simp only [hp, if_false]
    have hlt : r.buffer.readPos < r.buffer.data.length := by omega
    rw [List.getElem?_eq_getElem hlt]
    refine ⟨⟨h1, h2, h3⟩, rfl, ?_⟩
    have he : evs r = .ok (r.buffer.data[r.buffer.readPos]) ::
        ((r.buffer.data.drop (r.buffer.readPos + 1)).map .ok ++
          (if r.buffer.dataSize = r.bufferSize then scriptEvs r.bufferSize r.read else [])) := by
      rw [evs, List.drop_eq_getElem_cons hlt, List.map_cons, List.cons_append]
    rw [he]
    exact ⟨rfl, rfl⟩

theorem next_nil {r : InternalReader} (hi : Inv r) (h : evs r = []) :
    ∃ r', r.next = (none, r') ∧ Inv r' ∧ evs r' = [] := by
  obtain ⟨a, _, b⟩ := next_spec hi
  rw [h] at b
  exact ⟨r.next.2, Prod.ext b.1 rfl, a, b.2⟩

theorem next_cons {r : InternalReader} (hi : Inv r) {e : Ev} {es : List Ev} (h : evs r = e :: es) :
    ∃ r', r.next = (some e, r') ∧ Inv r' ∧ evs r' = es := by
  obtain ⟨a, _, b⟩ := next_spec hi
  rw [h] at b
  exact ⟨r.next.2, Prod.ext b.1 rfl, a, b.2⟩

theorem scriptEvs_length (n : Nat) (es : List Event) : (scriptEvs n es).length ≤ Script.size es := by
  induction es with
  | nil => simp [scriptEvs]
  | cons e es ih =>
    cases e with
    | fail k => simp [scriptEvs, Script.size]; omega
    | chunk bs =>
      simp only [scriptEvs, Script.size, List.length_append, List.length_map]
      split
      · omega
      · simp only [List.length_nil]; omega

theorem evs_length (r : InternalReader) : (evs r).length ≤ r.buffer.data.length + Script.size r.read := by
  have := scriptEvs_length r.bufferSize r.read
  unfold evs
  simp only [List.length_append, List.length_map, List.length_drop]
  split
  · omega
  · simp only [List.length_nil]; omega

/-! ## Characters -/

/-- `moreBytes` on an event list. -/
def moreEvs : Nat → List Ev → Except CharsError (List UInt8) × List Ev
  | 0, es => (.ok [], es)
  | _ + 1, [] => (.error .notUtf8, [])
  | _ + 1, .error e :: es => (.error (.other e), es)
  | k + 1, .ok b :: es =>
    match moreEvs k es with
    | (.ok bs, es) => (.ok (b :: bs), es)
    | (.error e, es) => (.error e, es)

/-- `nextChar` on an event list. -/
def charEv : List Ev → Option (Except CharsError Char) × List Ev
  | [] => (none, [])
  | .error e :: es => (some (.error (.other e)), es)
  | .ok first :: es =>
    let width := utf8CharWidth first
    if width == 1 then (some (.ok (Char.ofNat first.toNat)), es)
    else if width == 0 then (some (.error .notUtf8), es)
    else
      match moreEvs (width - 1) es with
      | (.error e, es) => (some (.error e), es)
      | (.ok bs, es) =>
        match fromUtf8 (first :: bs) with
        | some c => (some (.ok c), es)
        | none => (some (.error .notUtf8), es)

theorem moreBytes_spec (k : Nat) {r : InternalReader} (hi : Inv r) :
    ∃ r', moreBytes k r = ((moreEvs k (evs r)).1, r') ∧ Inv r' ∧ evs r' = (moreEvs k (evs r)).2 := by
  induction k generalizing r with
  | zero => exact ⟨r, rfl, hi, rfl⟩
  | succ k ih =>
    unfold moreBytes
    cases he : evs r with
    | nil =>
      obtain ⟨r', h1, h2, h3⟩ := next_nil hi he
      rw [h1]
      exact ⟨r', rfl, h2, h3⟩
    | cons e es =>
      obtain ⟨r', h1, h2, h3⟩ := next_cons hi he
      rw [h1]
      cases e with
      | error e => exact ⟨r', rfl, h2, h3⟩
      | ok b =>
        obtain ⟨r'', h4, h5, h6⟩ := ih h2
        simp only [h4, moreEvs]
        rw [h3] at h4 h6 ⊢
        rcases hm : moreEvs k es with ⟨e | bs, es'⟩
        · rw [hm] at h6; exact ⟨r'', rfl, h5, h6⟩
        · rw [hm] at h6; exact ⟨r'', rfl, h5, h6⟩

theorem nextChar_spec {r : InternalReader} (hi : Inv r) :
    ∃ r', nextChar r = ((charEv (evs r)).1, r') ∧ Inv r' ∧ evs r' = (charEv (evs r)).2 := by
  unfold nextChar
  cases he : evs r with
  | nil =>
    obtain ⟨r', h1, h2, h3⟩ := next_nil hi he
    rw [h1]
    exact ⟨r', rfl, h2, h3⟩
  | cons e es =>
    obtain ⟨r', h1, h2, h3⟩ := next_cons hi he
    rw [h1]
    cases e with
    | error e => exact ⟨r', rfl, h2, h3⟩
    | ok b =>
      simp only [charEv]
      by_cases w1 : utf8CharWidth b == 1
      · simp only [w1, if_true]; exact ⟨r', rfl, h2, h3⟩
      · by_cases w0 : utf8CharWidth b == 0
        · simp only [w1, w0, if_true]; exact ⟨r', rfl, h2, h3⟩
        · simp only [w1, w0]
          obtain ⟨r'', h4, h5, h6⟩ := moreBytes_spec (utf8CharWidth b - 1) h2
          rw [h3] at h4 h6
          simp only [h4]
          rcases hm : moreEvs (utf8CharWidth b - 1) es with ⟨e | bs, es'⟩
          · rw [hm] at h6; exact ⟨r'', rfl, h5, h6⟩
          · rw [hm] at h6
            cases hf : fromUtf8 (b :: bs) with
            | none => exact ⟨r'', by simp [hf], h5, by simpa [hf] using h6⟩
            | some c => exact ⟨r'', by simp [hf], h5, by simpa [hf] using h6⟩

theorem moreEvs_length (k : Nat) (es : List Ev) : (moreEvs k es).2.length ≤ es.length := by
  induction k generalizing es with
  | zero => simp [moreEvs]
  | succ k ih =>
    cases es with
    | nil => simp [moreEvs]
    | cons e es =>
      cases e with
      | error e => simp [moreEvs]
      | ok b =>
        have := ih es
        simp only [moreEvs]
        rcases hm : moreEvs k es with ⟨e | bs, es'⟩ <;> rw [hm] at this <;> simp only [List.length_cons] <;>
          simp only at this <;> omega

theorem charEv_length {es : List Ev} (h : es ≠ []) : (charEv es).2.length < es.length := by
  cases es with
  | nil => exact absurd rfl h
  | cons e es =>
    cases e with
    | error e => simp [charEv]
    | ok b =>
      simp only [charEv]
      split
      · simp
      · split
        · simp
        · have := moreEvs_length (utf8CharWidth b - 1) es
          rcases hm : moreEvs (utf8CharWidth b - 1) es with ⟨e | bs, es'⟩
          · rw [hm] at this; simp only [List.length_cons]; simp only at this; omega
          · rw [hm] at this
            simp only at this ⊢
            cases fromUtf8 (b :: bs) <;> simp only [List.length_cons] <;> omega

set_option linter.unusedVariables false in
/-- All characters up to the end or the first error. -/
def decodeAll (es : List Ev) : List Char × Option CharsError :=
  match h : charEv es with
  | (none, _) => ([], none)
  | (some (.error e), _) => ([], some e)
  | (some (.ok c), es') =>
    let r := decodeAll es'
    (c :: r.1, r.2)
termination_by es.length
decreasing_by
  have hne : es ≠ [] := by rintro rfl; simp [charEv] at h
  have := charEv_length hne
  rw [h] at this
  exact this

theorem decodeAll_none {es es' : List Ev} (h : charEv es = (none, es')) : decodeAll es = ([], none) := by
  rw [decodeAll]; split <;> simp_all
theorem decodeAll_error {es es' : List Ev} {e : CharsError} (h : charEv es = (some (.error e), es')) :
    decodeAll es = ([], some e) := by
  rw [decodeAll]; split <;> simp_all
theorem decodeAll_ok {es es' : List Ev} {c : Char} (h : charEv es = (some (.ok c), es')) :
    decodeAll es = (c :: (decodeAll es').1, (decodeAll es').2) := by
  rw [decodeAll]; split <;> simp_all

theorem charEv_none {es es' : List Ev} (h : charEv es = (none, es')) : es = [] ∧ es' = [] := by
  cases es with
  | nil => simp [charEv] at h; exact ⟨rfl, h⟩
  | cons e es =>
    exfalso
    cases e with
    | error e => simp [charEv] at h
    | ok b =>
      simp only [charEv] at h
      split at h
      · simp at h
      · split at h
        · simp at h
        · rcases hm : moreEvs (utf8CharWidth b - 1) es with ⟨e | bs, es''⟩
          · rw [hm] at h; simp at h
          · rw [hm] at h; simp only at h
            split at h <;> simp at h

theorem decodeAll_length (es : List Ev) : (decodeAll es).1.length ≤ es.length := by
  induction hn : es.length using Nat.strongRecOn generalizing es with
  | _ n ih =>
    rcases h : charEv es with ⟨_ | (e | c), es'⟩
    · rw [decodeAll_none h]; simp
    · rw [decodeAll_error h]; simp
    · rw [decodeAll_ok h]
      have hne : es ≠ [] := by rintro rfl; simp [charEv] at h
      have hl := charEv_length hne
      rw [h] at hl
      have := ih es'.length (by rw [← hn]; exact hl) es' rfl
      simp only [List.length_cons]
      simp only at hl
      omega

/-! ## Decoding is exact -/

theorem moreEvs_map (k : Nat) (bs rest : List UInt8) (h : bs.length = k) :
    moreEvs k ((bs ++ rest).map .ok) = (.ok bs, rest.map .ok) := by
  induction k generalizing bs with
  | zero => cases bs <;> simp_all [moreEvs]
  | succ k ih =>
    cases bs with
    | nil => simp at h
    | cons b bs =>
      have := ih bs (by simpa using h)
      simp only [List.cons_append, List.map_cons, moreEvs, this]

theorem moreEvs_ok {k : Nat} {es : List Ev} {out : List UInt8} {es' : List Ev} (h : moreEvs k es = (.ok out, es')) :
    es = out.map .ok ++ es' ∧ out.length = k := by
  induction k generalizing es out with
  | zero => simp [moreEvs] at h; simp [h]
  | succ k ih =>
    cases es with
    | nil => simp [moreEvs] at h
    | cons e es =>
      cases e with
      | error e => simp [moreEvs] at h
      | ok b =>
        simp only [moreEvs] at h
        rcases hm : moreEvs k es with ⟨e | o, es''⟩
        · rw [hm] at h; simp at h
        · rw [hm] at h
          simp only [Prod.mk.injEq, Except.ok.injEq] at h
          obtain ⟨rfl, rfl⟩ := h
          obtain ⟨h1, h3⟩ := ih hm
          exact ⟨by simp [h1], by simp [h3]⟩

theorem charEv_enc (c : Char) (rest : List UInt8) :
    charEv ((String.utf8EncodeChar c ++ rest).map .ok) = (some (.ok c), rest.map .ok) := by
  obtain ⟨b, bs, h1, h2, h3⟩ := width_enc c
  rw [h1]
  simp only [List.cons_append, List.map_cons, charEv]
  rw [h2]
  cases bs with
  | nil =>
    have := h3 rfl
    simp [this, ofNat_toNat]
  | cons b2 bs =>
    have e1 : ((b2 :: bs).length + 1 == 1) = false := by simp
    have e2 : ((b2 :: bs).length + 1 == 0) = false := by simp
    have hf : fromUtf8 (b :: b2 :: bs) = some c := by
      rw [fromUtf8_iff]
      exact ⟨by simp, h1.symm⟩
    simp only [e1, e2, Bool.false_eq_true, if_false, Nat.add_sub_cancel]
    rw [moreEvs_map _ (b2 :: bs) rest rfl]
    simp only [hf]

theorem decodeAll_utf8 (cs : List Char) : decodeAll ((utf8 cs).map .ok) = (cs, none) := by
  induction cs with
  | nil => exact decodeAll_none (es := []) rfl
  | cons c cs ih =>
    have h : utf8 (c :: cs) = String.utf8EncodeChar c ++ utf8 cs := by simp [utf8]
    rw [h, decodeAll_ok (charEv_enc c (utf8 cs)), ih]

theorem charEv_ok {es : List Ev} {c : Char} {es' : List Ev} (h : charEv es = (some (.ok c), es')) :
    es = (String.utf8EncodeChar c).map .ok ++ es' := by
  cases es with
  | nil => simp [charEv] at h
  | cons e es =>
    cases e with
    | error e => simp [charEv] at h
    | ok b =>
      simp only [charEv] at h
      split at h
      · rename_i hw
        simp only [Prod.mk.injEq, Option.some.injEq, Except.ok.injEq] at h
        obtain ⟨rfl, rfl⟩ := h
        rw [width_one (by simpa using hw)]; rfl
      · split at h
        · simp at h
        · rcases hm : moreEvs (utf8CharWidth b - 1) es with ⟨e | o, es''⟩
          · rw [hm] at h; simp at h
          · rw [hm] at h
            simp only at h
            split at h
            · rename_i c' hf
              simp only [Prod.mk.injEq, Option.some.injEq, Except.ok.injEq] at h
              obtain ⟨rfl, rfl⟩ := h
              obtain ⟨h1, h3⟩ := moreEvs_ok hm
              rw [fromUtf8_iff] at hf
              rw [h1, ← hf.2]; simp
            · simp at h

/-- Decoding without error means that the events are the bytes of the text. -/
theorem decodeAll_valid {es : List Ev} {cs : List Char} (h : decodeAll es = (cs, none)) :
    es = (utf8 cs).map .ok := by
  induction hn : es.length using Nat.strongRecOn generalizing es cs with
  | _ n ih =>
    rcases hc : charEv es with ⟨_ | (e | c), es'⟩
    · rw [decodeAll_none hc] at h
      have := (charEv_none hc).1
      simp at h
      subst this h
      rfl
    · rw [decodeAll_error hc] at h; simp at h
    · rw [decodeAll_ok hc] at h
      have h1 := charEv_ok hc
      simp only [Prod.mk.injEq] at h
      have hlt : es'.length < n := by
        have := List.length_pos_iff.2 (enc_ne_nil c)
        rw [← hn, h1, List.length_append, List.length_map]; omega
      have := ih es'.length hlt (es := es') (cs := (decodeAll es').1) (by rw [← h.2]) rfl
      have e1 : utf8 (c :: (decodeAll es').1) = String.utf8EncodeChar c ++ utf8 (decodeAll es').1 := by
        simp [utf8]
      rw [h1, ← h.1, e1, List.map_append, ← this]

/-! ## The adapter as a function on characters -/

/-- The adapter after its first successful read: scanner state, look-ahead character, characters to come, and the error
that follows them, if any. -/
structure AS where
  m : St
  item1 : Option Char
  cs : List Char
  err : Option CharsError

/-- `loop` on characters. -/
def aloop (n : Nat) (m : St) (item : Char) (err : Option CharsError) : List Char → List UInt8 → Res × AS
  | [], out =>
    match err with
    | some e => (.err e.toKind, ⟨m, none, [], some e⟩)
    | none =>
      let k := keepElement m item none
      (.ok (out ++ if k.1 then (String.utf8EncodeChar item).take (n - out.length) else []), ⟨k.2, none, [], none⟩)
  | c :: cs, out =>
    let k := keepElement m item (some c)
    let out := out ++ if k.1 then (String.utf8EncodeChar item).take (n - out.length) else []
    if out.length ≥ n then (.ok out, ⟨k.2, some c, cs, err⟩) else aloop n k.2 c err cs out

/-- `readBuf` on characters, once initialised. -/
def aread (n : Nat) (a : AS) : Res × AS :=
  if n = 0 then (.ok [], a)
  else
    match a.item1 with
    | none => (.ok [], a)
    | some item => aloop n a.m item a.err a.cs []

structure Abs (j : JsonRead) (a : AS) : Prop where
  init : j.initialized = true
  m : j.minifier = a.m
  item1 : j.item1 = a.item1
  iter : a.item1.isSome → ∃ it, j.iter = some it ∧ Inv it ∧ decodeAll (evs it) = (a.cs, a.err)

theorem loop_spec (n fuel : Nat) (j : JsonRead) (item : Char) (it : InternalReader) (cs : List Char)
    (err : Option CharsError) (out : List UInt8) (hi : Inv it) (hd : decodeAll (evs it) = (cs, err))
    (h0 : j.initialized = true) (h1 : j.item1 = some item) (h2 : j.iter = some it) (hf : cs.length + 2 ≤ fuel)
    (ho : out.length < n) :
    (loop n fuel j out).1 = (aloop n j.minifier item err cs out).1 ∧
      Abs (loop n fuel j out).2 (aloop n j.minifier item err cs out).2 := by
  induction fuel generalizing j item it cs out with
  | zero => omega
  | succ fuel ih =>
    rw [loop, h1, h2]
    simp only
    obtain ⟨it', e1, e2, e3⟩ := nextChar_spec hi
    rcases hc : charEv (evs it) with ⟨_ | (e | c), es'⟩
    · rw [decodeAll_none hc] at hd
      simp only [Prod.mk.injEq] at hd
      obtain ⟨rfl, rfl⟩ := hd
      rw [hc] at e1
      simp only [e1, aloop]
      cases fuel with
      | zero => simp at hf
      | succ fuel =>
        by_cases hk : (keepElement j.minifier item none).1 = true
        · simp only [hk, if_true, addChar]
          split
          · refine ⟨rfl, ⟨h0, rfl, rfl, by simp⟩⟩
          · refine ⟨by simp [loop], ?_⟩
            simp only [loop]
            exact ⟨h0, rfl, rfl, by simp⟩
        · have hl : ¬ (out ++ ([] : List UInt8)).length ≥ n := by simp; omega
          simp only [hk, addChar, Bool.false_eq_true, if_false, hl]
          · refine ⟨by simp [loop], ?_⟩
            simp only [loop]
            exact ⟨h0, rfl, rfl, by simp⟩
    · rw [decodeAll_error hc] at hd
      simp only [Prod.mk.injEq] at hd
      obtain ⟨rfl, rfl⟩ := hd
      rw [hc] at e1
      simp only [e1, aloop]
      exact ⟨trivial, ⟨h0, rfl, rfl, by simp⟩⟩
    · rw [decodeAll_ok hc] at hd
      simp only [Prod.mk.injEq] at hd
      obtain ⟨rfl, rfl⟩ := hd
      rw [hc] at e1 e3
      simp only [e1, aloop]
      simp only at e3
      by_cases hk : (keepElement j.minifier item (some c)).1 = true
      · simp only [hk, if_true, addChar]
        split
        · refine ⟨rfl, ⟨h0, rfl, rfl, ?_⟩⟩
          intro _
          exact ⟨it', rfl, e2, by rw [e3]⟩
        · rename_i hl
          exact ih _ c it' _ _ e2 (by rw [e3]) h0 rfl rfl (by simp at hf ⊢; omega) (by omega)
      · have hl : ¬ (out ++ ([] : List UInt8)).length ≥ n := by simp; omega
        simp only [hk, addChar, Bool.false_eq_true, if_false, hl]
        · have := ih { j with item1 := some c, iter := some it', minifier := (keepElement j.minifier item (some c)).2 }
            c it' _ (out ++ []) e2 (by rw [e3]) h0 rfl rfl (by simp at hf ⊢; omega) (by simpa using ho)
          exact this

theorem fuelFor_enough {j : JsonRead} {it : InternalReader} {cs : List Char} {err : Option CharsError}
    (h2 : j.iter = some it) (hd : decodeAll (evs it) = (cs, err)) : cs.length + 2 ≤ fuelFor j := by
  unfold fuelFor
  rw [h2]
  simp only
  have h3 := decodeAll_length (evs it)
  have h4 := evs_length it
  rw [hd] at h3
  simp only at h3
  omega

/-- Once initialised, the adapter behaves like `aread`. -/
theorem readBuf_abs {j : JsonRead} {a : AS} (h : Abs j a) (n : Nat) :
    (j.readBuf n).1 = (aread n a).1 ∧ Abs (j.readBuf n).2 (aread n a).2 := by
  unfold JsonRead.readBuf aread
  by_cases hn : n = 0
  · simp [hn, h]
  · have : (n == 0) = false := by simpa using hn
    simp only [this, hn, h.init, Bool.false_eq_true, if_false, if_true]
    cases hi : a.item1 with
    | none =>
      have hj := h.item1
      rw [hi] at hj
      obtain ⟨f, hf⟩ : ∃ f, fuelFor j = f + 1 := by
        unfold fuelFor; split
        · exact ⟨1, rfl⟩
        · exact ⟨_, rfl⟩
      rw [hf, loop, hj]
      exact ⟨rfl, h⟩
    | some item =>
      obtain ⟨it, e1, e2, e3⟩ := h.iter (by simp [hi])
      have := loop_spec n (fuelFor j) j item it a.cs a.err [] e2 e3 h.init (h.item1.trans hi) e1
        (fuelFor_enough e1 e3) (by simp; omega)
      rw [h.m] at this
      exact this

/-- What the first call with a non-empty buffer of size `n` does with script `r`. -/
theorem readBuf_first (r : List Event) (n : Nat) (hn : 0 < n) :
    match decodeAll (scriptEvs n r) with
    | ([], some _) => (∃ k, ((minifyFromRead r).readBuf n).1 = .err k) ∧
        ((minifyFromRead r).readBuf n).2.initialized = false ∧ ((minifyFromRead r).readBuf n).2.read = none
    | ([], none) => ((minifyFromRead r).readBuf n).1 = .ok [] ∧
        Abs ((minifyFromRead r).readBuf n).2 ⟨{}, none, [], none⟩
    | (c :: cs, e) => ((minifyFromRead r).readBuf n).1 = (aread n ⟨{}, some c, cs, e⟩).1 ∧
        Abs ((minifyFromRead r).readBuf n).2 (aread n ⟨{}, some c, cs, e⟩).2 := by
  have h0 : (n == 0) = false := by simp; omega
  have hr := readData_ok (rd := r) (b := Buffer.new n) (by simpa [Buffer.new] using hn)
  simp only [JsonRead.readBuf, minifyFromRead, h0, InternalReader.new, Bool.false_eq_true, if_false]
  have hbs : (Buffer.new n).bufferSize = n := rfl
  rw [hbs] at hr
  rcases hrd : readData r (Buffer.new n) with ⟨_ | k, rd', b'⟩
  · rw [hrd] at hr
    simp only at hr ⊢
    obtain ⟨e1, e2, e3, e4⟩ := hr
    have hinv : Inv { read := rd', bufferSize := n, buffer := b' } := ⟨hn, e3, e2⟩
    have hev : evs { read := rd', bufferSize := n, buffer := b' } = scriptEvs n r := by
      rw [e4, evs, e1]; simp
    obtain ⟨it', f1, f2, f3⟩ := nextChar_spec hinv
    rw [hev] at f1 f3
    rcases hc : charEv (scriptEvs n r) with ⟨_ | (e | c), es'⟩
    · rw [decodeAll_none hc]
      rw [hc] at f1
      simp only [f1, fuelFor]
      simp only [loop]
      exact ⟨trivial, ⟨rfl, rfl, rfl, by simp⟩⟩
    · rw [decodeAll_error hc]
      rw [hc] at f1
      simp only [f1]
      exact ⟨⟨_, rfl⟩, trivial, trivial⟩
    · rw [decodeAll_ok hc]
      rw [hc] at f1 f3
      simp only [f1]
      simp only at f3
      have hn' : n ≠ 0 := by omega
      simp only [aread, hn', if_false]
      have hd : decodeAll (evs it') = ((decodeAll es').1, (decodeAll es').2) := by rw [f3]
      exact loop_spec n _ _ c it' _ _ [] f2 hd rfl rfl rfl (fuelFor_enough rfl hd) (by simpa using hn)
  · rw [hrd] at hr
    simp only at hr ⊢
    have : decodeAll (scriptEvs n r) = ([], some (.other k)) := by
      rw [hr.2]; exact decodeAll_error (es' := scriptEvs n rd') rfl
    rw [this]
    exact ⟨⟨_, rfl⟩, trivial, trivial⟩

/-! ## What the adapter delivers when there is no error -/
open Spec.JsonRead

/-- The characters still to be delivered. -/
def AS.kept (a : AS) : List Char :=
  match a.item1 with
  | none => []
  | some i => (scan a.m (i :: a.cs) none).1

theorem utf8_cons (c : Char) (cs : List Char) : utf8 (c :: cs) = String.utf8EncodeChar c ++ utf8 cs := by
  simp [utf8]

theorem cover_zero (k : List Char) : cover 0 k = k := by unfold cover; rfl
theorem cover_nil (n : Nat) : cover n [] = [] := by cases n <;> rfl
theorem cover_cons {n : Nat} (hn : 0 < n) (c : Char) (cs : List Char) :
    cover n (c :: cs) = cover (n - c.utf8Size) cs := by
  cases n with
  | zero => omega
  | succ n => rfl

/-- The buffer after one character. -/
def put (n : Nat) (m : St) (item : Char) (next : Option Char) (out : List UInt8) : List UInt8 :=
  out ++ if (keepElement m item next).1 then (String.utf8EncodeChar item).take (n - out.length) else []

theorem put_length (n : Nat) (m : St) (item : Char) (next : Option Char) (out : List UInt8) (h : out.length ≤ n) :
    (put n m item next out).length ≤ n := by
  unfold put
  rw [List.length_append]
  split
  · rw [List.length_take]; omega
  · simpa using h

theorem aloop_cons (n : Nat) (m : St) (item : Char) (e : Option CharsError) (c : Char) (cs : List Char) (out : List UInt8) :
    aloop n m item e (c :: cs) out =
      if (put n m item (some c) out).length ≥ n then
        (.ok (put n m item (some c) out), ⟨(keepElement m item (some c)).2, some c, cs, e⟩)
      else aloop n (keepElement m item (some c)).2 c e cs (put n m item (some c) out) := rfl

theorem aloop_nil (n : Nat) (m : St) (item : Char) (out : List UInt8) :
    aloop n m item none [] out = (.ok (put n m item none out), ⟨(keepElement m item none).2, none, [], none⟩) := rfl

theorem aloop_spec (n : Nat) (m : St) (item : Char) (cs : List Char) (out : List UInt8) (ho : out.length < n) :
    (aloop n m item none cs out).1 = .ok (out ++ (utf8 (scan m (item :: cs) none).1).take (n - out.length)) ∧
    (aloop n m item none cs out).2.err = none ∧
    (aloop n m item none cs out).2.kept = cover (n - out.length) (scan m (item :: cs) none).1 := by
  induction cs generalizing m item out with
  | nil =>
    simp only [aloop, scan, List.head?_nil, Option.or_none]
    by_cases hk : (keepElement m item none).1 = true
    · simp only [hk, if_true, AS.kept, utf8_cons]
      refine ⟨by simp [utf8], trivial, ?_⟩
      rw [cover_cons (by omega), cover_nil]
    · simp only [hk, AS.kept]
      refine ⟨by simp [utf8], trivial, ?_⟩
      simp [cover_nil]
  | cons c cs ih =>
    have hs : (scan m (item :: c :: cs) none).1 =
        if (keepElement m item (some c)).1 then item :: (scan (keepElement m item (some c)).2 (c :: cs) none).1
        else (scan (keepElement m item (some c)).2 (c :: cs) none).1 := by
      rw [scan]; simp
    rw [hs]
    simp only [aloop]
    by_cases hk : (keepElement m item (some c)).1 = true
    · simp only [hk, if_true]
      have hlen : (String.utf8EncodeChar item).length = item.utf8Size := by simp
      have hpos := Char.utf8Size_pos item
      by_cases hl : (out ++ (String.utf8EncodeChar item).take (n - out.length)).length ≥ n
      · rw [if_pos hl]
        rw [List.length_append, List.length_take, hlen] at hl
        refine ⟨?_, rfl, ?_⟩
        · rw [utf8_cons, List.take_append_of_le_length (by rw [hlen]; omega)]
        · rw [cover_cons (by omega), show n - out.length - item.utf8Size = 0 by omega, cover_zero]
          rfl
      · rw [if_neg hl]
        have hl' := hl
        rw [List.length_append, List.length_take, hlen] at hl'
        have := ih (keepElement m item (some c)).2 c (out ++ (String.utf8EncodeChar item).take (n - out.length)) (by omega)
        have ht : (String.utf8EncodeChar item).take (n - out.length) = String.utf8EncodeChar item :=
          List.take_of_length_le (by rw [hlen]; omega)
        rw [ht] at this ⊢
        have he : n - (out ++ String.utf8EncodeChar item).length = n - out.length - item.utf8Size := by
          rw [List.length_append, hlen]; omega
        rw [he] at this
        refine ⟨?_, this.2.1, ?_⟩
        · rw [this.1, utf8_cons, List.take_append, ht, hlen, List.append_assoc]
        · rw [this.2.2, cover_cons (by omega)]
    · have hl : ¬ (out ++ ([] : List UInt8)).length ≥ n := by simp; omega
      simp only [hk, Bool.false_eq_true, if_false, hl]
      have := ih (keepElement m item (some c)).2 c (out ++ []) (by simpa using ho)
      simpa using this

theorem aread_spec (n : Nat) (a : AS) (he : a.err = none) :
    (aread n a).1 = .ok ((utf8 a.kept).take n) ∧ (aread n a).2.err = none ∧ (aread n a).2.kept = cover n a.kept := by
  unfold aread
  by_cases hn : n = 0
  · simp [hn, he, cover_zero]
  · simp only [hn, if_false]
    cases hi : a.item1 with
    | none => simp [AS.kept, hi, utf8, cover_nil, he]
    | some item =>
      simp only [he]
      have := aloop_spec n a.m item a.cs [] (by simp; omega)
      simpa [AS.kept, hi] using this

theorem runReads_cons {j : JsonRead} {n : Nat} {ns : List Nat} (h : (j.readBuf n).1 ≠ .panic) :
    (runReads j (n :: ns)).1 = (j.readBuf n).1 :: (runReads (j.readBuf n).2 ns).1 ∧
      (runReads j (n :: ns)).2 = (runReads (j.readBuf n).2 ns).2 := by
  rw [runReads]
  rcases hr : j.readBuf n with ⟨r, j'⟩
  rw [hr] at h
  cases r with
  | panic => exact absurd rfl h
  | ok bs => exact ⟨rfl, rfl⟩
  | err k => exact ⟨rfl, rfl⟩

theorem run_abs {j : JsonRead} {a : AS} (h : Abs j a) (he : a.err = none) (ns : List Nat) :
    (runReads j ns).1 = readsOf ns a.kept := by
  induction ns generalizing j a with
  | nil => rfl
  | cons n ns ih =>
    obtain ⟨h1, h2⟩ := readBuf_abs h n
    obtain ⟨e1, e2, e3⟩ := aread_spec n a he
    rw [(runReads_cons (by rw [h1, e1]; simp)).1, h1, e1, ih h2 e2, e3, readsOf]

theorem readBuf_zero (j : JsonRead) : j.readBuf 0 = (.ok [], j) := by simp [JsonRead.readBuf]

/-- Reading a script that decodes to text `s` for requests of size `n`, where `n` is the first positive buffer size. -/
theorem run_decoded (r : List Event) (n : Nat) (hn : 0 < n) (s : List Char) (ns : List Nat)
    (h : scriptEvs n r = (utf8 s).map .ok) :
    (runReads (minifyFromRead r) (n :: ns)).1 = readsOf (n :: ns) (minifyStr s) := by
  have hf := readBuf_first r n hn
  rw [h, decodeAll_utf8] at hf
  rw [Json.minifyStr_eq]
  cases s with
  | nil =>
    simp only at hf
    rw [(runReads_cons (by rw [hf.1]; simp)).1, hf.1, run_abs hf.2 rfl]
    simp [readsOf, AS.kept, scan, utf8, cover_nil]
  | cons c cs =>
    simp only at hf
    obtain ⟨e1, e2, e3⟩ := aread_spec n ⟨{}, some c, cs, none⟩ rfl
    rw [(runReads_cons (by rw [hf.1, e1]; simp)).1, hf.1, e1, run_abs hf.2 e2, e3]
    rfl

theorem run_zeros (r : List Event) (ns : List Nat) (s : List Char)
    (h : ∀ n, 0 < n → n ∈ ns → scriptEvs n r = (utf8 s).map .ok) :
    (runReads (minifyFromRead r) ns).1 = readsOf ns (minifyStr s) := by
  induction ns with
  | nil => rfl
  | cons n ns ih =>
    by_cases hn : n = 0
    · subst hn
      rw [(runReads_cons (by rw [readBuf_zero]; simp)).1, readBuf_zero]
      simp only [readsOf, List.take_zero, cover_zero]
      rw [ih (fun n h1 h2 => h n h1 (by simp [h2]))]
    · exact run_decoded r n (by omega) s ns (h n (by omega) (by simp))

theorem scriptEvs_one (n : Nat) (bs : List UInt8) : scriptEvs n [.chunk bs] = bs.map .ok := by
  simp [scriptEvs]

/-! ## Errors -/

theorem decodeAll_zero_of_ok {es : List Ev} {cs : List Char} (h : decodeAll es = (cs, none)) :
    ∃ s, es = (utf8 s).map .ok := ⟨cs, decodeAll_valid h⟩

/-- With an error ahead, a read either reports it or fills the buffer and leaves the error ahead. -/
theorem aloop_err (n : Nat) (m : St) (item : Char) (e : CharsError) (cs : List Char) (out : List UInt8)
    (ho : out.length < n) :
    (∃ k, (aloop n m item (some e) cs out).1 = .err k) ∨
      (∃ bs, (aloop n m item (some e) cs out).1 = .ok bs ∧ bs.length = n ∧
        (aloop n m item (some e) cs out).2.err = some e ∧ (aloop n m item (some e) cs out).2.item1.isSome ∧
        (aloop n m item (some e) cs out).2.cs.length < cs.length) := by
  induction cs generalizing m item out with
  | nil => exact .inl ⟨_, rfl⟩
  | cons c cs ih =>
    have hp := put_length n m item (some c) out (by omega)
    rw [aloop_cons]
    split
    · rename_i hl
      exact .inr ⟨_, rfl, by omega, rfl, rfl, by simp⟩
    · rename_i hl
      rcases ih (keepElement m item (some c)).2 c _ (Nat.lt_of_not_le hl) with h | ⟨bs, h1, h2, h3, h4, h5⟩
      · exact .inl h
      · exact .inr ⟨bs, h1, h2, h3, h4, by simp; omega⟩

theorem aread_err (n : Nat) (hn : 0 < n) (a : AS) (e : CharsError) (he : a.err = some e) (hs : a.item1.isSome) :
    (∃ k, (aread n a).1 = .err k) ∨
      (∃ bs, (aread n a).1 = .ok bs ∧ bs.length = n ∧ (aread n a).2.err = some e ∧ (aread n a).2.item1.isSome ∧
        (aread n a).2.cs.length < a.cs.length) := by
  unfold aread
  have : n ≠ 0 := by omega
  simp only [this, if_false]
  cases hi : a.item1 with
  | none => rw [hi] at hs; simp at hs
  | some item =>
    simp only [he]
    exact aloop_err n a.m item e a.cs [] (by simpa using hn)

/-- `aread` never panics. -/
theorem aloop_ne_panic (n : Nat) (m : St) (item : Char) (e : Option CharsError) (cs : List Char) (out : List UInt8) :
    (aloop n m item e cs out).1 ≠ .panic := by
  induction cs generalizing m item out with
  | nil => cases e <;> simp [aloop]
  | cons c cs ih =>
    rw [aloop_cons]
    split
    · simp
    · exact ih _ _ _

theorem aread_ne_panic (n : Nat) (a : AS) : (aread n a).1 ≠ .panic := by
  unfold aread
  split
  · simp
  · split
    · simp
    · exact aloop_ne_panic _ _ _ _ _ _

theorem aloop_length (n : Nat) (m : St) (item : Char) (e : Option CharsError) (cs : List Char) (out : List UInt8)
    (ho : out.length ≤ n) (bs : List UInt8) (h : (aloop n m item e cs out).1 = .ok bs) : bs.length ≤ n := by
  induction cs generalizing m item out with
  | nil =>
    cases e with
    | some e => simp [aloop] at h
    | none =>
      rw [aloop_nil] at h
      simp only [Res.ok.injEq] at h
      rw [← h]; exact put_length _ _ _ _ _ ho
  | cons c cs ih =>
    have hp := put_length n m item (some c) out ho
    rw [aloop_cons] at h
    split at h
    · simp only [Res.ok.injEq] at h
      rw [← h]; exact hp
    · exact ih _ _ _ hp h

theorem aread_length (n : Nat) (a : AS) (bs : List UInt8) (h : (aread n a).1 = .ok bs) : bs.length ≤ n := by
  unfold aread at h
  split at h
  · simp only [Res.ok.injEq] at h; subst h; simp
  · split at h
    · simp only [Res.ok.injEq] at h; subst h; simp
    · exact aloop_length _ _ _ _ _ _ (by simp) _ h

theorem aloop_prefix (n : Nat) (m : St) (item : Char) (e : Option CharsError) (cs : List Char) (out bs : List UInt8)
    (h : (aloop n m item e cs out).1 = .ok bs) : out <+: bs := by
  induction cs generalizing m item out with
  | nil =>
    cases e with
    | some e => simp [aloop] at h
    | none =>
      rw [aloop_nil] at h
      simp only [Res.ok.injEq] at h
      rw [← h]; exact List.prefix_append _ _
  | cons c cs ih =>
    rw [aloop_cons] at h
    split at h
    · simp only [Res.ok.injEq] at h
      rw [← h]; exact List.prefix_append _ _
    · exact (List.prefix_append _ _).trans (ih _ _ _ h)

/-- If a read delivers nothing into a non-empty buffer, the adapter is at its end. -/
theorem aloop_empty (n : Nat) (hn : 0 < n) (m : St) (item : Char) (e : Option CharsError) (cs : List Char)
    (h : (aloop n m item e cs []).1 = .ok []) : (aloop n m item e cs []).2.item1 = none := by
  induction cs generalizing m item with
  | nil =>
    cases e with
    | some e => simp [aloop]
    | none => simp [aloop]
  | cons c cs ih =>
    rw [aloop_cons] at h ⊢
    by_cases hl : (put n m item (some c) []).length ≥ n
    · rw [if_pos hl] at h
      simp only [Res.ok.injEq] at h
      rw [h] at hl
      simp at hl; omega
    · rw [if_neg hl] at h ⊢
      have := aloop_prefix _ _ _ _ _ _ _ h
      rw [List.prefix_nil] at this
      rw [this] at h ⊢
      exact ih _ _ h

theorem aread_empty (n : Nat) (hn : 0 < n) (a : AS) (h : (aread n a).1 = .ok []) : (aread n a).2.item1 = none := by
  unfold aread at h ⊢
  have : n ≠ 0 := by omega
  simp only [this, if_false] at h ⊢
  cases hi : a.item1 with
  | none => simp [hi]
  | some item =>
    simp only [hi] at h ⊢
    exact aloop_empty n hn _ _ _ _ h

/-- The states a run can be in. -/
inductive Phase (r : List Event) (j : JsonRead) : Prop
  | fresh : j = minifyFromRead r → Phase r j
  | live (a : AS) : Abs j a → Phase r j
  | dead : j.initialized = false → j.read = none → Phase r j

theorem phase_read {r : List Event} {j : JsonRead} (h : Phase r j) (n : Nat) : Phase r (j.readBuf n).2 := by
  by_cases hn : n = 0
  · subst hn; rw [readBuf_zero]; exact h
  · cases h with
    | fresh h =>
      subst h
      have := readBuf_first r n (by omega)
      rcases hd : decodeAll (scriptEvs n r) with ⟨_ | ⟨c, cs⟩, e⟩
      · rw [hd] at this
        cases e with
        | none => exact .live _ this.2
        | some e => exact .dead this.2.1 this.2.2
      · rw [hd] at this
        exact .live _ this.2
    | live a h => exact .live _ (readBuf_abs h n).2
    | dead h1 h2 =>
      have : (j.readBuf n) = (.panic, j) := by simp [JsonRead.readBuf, hn, h1, h2]
      rw [this]; exact .dead h1 h2

theorem phase_run (r : List Event) (ns : List Nat) {j : JsonRead} (h : Phase r j) : Phase r (runReads j ns).2 := by
  induction ns generalizing j with
  | nil => exact h
  | cons n ns ih =>
    have hp := phase_read h n
    by_cases hr : (j.readBuf n).1 = .panic
    · have : (runReads j (n :: ns)).2 = (j.readBuf n).2 := by
        rw [runReads]
        rcases hh : j.readBuf n with ⟨r, j'⟩
        rw [hh] at hr
        simp only at hr
        subst hr
        rfl
      rw [this]; exact hp
    · rw [(runReads_cons hr).2]
      exact ih hp

end Verif.JsonRead
