import Verif.Proofs.JsonRead
import Verif.Props.Json
/-!
# Properties of `json::minify_from_read` (C06 - C11)
-/
set_option linter.unusedSimpArgs false

namespace Verif.JsonRead
open Json (minifyStr)
open Spec.JsonRead

/-! ## C06: streaming equals whole-string minification -/

/-- C06 as one would like it: false, see `C06_full_false`. -/
def C06_full : Prop := ∀ (s : List Char) (ns : List Nat), (∀ n ∈ ns, 0 < n) →
  (runReads (minifyFromRead [.chunk (utf8 s)]) ns).1 = idealReads ns (utf8 (minifyStr s))

/-- The exact behaviour, for every text and every sequence of buffer sizes: the reads go through `minifyStr s`, but the
rest of a character that does not fit in the buffer is lost. -/
theorem C06_exact (s : List Char) (ns : List Nat) :
    (runReads (minifyFromRead [.chunk (utf8 s)]) ns).1 = readsOf ns (minifyStr s) :=
  run_zeros _ _ _ (fun n _ _ => scriptEvs_one n (utf8 s))

/-- Characters of more than one byte are cut. -/
theorem C06_full_false : ¬ C06_full := by
  intro h
  have := h ['é'] [1, 1] (by decide)
  revert this
  decide +kernel

private theorem cover_ascii (n : Nat) (k : List Char) (h : ∀ c ∈ k, c.utf8Size = 1) :
    cover n k = k.drop n ∧ utf8 (k.drop n) = (utf8 k).drop n := by
  induction k generalizing n with
  | nil => simp [cover_nil, utf8]
  | cons c k ih =>
    cases n with
    | zero => simp [cover_zero]
    | succ n =>
      rw [cover_cons (by omega), h c (by simp), Nat.add_sub_cancel]
      obtain ⟨h1, h2⟩ := ih n (fun c hc => h c (by simp [hc]))
      refine ⟨by simpa using h1, ?_⟩
      have : (String.utf8EncodeChar c).length = 1 := by simp [h c (by simp)]
      rw [utf8_cons, List.drop_succ_cons, h2]
      match hc : String.utf8EncodeChar c with
      | [b] => simp
      | [] => rw [hc] at this; simp at this
      | _ :: _ :: _ => rw [hc] at this; simp at this

private theorem readsOf_ideal (ns : List Nat) (k : List Char) (h : ∀ c ∈ k, c.utf8Size = 1) :
    readsOf ns k = idealReads ns (utf8 k) := by
  induction ns generalizing k with
  | nil => rfl
  | cons n ns ih =>
    obtain ⟨h1, h2⟩ := cover_ascii n k h
    rw [readsOf, idealReads, h1, ih _ (fun c hc => h c (List.mem_of_mem_drop hc)), h2]

/-- C06, partial: when the minified text is ASCII every schedule of reads gives its consecutive pieces. Missing: texts
with longer characters, for which it is false. -/
theorem C06_ascii_partial (s : List Char) (ns : List Nat) (h : ∀ c ∈ minifyStr s, c.utf8Size = 1) :
    (runReads (minifyFromRead [.chunk (utf8 s)]) ns).1 = idealReads ns (utf8 (minifyStr s)) := by
  rw [C06_exact, readsOf_ideal _ _ h]

private theorem delivered_ideal (ns : List Nat) (k : List UInt8) : delivered (idealReads ns k) = k.take ns.sum := by
  induction ns generalizing k with
  | nil => simp [idealReads, delivered]
  | cons n ns ih => simp [idealReads, delivered, ih, List.take_add]

/-- C06, partial (ASCII output): enough reads deliver the whole minified text, whatever their sizes. -/
theorem C06_delivered_partial (s : List Char) (ns : List Nat) (h : ∀ c ∈ minifyStr s, c.utf8Size = 1)
    (hn : (utf8 (minifyStr s)).length ≤ ns.sum) :
    delivered (runReads (minifyFromRead [.chunk (utf8 s)]) ns).1 = utf8 (minifyStr s) := by
  rw [C06_ascii_partial s ns h, delivered_ideal, List.take_of_length_le hn]

/-- C06, partial: for every text, if the first buffer is large enough one read delivers everything. -/
theorem C06_one_read_partial (s : List Char) (n : Nat) (ns : List Nat) (hn : (utf8 (minifyStr s)).length ≤ n) :
    (runReads (minifyFromRead [.chunk (utf8 s)]) (n :: ns)).1.head? = some (.ok (utf8 (minifyStr s))) := by
  rw [C06_exact, readsOf, List.take_of_length_le hn]; rfl

private theorem cover_suffix (n : Nat) (k : List Char) : ∃ m, n ≤ m ∧ utf8 (cover n k) = (utf8 k).drop m := by
  induction k generalizing n with
  | nil => exact ⟨n, Nat.le_refl _, by simp [cover_nil, utf8]⟩
  | cons c k ih =>
    cases n with
    | zero => exact ⟨0, Nat.le_refl _, by simp [cover_zero]⟩
    | succ n =>
      rw [cover_cons (by omega)]
      obtain ⟨m, h1, h2⟩ := ih (n + 1 - c.utf8Size)
      refine ⟨m + c.utf8Size, by omega, ?_⟩
      rw [h2, utf8_cons, Nat.add_comm, ← List.drop_drop]
      congr 1
      rw [List.drop_append, show c.utf8Size = (String.utf8EncodeChar c).length by simp]
      simp

private theorem delivered_sublist (ns : List Nat) (k : List Char) : (delivered (readsOf ns k)).Sublist (utf8 k) := by
  induction ns generalizing k with
  | nil => simp [readsOf, delivered]
  | cons n ns ih =>
    simp only [readsOf, delivered]
    obtain ⟨m, h1, h2⟩ := cover_suffix n k
    have h3 := ih (cover n k)
    rw [h2] at h3
    have h4 : ((utf8 k).drop m).Sublist ((utf8 k).drop n) := by
      have : (utf8 k).drop m = ((utf8 k).drop n).drop (m - n) := by rw [List.drop_drop]; congr 1; omega
      rw [this]; exact List.drop_sublist _ _
    have := (List.Sublist.refl ((utf8 k).take n)).append (h3.trans h4)
    rwa [List.take_append_drop] at this

/-- C06, partial: whatever the schedule nothing is invented or reordered: the bytes delivered are a subsequence of the
minified text, and no read fails. -/
theorem C06_sublist_partial (s : List Char) (ns : List Nat) :
    (delivered (runReads (minifyFromRead [.chunk (utf8 s)]) ns).1).Sublist (utf8 (minifyStr s)) := by
  rw [C06_exact]; exact delivered_sublist _ _

example : (runReads (minifyFromRead [.chunk (utf8 "{ \"a\" : [ 1 ] }".toList)]) [3, 1, 100, 5]).1 =
    [.ok (utf8 "{\"a".toList), .ok (utf8 "\"".toList), .ok (utf8 ":[1]}".toList), .ok []] := by decide +kernel
example : ∀ c ∈ minifyStr "{ \"a\" : [ 1 ] }".toList, c.utf8Size = 1 := by decide +kernel

/-! ## C07: independence of how the source is chunked -/

/-- C07 as one would like it: false, see `C07_full_false`. -/
def C07_full : Prop := ∀ (r : List Event) (ns : List Nat), (∀ e ∈ r, ∃ bs, e = .chunk bs ∧ bs ≠ []) → (∀ n ∈ ns, 0 < n) →
  (runReads (minifyFromRead r) ns).1 = (runReads (minifyFromRead [.chunk (content r)]) ns).1

/-- A short read in the middle ends the stream, silently. -/
theorem C07_full_false : ¬ C07_full := by
  intro h
  have := h [.chunk [91, 49, 44], .chunk [50, 93]] [8, 8] (by simp) (by decide)
  revert this
  decide +kernel

private theorem ok_inj {a b : List UInt8} (h : a.map (.ok : UInt8 → Ev) = b.map .ok) : a = b :=
  (List.map_inj_right (fun _ _ hab => by simpa using hab)).1 h

private theorem scriptEvs_seen (n : Nat) (r : List Event) (h : ¬ failsEarly n r) :
    scriptEvs n r = (seen n r).map .ok := by
  induction r with
  | nil => rfl
  | cons e es ih =>
    cases e with
    | fail k => simp [failsEarly] at h
    | chunk bs =>
      simp only [scriptEvs, seen, List.map_append]
      congr 1
      split
      · rename_i hc
        refine ih (fun hf => h ⟨hc.1, hc.2, hf⟩)
      · rfl

private theorem seen_of_map (n : Nat) (r : List Event) (bs : List UInt8) (h : scriptEvs n r = bs.map .ok) :
    ¬ failsEarly n r ∧ seen n r = bs := by
  induction r generalizing bs with
  | nil => cases bs with
    | nil => simp [failsEarly, seen]
    | cons b bs => simp [scriptEvs] at h
  | cons e es ih =>
    cases e with
    | fail k => cases bs <;> simp [scriptEvs] at h
    | chunk cs =>
      simp only [scriptEvs] at h
      by_cases hc : cs ≠ [] ∧ cs.length % n = 0
      · rw [if_pos hc] at h
        obtain ⟨l1, l2, e1, e2, e3⟩ := List.append_eq_map_iff.1 h
        have hinj : l1 = cs := by
          exact ok_inj e2
        obtain ⟨h1, h2⟩ := ih l2 e3.symm
        refine ⟨fun hf => h1 hf.2.2, ?_⟩
        rw [seen, if_pos hc, h2, e1, hinj]
      · rw [if_neg hc, List.append_nil] at h
        refine ⟨fun hf => hc ⟨hf.1, hf.2.1⟩, ?_⟩
        rw [seen, if_neg hc, List.append_nil]
        exact ok_inj h

/-- The exact behaviour over every reader that does not fail: the adapter sees the source up to its first short read,
where "short" refers to the size `n` of the first caller buffer. -/
theorem C07_exact (r : List Event) (n : Nat) (ns : List Nat) (s : List Char) (hn : 0 < n) (hf : ¬ failsEarly n r)
    (hs : seen n r = utf8 s) :
    (runReads (minifyFromRead r) (n :: ns)).1 = readsOf (n :: ns) (minifyStr s) :=
  run_decoded r n hn s ns (by rw [scriptEvs_seen n r hf, hs])

private theorem full_seen (n : Nat) (r : List Event) (h : Full n r) : ¬ failsEarly n r ∧ seen n r = content r := by
  match r, h with
  | [], _ => simp [failsEarly, seen, content]
  | [.chunk bs], _ => simp [failsEarly, seen, content]
  | .chunk bs :: e :: es, h =>
    obtain ⟨h1, h2, h3⟩ := h
    obtain ⟨i1, i2⟩ := full_seen n (e :: es) h3
    refine ⟨fun hf => i1 hf.2.2, ?_⟩
    rw [seen, content, if_pos ⟨h1, h2⟩, i2]
  | .fail _ :: _, h => simp [Full] at h

/-- C07, partial: two ways of chunking the same text give the same reads if neither makes a short read before the end.
Missing: short reads in the middle, for which it is false. -/
theorem C07_full_chunks_partial (r r' : List Event) (n : Nat) (ns : List Nat) (s : List Char) (hn : 0 < n)
    (h : Full n r) (h' : Full n r') (hs : content r = utf8 s) (hs' : content r' = utf8 s) :
    (runReads (minifyFromRead r) (n :: ns)).1 = (runReads (minifyFromRead r') (n :: ns)).1 := by
  rw [C07_exact r n ns s hn (full_seen n r h).1 ((full_seen n r h).2.trans hs),
    C07_exact r' n ns s hn (full_seen n r' h').1 ((full_seen n r' h').2.trans hs')]

/-- C07, partial: chunking without short reads gives the same as the whole text at once. -/
theorem C07_chunks_partial (r : List Event) (n : Nat) (ns : List Nat) (s : List Char) (hn : 0 < n)
    (h : Full n r) (hs : content r = utf8 s) :
    (runReads (minifyFromRead r) (n :: ns)).1 = (runReads (minifyFromRead [.chunk (utf8 s)]) (n :: ns)).1 :=
  C07_full_chunks_partial r _ n ns s hn h (by simp [Full]) hs (by simp [content])

example : Full 2 [.chunk [91, 49], .chunk [44, 32, 32, 50], .chunk [93]] ∧
    (runReads (minifyFromRead [.chunk [91, 49], .chunk [44, 32, 32, 50], .chunk [93]]) [2, 2, 2]).1 =
      [.ok [91, 49], .ok [44, 50], .ok [93]] := ⟨by simp [Full], by decide +kernel⟩

/-! ## C08: buffer bounds -/

/-- What one can get from the adapter: some sequence of reads over some reader. -/
def Reachable (j : JsonRead) : Prop := ∃ r ns, j = (runReads (minifyFromRead r) ns).2

private theorem reachable_phase {j : JsonRead} (h : Reachable j) : ∃ r, Phase r j := by
  obtain ⟨r, ns, rfl⟩ := h
  exact ⟨r, phase_run r ns (.fresh rfl)⟩

private theorem phase_bounded {r : List Event} {j : JsonRead} (hp : Phase r j) (n : Nat) (bs : List UInt8)
    (hr : (j.readBuf n).1 = .ok bs) : bs.length ≤ n := by
  by_cases hn : n = 0
  · subst hn; rw [readBuf_zero] at hr; simp at hr; subst hr; simp
  cases hp with
  | fresh hj =>
    subst hj
    have := readBuf_first r n (by omega)
    rcases hd : decodeAll (scriptEvs n r) with ⟨_ | ⟨c, cs⟩, e⟩
    · rw [hd] at this
      cases e with
      | none => rw [this.1] at hr; simp at hr; subst hr; simp
      | some e =>
        obtain ⟨k, hk⟩ := this.1
        rw [hk] at hr; simp at hr
    · rw [hd] at this
      rw [this.1] at hr
      exact aread_length _ _ _ hr
  | live a ha =>
    rw [(readBuf_abs ha n).1] at hr
    exact aread_length _ _ _ hr
  | dead h1 h2 =>
    have : (j.readBuf n) = (.panic, j) := by simp [JsonRead.readBuf, hn, h1, h2]
    rw [this] at hr; simp at hr

/-- C08: never more bytes than the buffer holds. -/
theorem C08_bounded (j : JsonRead) (h : Reachable j) (n : Nat) (bs : List UInt8) (hr : (j.readBuf n).1 = .ok bs) :
    bs.length ≤ n := by
  obtain ⟨r, hp⟩ := reachable_phase h
  exact phase_bounded hp n bs hr

/-- C08: an empty buffer gets `Ok(0)` and nothing is consumed. -/
theorem C08_empty_buffer (j : JsonRead) : j.readBuf 0 = (.ok [], j) := readBuf_zero j

private theorem runReads_panic {j : JsonRead} {n : Nat} {ns : List Nat} (h : (j.readBuf n).1 = .panic) :
    (runReads j (n :: ns)).1 = [.panic] := by
  rw [runReads]
  rcases hh : j.readBuf n with ⟨r, j'⟩
  rw [hh] at h
  simp only at h
  subst h
  rfl

/-- C08 along any sequence of calls. -/
theorem C08_run (r : List Event) (ns : List Nat) :
    ∀ p ∈ ns.zip (runReads (minifyFromRead r) ns).1, ∀ bs, p.2 = .ok bs → bs.length ≤ p.1 := by
  have gen : ∀ (ns : List Nat) (j : JsonRead), Phase r j →
      ∀ p ∈ ns.zip (runReads j ns).1, ∀ bs, p.2 = .ok bs → bs.length ≤ p.1 := by
    intro ns
    induction ns with
    | nil => simp
    | cons n ns ih =>
      intro j hj p hp bs hb
      by_cases hr : (j.readBuf n).1 = .panic
      · rw [runReads_panic hr] at hp
        simp at hp
        subst hp
        simp at hb
      · rw [(runReads_cons hr).1, List.zip_cons_cons, List.mem_cons] at hp
        rcases hp with rfl | hp
        · exact phase_bounded hj n bs hb
        · exact ih _ (phase_read hj n) p hp bs hb
  exact gen ns _ (.fresh rfl)

example : Reachable (runReads (minifyFromRead [.fail .interrupted, .chunk [1]]) [0, 4]).2 := ⟨_, _, rfl⟩

/-! ## C09: end of stream is sticky -/

private theorem phase_eof {r : List Event} {j : JsonRead} (hp : Phase r j) (n : Nat) (hn : 0 < n)
    (hr : (j.readBuf n).1 = .ok []) : ∃ a, Abs (j.readBuf n).2 a ∧ a.item1 = none := by
  cases hp with
  | fresh hj =>
    subst hj
    have := readBuf_first r n hn
    rcases hd : decodeAll (scriptEvs n r) with ⟨_ | ⟨c, cs⟩, e⟩
    · rw [hd] at this
      cases e with
      | none => exact ⟨_, this.2, rfl⟩
      | some e =>
        obtain ⟨k, hk⟩ := this.1
        rw [hk] at hr; simp at hr
    · rw [hd] at this
      rw [this.1] at hr
      exact ⟨_, this.2, aread_empty n hn _ hr⟩
  | live a ha =>
    rw [(readBuf_abs ha n).1] at hr
    exact ⟨_, (readBuf_abs ha n).2, aread_empty n hn _ hr⟩
  | dead h1 h2 =>
    have : (j.readBuf n) = (.panic, j) := by
      have : n ≠ 0 := by omega
      simp [JsonRead.readBuf, this, h1, h2]
    rw [this] at hr; simp at hr

private theorem eof_run {j : JsonRead} {a : AS} (ha : Abs j a) (hi : a.item1 = none) (ms : List Nat) :
    (runReads j ms).1 = ms.map (fun _ => .ok []) := by
  induction ms generalizing j a with
  | nil => rfl
  | cons m ms ih =>
    obtain ⟨h1, h2⟩ := readBuf_abs ha m
    have : aread m a = (.ok [], a) := by
      unfold aread
      split
      · rfl
      · rw [hi]
    rw [this] at h1 h2
    rw [(runReads_cons (by rw [h1]; simp)).1, h1, ih h2 hi]; rfl

/-- C09: after an `Ok(0)` into a non-empty buffer, every later read gives `Ok(0)`. -/
theorem C09_eof_sticky (j : JsonRead) (h : Reachable j) (n : Nat) (hn : 0 < n) (hr : (j.readBuf n).1 = .ok [])
    (ms : List Nat) : (runReads (j.readBuf n).2 ms).1 = ms.map (fun _ => .ok []) := by
  obtain ⟨r, hp⟩ := reachable_phase h
  obtain ⟨a, ha, hi⟩ := phase_eof hp n hn hr
  exact eof_run ha hi ms

example : ((minifyFromRead [.chunk [], .chunk [91]]).readBuf 3).1 = .ok [] := by decide +kernel

/-! ## C10: errors are reported and do not become panics -/

/-- C10 as one would like it: false, see `C10_full_false`. -/
def C10_full : Prop := ∀ (r : List Event) (ns : List Nat), .panic ∉ (runReads (minifyFromRead r) ns).1

/-- An error of the very first read leaves the adapter without its reader, and the next call unwraps `None`. -/
theorem C10_full_false : ¬ C10_full := by
  intro h
  have := h [.fail .interrupted, .chunk [91, 93]] [8, 8]
  revert this
  decide +kernel

private theorem live_no_panic {j : JsonRead} {a : AS} (ha : Abs j a) (ms : List Nat) :
    .panic ∉ (runReads j ms).1 := by
  induction ms generalizing j a with
  | nil => simp [runReads]
  | cons m ms ih =>
    obtain ⟨h1, h2⟩ := readBuf_abs ha m
    have hne := aread_ne_panic m a
    rw [← h1] at hne
    rw [(runReads_cons hne).1, List.mem_cons, not_or]
    exact ⟨fun h => hne h.symm, ih h2⟩

private theorem fresh_read (r : List Event) (n : Nat) (hn : 0 < n) :
    (∃ k, ((minifyFromRead r).readBuf n).1 = .err k) ∨ ∃ a, Abs ((minifyFromRead r).readBuf n).2 a := by
  have := readBuf_first r n hn
  rcases hd : decodeAll (scriptEvs n r) with ⟨_ | ⟨c, cs⟩, e⟩
  · rw [hd] at this
    cases e with
    | none => exact .inr ⟨_, this.2⟩
    | some e => exact .inl this.1
  · rw [hd] at this
    exact .inr ⟨_, this.2⟩

private theorem fresh_ne_panic (r : List Event) (n : Nat) : ((minifyFromRead r).readBuf n).1 ≠ .panic := by
  by_cases hn : n = 0
  · subst hn; rw [readBuf_zero]; simp
  have := readBuf_first r n (by omega)
  rcases hd : decodeAll (scriptEvs n r) with ⟨_ | ⟨c, cs⟩, e⟩
  · rw [hd] at this
    cases e with
    | none => rw [this.1]; simp
    | some e => obtain ⟨k, hk⟩ := this.1; rw [hk]; simp
  · rw [hd] at this
    rw [this.1]; exact aread_ne_panic _ _

/-- C10, partial: a run with a panic has an error before it, so a caller who stops at the first error never sees one.
Missing: calling again after an error of the very first read, which panics. -/
theorem C10_panic_after_error_partial (r : List Event) (ns : List Nat)
    (h : .panic ∈ (runReads (minifyFromRead r) ns).1) : ∃ k, .err k ∈ (runReads (minifyFromRead r) ns).1 := by
  induction ns with
  | nil => simp [runReads] at h
  | cons n ns ih =>
    rw [(runReads_cons (fresh_ne_panic r n)).1] at h ⊢
    rw [List.mem_cons] at h
    rcases h with h | h
    · exact absurd h.symm (fresh_ne_panic r n)
    · by_cases hn : n = 0
      · subst hn
        rw [readBuf_zero] at h ⊢
        obtain ⟨k, hk⟩ := ih h
        exact ⟨k, by simp [hk]⟩
      · rcases fresh_read r n (by omega) with ⟨k, hk⟩ | ⟨a, ha⟩
        · exact ⟨k, by simp [hk]⟩
        · exact absurd h (live_no_panic ha ns)

/-- C10, partial: once the first read into a non-empty buffer has succeeded there is never a panic, whatever errors come
later and however often one calls again. -/
theorem C10_no_panic_partial (r : List Event) (n : Nat) (hn : 0 < n) (bs : List UInt8)
    (h : ((minifyFromRead r).readBuf n).1 = .ok bs) (ns : List Nat) :
    .panic ∉ (runReads (minifyFromRead r) (n :: ns)).1 := by
  rcases fresh_read r n hn with ⟨k, hk⟩ | ⟨a, ha⟩
  · rw [hk] at h; simp at h
  · rw [(runReads_cons (fresh_ne_panic r n)).1, List.mem_cons, not_or]
    exact ⟨fun h => fresh_ne_panic r n h.symm, live_no_panic ha ns⟩

example : ((minifyFromRead [.chunk [91, 49], .fail .other]).readBuf 1).1 = .ok [91] ∧
    (runReads (minifyFromRead [.chunk [91, 49], .fail .other]) [1, 1, 1]).1 = [.ok [91], .err .invalidData, .ok []] := by
  decide +kernel

/-- While an error lies ahead, no read says `Ok(0)`: every read fills its buffer or reports the error. -/
private theorem pending_run {j : JsonRead} {a : AS} {e : CharsError} (ha : Abs j a) (he : a.err = some e)
    (hi : a.item1.isSome) (ns : List Nat) (hpos : ∀ n ∈ ns, 0 < n) :
    (∃ k, .err k ∈ (runReads j ns).1) ∨
      ((runReads j ns).1.length ≤ a.cs.length ∧ .ok [] ∉ (runReads j ns).1) := by
  induction ns generalizing j a with
  | nil => right; simp [runReads]
  | cons n ns ih =>
    obtain ⟨h1, h2⟩ := readBuf_abs ha n
    have hn := hpos n (by simp)
    have hne : (j.readBuf n).1 ≠ .panic := by rw [h1]; exact aread_ne_panic _ _
    rw [(runReads_cons hne).1]
    rcases aread_err n hn a e he hi with ⟨k, hk⟩ | ⟨bs, e1, e2, e3, e4, e5⟩
    · left; exact ⟨k, by simp [h1, hk]⟩
    · rcases ih h2 e3 e4 (fun m hm => hpos m (by simp [hm])) with ⟨k, hk⟩ | ⟨i1, i2⟩
      · exact .inl ⟨k, by simp [hk]⟩
      · right
        refine ⟨by simp only [List.length_cons]; omega, ?_⟩
        rw [List.mem_cons, not_or]
        refine ⟨?_, i2⟩
        rw [h1, e1]
        intro hh
        simp only [Res.ok.injEq] at hh
        rw [← hh] at e2
        simp at e2; omega

/-- The events behind a run that saw neither an error nor more reads than there are bytes. -/
private theorem clean_run (r : List Event) (n : Nat) (ns : List Nat) (hn : 0 < n) (hpos : ∀ n ∈ ns, 0 < n)
    (herr : ∀ k, .err k ∉ (runReads (minifyFromRead r) (n :: ns)).1)
    (hend : .ok [] ∈ (runReads (minifyFromRead r) (n :: ns)).1 ∨ (scriptEvs n r).length < (n :: ns).length) :
    ∃ s, scriptEvs n r = (utf8 s).map .ok := by
  rcases hd : decodeAll (scriptEvs n r) with ⟨cs, _ | e⟩
  · exact ⟨cs, decodeAll_valid hd⟩
  · exfalso
    have hf := readBuf_first r n hn
    have hl := decodeAll_length (scriptEvs n r)
    rw [hd] at hf hl
    cases cs with
    | nil =>
      obtain ⟨k, hk⟩ := hf.1
      refine herr k ?_
      rw [(runReads_cons (by rw [hk]; simp)).1, hk]; simp
    | cons c cs =>
      have hne := fresh_ne_panic r n
      rw [(runReads_cons hne).1] at herr hend
      have hf1 := hf.1
      rcases aread_err n hn ⟨{}, some c, cs, some e⟩ e rfl rfl with ⟨k, hk⟩ | ⟨bs, e1, e2, e3, e4, e5⟩
      · exact herr k (by simp [hf1, hk])
      · rcases pending_run hf.2 e3 e4 ns hpos with ⟨k, hk⟩ | ⟨i1, i2⟩
        · exact herr k (by simp [hk])
        · have hlen : (runReads ((minifyFromRead r).readBuf n).2 ns).1.length = ns.length := by
            have hnp := live_no_panic hf.2 ns
            have : ∀ (ns : List Nat) (j : JsonRead), .panic ∉ (runReads j ns).1 → (runReads j ns).1.length = ns.length := by
              intro ns
              induction ns with
              | nil => intro j _; rfl
              | cons m ms ih =>
                intro j hj
                by_cases hp : (j.readBuf m).1 = .panic
                · rw [runReads_panic hp] at hj; simp at hj
                · rw [(runReads_cons hp).1] at hj ⊢
                  rw [List.mem_cons, not_or] at hj
                  simp [ih _ hj.2]
            exact this ns _ hnp
          rcases hend with h | h
          · rw [List.mem_cons] at h
            rcases h with h | h
            · rw [hf1, e1] at h
              simp only [Res.ok.injEq] at h
              rw [← h] at e2; simp at e2; omega
            · exact i2 h
          · rw [hlen] at i1
            simp only [List.length_cons] at h hl e5
            omega

/-- C10: no error is swallowed. If a caller reads to the end (`Ok(0)` into a non-empty buffer) without seeing an
error, then the reader did not fail before its first short read and what it had delivered by then is valid UTF-8. -/
theorem C10_errors_surface (r : List Event) (n : Nat) (ns : List Nat) (hn : 0 < n) (hpos : ∀ n ∈ ns, 0 < n)
    (herr : ∀ k, .err k ∉ (runReads (minifyFromRead r) (n :: ns)).1)
    (hend : .ok [] ∈ (runReads (minifyFromRead r) (n :: ns)).1) :
    ¬ failsEarly n r ∧ ∃ s, seen n r = utf8 s := by
  obtain ⟨s, hs⟩ := clean_run r n ns hn hpos herr (.inl hend)
  obtain ⟨h1, h2⟩ := seen_of_map n r _ hs
  exact ⟨h1, s, h2⟩

example : (runReads (minifyFromRead [.chunk [91, 49], .chunk [93]]) [2, 2, 2]).1 = [.ok [91, 49], .ok [93], .ok []] := by
  decide +kernel

/-! ## C11: UTF-8 decoding is exact -/

private theorem drain_spec (fuel : Nat) {r : InternalReader} (hi : Inv r) (hf : (evs r).length < fuel) :
    drain fuel r = decodeAll (evs r) := by
  induction fuel generalizing r with
  | zero => omega
  | succ fuel ih =>
    obtain ⟨r', h1, h2, h3⟩ := nextChar_spec hi
    rw [drain, h1]
    rcases hc : charEv (evs r) with ⟨_ | (e | c), es'⟩
    · rw [decodeAll_none hc]
    · rw [decodeAll_error hc]
    · rw [hc] at h3
      have : evs r ≠ [] := by intro h; rw [h] at hc; simp [charEv] at hc
      have hl := charEv_length this
      rw [hc] at hl
      rw [decodeAll_ok hc]
      simp only at h3 hl ⊢
      rw [ih h2 (by rw [h3]; omega), h3]

private theorem new_one (bs : List UInt8) (n : Nat) (hn : 0 < n) :
    ∃ it, InternalReader.new [.chunk bs] n = .ok it ∧ Inv it ∧ evs it = bs.map .ok := by
  have hr := readData_ok (rd := [.chunk bs]) (b := Buffer.new n) (by simpa [Buffer.new] using hn)
  unfold InternalReader.new
  rcases hrd : readData [.chunk bs] (Buffer.new n) with ⟨_ | k, rd', b'⟩
  · rw [hrd] at hr
    simp only at hr ⊢
    obtain ⟨e1, e2, e3, e4⟩ := hr
    refine ⟨_, rfl, ⟨hn, e3, e2⟩, ?_⟩
    have hs : (Buffer.new n).bufferSize = n := rfl
    rw [hs, scriptEvs_one] at e4
    simp only [evs, e1, List.drop_zero]
    exact e4.symm
  · rw [hrd] at hr
    simp [scriptEvs_one, Buffer.new] at hr
    cases bs <;> simp at hr

/-- C11: for every byte string and every buffer size the decoder goes through exactly the characters of `s` and then ends
if and only if the byte string is the UTF-8 encoding of `s`. -/
theorem C11_decode_iff (bs : List UInt8) (n : Nat) (hn : 0 < n) :
    ∃ it, InternalReader.new [.chunk bs] n = .ok it ∧
      ∀ s, drain (bs.length + 1) it = (s, none) ↔ bs = utf8 s := by
  obtain ⟨it, h1, h2, h3⟩ := new_one bs n hn
  refine ⟨it, h1, fun s => ?_⟩
  rw [drain_spec _ h2 (by rw [h3]; simp), h3]
  constructor
  · intro h
    have := decodeAll_valid h
    exact ok_inj this
  · rintro rfl
    exact decodeAll_utf8 s

/-- C11: on a byte string that is no text the decoder reports an error. -/
theorem C11_invalid_error (bs : List UInt8) (n : Nat) (hn : 0 < n) (hbs : ∀ s, bs ≠ utf8 s) :
    ∃ it e, InternalReader.new [.chunk bs] n = .ok it ∧ (drain (bs.length + 1) it).2 = some e := by
  obtain ⟨it, h1, h2⟩ := C11_decode_iff bs n hn
  rcases hd : drain (bs.length + 1) it with ⟨s, _ | e⟩
  · exact absurd ((h2 s).1 hd) (hbs s)
  · exact ⟨it, e, h1, by rw [hd]⟩

/-- C11 at the interface: bytes that are no text make some read fail as soon as the caller reads on, at the latest at the
read after the last byte. -/
theorem C11_read_error (bs : List UInt8) (n : Nat) (ns : List Nat) (hn : 0 < n) (hpos : ∀ n ∈ ns, 0 < n)
    (hlen : bs.length ≤ ns.length) (hbs : ∀ s, bs ≠ utf8 s) :
    ∃ k, .err k ∈ (runReads (minifyFromRead [.chunk bs]) (n :: ns)).1 := by
  refine Classical.byContradiction fun hno => ?_
  have hno' : ∀ k, .err k ∉ (runReads (minifyFromRead [.chunk bs]) (n :: ns)).1 := fun k hk => hno ⟨k, hk⟩
  obtain ⟨s, hs⟩ := clean_run [.chunk bs] n ns hn hpos hno' (.inr (by rw [scriptEvs_one]; simp; omega))
  rw [scriptEvs_one] at hs
  exact hbs s (ok_inj hs)

private theorem lone_continuation (s : List Char) : [0x80] ≠ utf8 s := by
  intro h
  have h2 := decodeAll_utf8 s
  rw [← h] at h2
  have h3 : decodeAll (([0x80] : List UInt8).map .ok) = ([], some .notUtf8) :=
    decodeAll_error (es' := []) (by rfl)
  rw [h3] at h2
  simp at h2

example : ∃ k, .err k ∈ (runReads (minifyFromRead [.chunk [0x80]]) (1 :: [1])).1 :=
  C11_read_error [0x80] 1 [1] (by decide) (by decide) (by decide) lone_continuation

end Verif.JsonRead
