import Verif.Basic.Str
/-!
# Writers

`io::Write` as the code uses it: a sequence of `write_all` calls (`write!(w, "{}", x)` is `write_all` of the
pieces `x`'s `Display` produces), stopped at the first error by `?`.
-/
namespace Verif

/-- A writer with state `σ`: `writeAll` is `io::Write::write_all` (`true` is `Ok(())`), `contents` is what has
reached the other side. -/
structure Sink (σ : Type) where
  writeAll : σ → List UInt8 → σ × Bool
  contents : σ → List UInt8

/-- The contract of `write_all`: on success everything was appended, on failure some prefix was. -/
structure Sink.Lawful {σ : Type} (k : Sink σ) : Prop where
  ok : ∀ s b, (k.writeAll s b).2 = true → k.contents (k.writeAll s b).1 = k.contents s ++ b
  fail : ∀ s b, (k.writeAll s b).2 = false →
    ∃ p, p <+: b ∧ k.contents (k.writeAll s b).1 = k.contents s ++ p

/-- `for x in chunks { write!(w, "{x}")?; } Ok(())`. -/
def writeChunks {σ : Type} (k : Sink σ) (s : σ) : List (List Char) → σ × Bool
  | [] => (s, true)
  | c :: cs =>
    match k.writeAll s (utf8 c) with
    | (s', true) => writeChunks k s' cs
    | (s', false) => (s', false)

/-- A writer into memory that has room for `n` more bytes and fails when it is full (like `&mut [u8]`):
the example of a lawful sink with an arbitrary failure point. -/
def roomSink : Sink (List UInt8 × Nat) where
  writeAll := fun (s, n) b => if b.length ≤ n then ((s ++ b, n - b.length), true) else ((s ++ b.take n, 0), false)
  contents := Prod.fst

theorem roomSink_lawful : roomSink.Lawful where
  ok := by
    rintro ⟨s, n⟩ b h
    unfold roomSink at h ⊢
    by_cases hb : b.length ≤ n <;> simp_all
  fail := by
    rintro ⟨s, n⟩ b h
    unfold roomSink at h ⊢
    by_cases hb : b.length ≤ n
    · simp_all
    · exact ⟨b.take n, List.take_prefix _ _, by simp [hb]⟩

theorem utf8_append (a b : List Char) : utf8 (a ++ b) = utf8 a ++ utf8 b := by simp [utf8]

theorem writeChunks_ok {σ : Type} {k : Sink σ} (hk : k.Lawful) (s : σ) (cs : List (List Char))
    (h : (writeChunks k s cs).2 = true) :
    k.contents (writeChunks k s cs).1 = k.contents s ++ utf8 cs.flatten := by
  induction cs generalizing s with
  | nil => simp [writeChunks, utf8]
  | cons c cs ih =>
    have ho := hk.ok s (utf8 c)
    unfold writeChunks at h ⊢
    rcases hw : k.writeAll s (utf8 c) with ⟨s', _ | _⟩
    · simp [hw] at h
    · simp only [hw] at h ho ⊢
      rw [ih s' h, ho trivial, List.flatten_cons, utf8_append, List.append_assoc]

theorem writeChunks_fail {σ : Type} {k : Sink σ} (hk : k.Lawful) (s : σ) (cs : List (List Char))
    (h : (writeChunks k s cs).2 = false) :
    ∃ p, p <+: utf8 cs.flatten ∧ k.contents (writeChunks k s cs).1 = k.contents s ++ p := by
  induction cs generalizing s with
  | nil => simp [writeChunks] at h
  | cons c cs ih =>
    have ho := hk.ok s (utf8 c)
    have hf := hk.fail s (utf8 c)
    unfold writeChunks at h ⊢
    rcases hw : k.writeAll s (utf8 c) with ⟨s', _ | _⟩
    · simp only [hw] at h hf ⊢
      obtain ⟨p, hp, he⟩ := hf trivial
      refine ⟨p, ?_, he⟩
      rw [List.flatten_cons, utf8_append]
      exact hp.trans (List.prefix_append _ _)
    · simp only [hw] at h ho ⊢
      obtain ⟨p, hp, he⟩ := ih s' h
      refine ⟨utf8 c ++ p, ?_, ?_⟩
      · rw [List.flatten_cons, utf8_append]
        exact (List.prefix_append_right_inj _).2 hp
      · rw [he, ho trivial, List.append_assoc]

/-- A writer that never reports an error makes the loop succeed. -/
theorem writeChunks_of_total {σ : Type} {k : Sink σ} (ht : ∀ s b, (k.writeAll s b).2 = true) (s : σ)
    (cs : List (List Char)) : (writeChunks k s cs).2 = true := by
  induction cs generalizing s with
  | nil => rfl
  | cons c cs ih =>
    unfold writeChunks
    have := ht s (utf8 c)
    rcases hw : k.writeAll s (utf8 c) with ⟨s', _ | _⟩
    · simp [hw] at this
    · exact ih s'

end Verif
