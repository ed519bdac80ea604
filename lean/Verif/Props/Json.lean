import Verif.Proofs.JsonExact
/-!
# Properties of `json::minify` (C01 - C05)
-/
namespace Verif.Json
open Spec.Json

/-! ## C01: minification gives the compact text of the same value -/

/-- C01 as one would like it: false, see `C01_full_false`. -/
def C01_full : Prop := ∀ v s, Text v s → minifyStr s = compact v

/-- `squeezed` only matters for U+007F. -/
private theorem filter_visible {b : List Char} (h : ∀ c ∈ b, visible c = true) : b.filter visible = b :=
  List.filter_eq_self.2 h

mutual
private theorem squeezed_eq (v : JVal) (h : AllStrings (fun b => ∀ c ∈ b, visible c = true) v) : squeezed v = v := by
  cases v with
  | str b => simp only [AllStrings] at h; simp [squeezed, filter_visible h]
  | arr vs => simp only [AllStrings] at h; simp [squeezed, squeezedE_eq vs h]
  | obj ms => simp only [AllStrings] at h; simp [squeezed, squeezedM_eq ms h]
  | _ => simp [squeezed]
private theorem squeezedE_eq (vs : JVals) (h : AllStringsE (fun b => ∀ c ∈ b, visible c = true) vs) :
    squeezedE vs = vs := by
  cases vs with
  | nil => simp [squeezedE]
  | cons v vs => simp only [AllStringsE] at h; simp [squeezedE, squeezed_eq v h.1, squeezedE_eq vs h.2]
private theorem squeezedM_eq (ms : JMems) (h : AllStringsM (fun b => ∀ c ∈ b, visible c = true) ms) :
    squeezedM ms = ms := by
  cases ms with
  | nil => simp [squeezedM]
  | cons k v ms =>
    simp only [AllStringsM] at h
    simp [squeezedM, filter_visible h.1, squeezed_eq v h.2.1, squeezedM_eq ms h.2.2]
end

/-- C01, general form: for every JSON text of a value none of whose strings is `Swallowed`, the output is the
compact text of that value with U+007F dropped from strings. -/
theorem C01_compact_squeezed_partial (v : JVal) (s : List Char) (h : Text v s) (hg : AllStrings (¬ Swallowed ·) v) :
    minifyStr s = compact (squeezed v) := by
  rw [minifyStr_eq, scan_text h hg none]

/-- C01, partial: missing are the values with a `Swallowed` string (an escaped quote, or a backslash, within the last
two characters) and those with U+007F in a string. -/
theorem C01_compact_partial (v : JVal) (s : List Char) (h : Text v s) (hg : AllStrings (¬ Swallowed ·) v)
    (hd : AllStrings (fun b => ∀ c ∈ b, visible c = true) v) : minifyStr s = compact v := by
  rw [C01_compact_squeezed_partial v s h hg, squeezed_eq v hd]

/-- C01: under the same hypotheses the output is a JSON text of the same value. -/
theorem C01_same_value_partial (v : JVal) (s : List Char) (h : Text v s) (hg : AllStrings (¬ Swallowed ·) v)
    (hd : AllStrings (fun b => ∀ c ∈ b, visible c = true) v) : Text v (minifyStr s) := by
  rw [C01_compact_partial v s h hg hd]
  exact text_of_compact h

/-- C01: the layout of the source does not matter. -/
theorem C01_layout_irrelevant_partial (v : JVal) (s t : List Char) (hs : Text v s) (ht : Text v t)
    (hg : AllStrings (¬ Swallowed ·) v) : minifyStr s = minifyStr t := by
  rw [C01_compact_squeezed_partial v s hs hg, C01_compact_squeezed_partial v t ht hg]

/-- C01: no text at all of the value is shorter than the output. -/
theorem C01_shortest_partial (v : JVal) (s t : List Char) (hs : Text v s) (ht : Text v t)
    (hg : AllStrings (¬ Swallowed ·) v) : (minifyStr s).length ≤ t.length := by
  rw [C01_layout_irrelevant_partial v s t hs ht hg, minifyStr_eq]
  exact (scan_sublist _ _ _).length_le

/-- C01, exact: the texts of a value all have the same output iff no string of the value is `Swallowed`. -/
theorem C01_layout_iff (v : JVal) (s₀ : List Char) (h₀ : Text v s₀) :
    (∀ s t, Text v s → Text v t → minifyStr s = minifyStr t) ↔ AllStrings (¬ Swallowed ·) v := by
  constructor
  · intro h
    refine Classical.byContradiction fun hg => ?_
    obtain ⟨a, r, h1, h2, h3⟩ := stuck_text h₀ hg
    exact h3.differ (h _ _ h1 h2)
  · intro hg s t hs ht
    exact C01_layout_irrelevant_partial v s t hs ht hg

/-- C01, exact: the value is one whose texts are all minified to its compact text iff none of its strings is
`Swallowed` and none contains U+007F. -/
theorem C01_iff (v : JVal) (s₀ : List Char) (h₀ : Text v s₀) :
    (∀ s, Text v s → minifyStr s = compact v) ↔
      AllStrings (¬ Swallowed ·) v ∧ AllStrings (fun b => ∀ c ∈ b, visible c = true) v := by
  constructor
  · intro h
    have hg := (C01_layout_iff v s₀ h₀).1 (fun s t hs ht => by rw [h s hs, h t ht])
    refine ⟨hg, (squeezed_length v).2 ?_⟩
    rw [← C01_compact_squeezed_partial v s₀ h₀ hg, h s₀ h₀]
  · rintro ⟨hg, hd⟩ s hs
    exact C01_compact_partial v s hs hg hd

/-- A body is not `Swallowed` if it contains neither a quote nor a final backslash: the usual case. -/
theorem not_swallowed_of_plain {b : List Char} (h : ∀ c ∈ b, c ≠ '\\') : ¬ Swallowed b := by
  rintro ⟨p, q, hb, _⟩
  have h1 : '\\' ∈ b ++ ['"'] := by rw [hb]; simp
  simp only [List.mem_append, List.mem_cons, List.not_mem_nil, or_false] at h1
  rcases h1 with h1 | h1
  · exact h _ h1 rfl
  · revert h1; decide

section C01_example
/-- `{ "a b" : [ 1 , "\"xyz" ] , "c" : null }` with assorted whitespace -/
private def exText : List Char := " {\n\t\"a b\" : [ 1 ,\r\n \"\\\"xyz\" ] , \"c\":null} ".toList
private def exVal : JVal :=
  .obj (.cons "a b".toList (.arr (.cons (.num ['1']) (.cons (.str "\\\"xyz".toList) .nil)))
    (.cons "c".toList .null .nil))

private theorem exBody1 : Body "a b".toList := by
  refine .plain ?_ ?_ ?_ (.plain ?_ ?_ ?_ (.plain ?_ ?_ ?_ .nil)) <;> decide
private theorem exBody2 : Body "\\\"xyz".toList := by
  refine .esc ?_ (.plain ?_ ?_ ?_ (.plain ?_ ?_ ?_ (.plain ?_ ?_ ?_ .nil))) <;> decide
private theorem exBody3 : Body "c".toList := by
  refine .plain ?_ ?_ ?_ .nil <;> decide
private theorem wsList (w : List Char) (h : w.all (fun c => c == ' ' || c == '\t' || c == '\n' || c == '\r') = true) :
    IsWs w := by
  intro c hc
  have := List.all_eq_true.1 h c hc
  simpa [or_assoc] using this
private theorem exNum : IsNumber ['1'] :=
  ⟨[], ['1'], [], [], rfl, .inl rfl, .inr ⟨'1', [], rfl, by decide, by decide, by simp⟩, .inl rfl, .inl rfl⟩

private theorem exIsText : Text exVal exText := by
  have e1 : Text (.num ['1']) " 1 ".toList :=
    Text.mk (w1 := [' ']) (w2 := [' ']) (wsList _ (by decide)) (.num exNum) (wsList _ (by decide))
  have e2 : Text (.str "\\\"xyz".toList) "\r\n \"\\\"xyz\" ".toList :=
    Text.mk (w1 := ['\r', '\n', ' ']) (w2 := [' ']) (wsList _ (by decide)) (.str exBody2) (wsList _ (by decide))
  have e3 := Text.mk (w1 := [' ']) (w2 := [' ']) (wsList _ (by decide)) (Value.arr (Elems.cons e1 (.one e2)))
    (wsList _ (by decide))
  have e4 := Text.mk (w1 := []) (w2 := []) (wsList _ (by decide)) Value.null (wsList _ (by decide))
  have e5 := Members.cons (w1 := ['\n', '\t']) (w2 := [' ']) (wsList _ (by decide)) exBody1 (wsList _ (by decide)) e3
    (Members.one (w1 := [' ']) (w2 := []) (wsList _ (by decide)) exBody3 (wsList _ (by decide)) e4)
  exact Text.mk (w1 := [' ']) (w2 := [' ']) (wsList _ (by decide)) (.obj e5) (wsList _ (by decide))

private theorem exGood2 : ¬ Swallowed "\\\"xyz".toList := by
  have h := cnt_pos 0 (by omega) "\\\"xyz".toList
  intro hs
  have : 0 < cnt 0 "\\\"xyz".toList := h.2 (.inl hs)
  exact absurd this (by decide)

/-- The hypotheses of the C01 theorems are met by a nested text with an escaped quote. -/
example : Text exVal exText ∧ AllStrings (¬ Swallowed ·) exVal ∧
    AllStrings (fun b => ∀ c ∈ b, visible c = true) exVal ∧
    minifyStr exText = "{\"a b\":[1,\"\\\"xyz\"],\"c\":null}".toList := by
  refine ⟨exIsText, ?_, ?_, ?_⟩
  · simp only [exVal, AllStrings, AllStringsE, AllStringsM, and_true, true_and]
    exact ⟨not_swallowed_of_plain (by decide), exGood2, not_swallowed_of_plain (by decide)⟩
  · simp only [exVal, AllStrings, AllStringsE, AllStringsM, and_true, true_and]
    exact ⟨by decide, by decide, by decide⟩
  · decide +kernel

/-- Both sides of the exact forms occur: they hold of the value above, and fail of a text that is one literal ending
in an escaped quote. -/
example : (∀ s, Text exVal s → minifyStr s = compact exVal) ∧
    Text (.str "say \\\"".toList) (quoted "say \\\"".toList) ∧
    ¬ ∀ s t, Text (.str "say \\\"".toList) s → Text (.str "say \\\"".toList) t → minifyStr s = minifyStr t := by
  have hb : Body "say \\\"".toList := by
    refine .plain ?_ ?_ ?_ (.plain ?_ ?_ ?_ (.plain ?_ ?_ ?_ (.plain ?_ ?_ ?_ (.esc ?_ .nil)))) <;> decide
  have ht := text_of_value (Value.str hb)
  refine ⟨(C01_iff exVal exText exIsText).2 ⟨?_, ?_⟩, ht, ?_⟩
  · simp only [exVal, AllStrings, AllStringsE, AllStringsM, and_true, true_and]
    exact ⟨not_swallowed_of_plain (by decide), exGood2, not_swallowed_of_plain (by decide)⟩
  · simp only [exVal, AllStrings, AllStringsE, AllStringsM, and_true, true_and]
    exact ⟨by decide, by decide, by decide⟩
  · rw [C01_layout_iff _ _ ht]
    simp only [AllStrings, Classical.not_not]
    exact ⟨"say ".toList, ['"'], rfl, by decide⟩
end C01_example

/-- C01 is false: the JSON text `["\"", 1]` keeps its blank, because the scanner still believes it is inside a
string. -/
theorem C01_full_false : ¬ C01_full := by
  intro h
  have hb : Body "\\\"".toList := .esc (by decide) .nil
  have e1 : Text (.str "\\\"".toList) (quoted "\\\"".toList) := by
    have := Text.mk (w1 := []) (w2 := []) (wsList _ (by decide)) (Value.str hb) (wsList _ (by decide))
    simpa using this
  have e2 : Text (.num ['1']) " 1".toList :=
    Text.mk (w1 := [' ']) (w2 := []) (wsList _ (by decide)) (Value.num exNum) (wsList _ (by decide))
  have e3 : Text (.arr (.cons (.str "\\\"".toList) (.cons (.num ['1']) .nil))) (('[' :: ((quoted "\\\"".toList ++ (',' :: " 1".toList)) ++ [']']))) := by
    have := Text.mk (w1 := []) (w2 := []) (wsList _ (by decide)) (Value.arr (Elems.cons e1 (.one e2)))
      (wsList _ (by decide))
    simpa using this
  have := h _ _ e3
  revert this
  decide +kernel

/-- C01 is false in a worse way: a blank *inside* a later string is lost, so the value changes.
`{"a":"\"","b c":1}` becomes `{"a":"\"","bc":1}`. -/
theorem C01_value_changed :
    minifyStr "{\"a\":\"\\\"\",\"b c\":1}".toList = "{\"a\":\"\\\"\",\"bc\":1}".toList := by
  decide +kernel

/-! ## C02: one literal is seen as one literal -/

/-- C02, exact: for a legal string body, minification treats the literal as a unit, whatever follows, iff the body is
not `Swallowed`. -/
theorem C02_literal_unit_iff (b : List Char) (hb : Body b) :
    (∀ t, minifyStr (quoted b ++ t) = quoted (b.filter visible) ++ minifyStr t) ↔ ¬ Swallowed b := by
  constructor
  · intro h hs
    have h1 := h [' ']
    have hc : 0 < cnt 0 b := (cnt_pos 0 (by omega) b).2 (.inl hs)
    rw [minifyStr_eq, scan_append, scan_quoted hb] at h1
    rw [if_neg (by omega)] at h1
    have h2 : scan { isString := true, esc := cnt 0 b - 1 } [' '] none =
        ([' '], { isString := true, esc := cnt 0 b - 1 - 1 }) := by
      simp only [scan]
      rw [keepElement_in _ _ _ (by decide) (.inl (by decide))]
      simp
    rw [h2] at h1
    have h3 : minifyStr [' '] = [] := by decide +kernel
    rw [h3] at h1
    have := congrArg List.length h1
    simp [quoted] at this
  · intro hs t
    rw [minifyStr_eq, scan_append, scan_quoted_good hb hs, minifyStr_eq]
    simp [quoted]

/-- C02: whatever the body, the visible characters of the literal itself are all kept. -/
theorem C02_literal_kept (b t : List Char) (hb : Body b) :
    quoted (b.filter visible) <+: minifyStr (quoted b ++ t) := by
  rw [minifyStr_eq, scan_append, scan_quoted hb]
  simp [quoted, List.prefix_append]

/-- Not vacuous, both ways: `say \"hi\" now` is a unit, `say \"hi\"` is not. -/
example : (Body "say \\\"hi\\\" now".toList ∧ ¬ Swallowed "say \\\"hi\\\" now".toList) ∧
    (Body "say \\\"hi\\\"".toList ∧ Swallowed "say \\\"hi\\\"".toList) := by
  refine ⟨⟨?_, ?_⟩, ?_, ⟨"say \\\"hi".toList, ['"'], rfl, by decide⟩⟩
  · refine .plain ?_ ?_ ?_ (.plain ?_ ?_ ?_ (.plain ?_ ?_ ?_ (.plain ?_ ?_ ?_ (.esc ?_ (.plain ?_ ?_ ?_ (.plain ?_ ?_ ?_
      (.esc ?_ (.plain ?_ ?_ ?_ (.plain ?_ ?_ ?_ (.plain ?_ ?_ ?_ (.plain ?_ ?_ ?_ .nil))))))))))) <;> decide
  · intro hs
    have := (cnt_pos 0 (by omega) _).2 (.inl hs)
    exact absurd this (by decide)
  · refine .plain ?_ ?_ ?_ (.plain ?_ ?_ ?_ (.plain ?_ ?_ ?_ (.plain ?_ ?_ ?_ (.esc ?_ (.plain ?_ ?_ ?_ (.plain ?_ ?_ ?_
      (.esc ?_ .nil))))))) <;> decide

/-! ## C03: only deletions -/

/-- C03: the output is a subsequence of the input ... -/
theorem C03_sublist (s : List Char) : (minifyStr s).Sublist s := by
  rw [minifyStr_eq]; exact scan_sublist _ _ _

/-- C03: ... all characters that are neither whitespace nor ASCII control survive, in order ... -/
theorem C03_only_blanks_deleted (s : List Char) :
    (minifyStr s).filter (fun c => !isWhitespace c && !isAsciiControl c) =
      s.filter (fun c => !isWhitespace c && !isAsciiControl c) := by
  rw [minifyStr_eq]; exact scan_solid _ _ _

/-- C03: ... no control character is left, and the output is never longer than the input. -/
theorem C03_no_control_left (s : List Char) : ∀ c ∈ minifyStr s, isAsciiControl c = false := by
  rw [minifyStr_eq]
  generalize ({} : St) = m
  induction s generalizing m with
  | nil => simp [scan]
  | cons c cs ih =>
    simp only [scan]
    by_cases hc : isAsciiControl c
    · rw [keepElement_ctrl _ _ _ hc]; simpa using ih m
    · split
      · intro d hd
        simp only [List.mem_cons] at hd
        rcases hd with rfl | hd
        · simpa using hc
        · exact ih _ d hd
      · exact ih _

theorem C03_not_longer (s : List Char) : (minifyStr s).length ≤ s.length ∧ blen (minifyStr s) ≤ blen s := by
  have h := C03_sublist s
  refine ⟨h.length_le, ?_⟩
  generalize minifyStr s = t at h
  induction h with
  | slnil => simp
  | cons a _ ih => simp; omega
  | cons_cons a _ ih => simpa using ih

/-- C03: without any quote, the output is exactly the input without whitespace and control characters. -/
theorem C03_no_strings (s : List Char) (h : '"' ∉ s) :
    minifyStr s = s.filter (fun c => !isAsciiControl c && !isWhitespace c) := by
  rw [minifyStr_eq, scan_out none (fun c hc hq => h (hq ▸ hc))]

example : '"' ∉ "[1, 2 , true]".toList ∧ minifyStr "[1, 2 , true]".toList = "[1,2,true]".toList := by decide +kernel

/-! ## C04: idempotence -/

/-- C04 as one would like it: false, see `C04_full_false`. -/
def C04_full : Prop := ∀ s, minifyStr (minifyStr s) = minifyStr s

/-- C04, partial: missing are inputs in which a backslash is separated from a quote by ASCII control characters
only. -/
theorem C04_idempotent_partial (s : List Char)
    (h : ∀ p u q, s = p ++ ('\\' :: (u ++ '"' :: q)) → (∀ c ∈ u, isAsciiControl c = true) → u = []) :
    minifyStr (minifyStr s) = minifyStr s := by
  rw [minifyStr_eq (minifyStr s), minifyStr_eq s, scan_idem _ _ h]

/-- The hypothesis holds in particular of every input without control characters. -/
theorem C04_idempotent_no_control_partial (s : List Char) (h : ∀ c ∈ s, isAsciiControl c = false) :
    minifyStr (minifyStr s) = minifyStr s :=
  C04_idempotent_partial s fun p u q hs hu => by
    cases u with
    | nil => rfl
    | cons c u => exact absurd (hu c (by simp)) (by simp [h c (by simp [hs])])

/-- C04: in any case a third run changes nothing more: the output of a run has no control character. -/
theorem C04_second_run_stable (s : List Char) :
    minifyStr (minifyStr (minifyStr s)) = minifyStr (minifyStr s) :=
  C04_idempotent_no_control_partial _ (C03_no_control_left s)

example : (∀ c ∈ "{ \"a\\\"b\" : [ ] }".toList, isAsciiControl c = false) ∧
    minifyStr "{ \"a\\\"b\" : [ ] }".toList ≠ "{ \"a\\\"b\" : [ ] }".toList := by decide +kernel

/-- C04 is false: deleting U+007F brings a backslash and the closing quote together, and the second run then loses the
blank inside the next string. -/
theorem C04_full_false : ¬ C04_full := by
  intro h
  have := h "[\"\\\\\x7f\",1,\"x y\"]".toList
  revert this
  decide +kernel

/-! ## C05: writers -/

/-- C05: on success the writer has received exactly `to_string()`. -/
theorem C05_write_ok {σ : Type} (k : Sink σ) (hk : k.Lawful) (st : σ) (s : List Char)
    (h : (write (minify s) k st).2 = true) :
    k.contents (write (minify s) k st).1 = k.contents st ++ utf8 (minifyStr s) := by
  have := writeChunks_ok hk st _ h
  rw [write, this]
  simp [minifyStr, toStr, ← List.flatMap_def]

/-- C05: when the writer fails, at whatever point, it has received a prefix of `to_string()`. -/
theorem C05_write_fail {σ : Type} (k : Sink σ) (hk : k.Lawful) (st : σ) (s : List Char)
    (h : (write (minify s) k st).2 = false) :
    ∃ p, p <+: utf8 (minifyStr s) ∧ k.contents (write (minify s) k st).1 = k.contents st ++ p := by
  obtain ⟨p, hp, he⟩ := writeChunks_fail hk st _ h
  refine ⟨p, ?_, he⟩
  simpa [minifyStr, toStr, ← List.flatMap_def] using hp

/-- C05: a writer that never fails makes `write` succeed. -/
theorem C05_write_total {σ : Type} (k : Sink σ) (ht : ∀ s b, (k.writeAll s b).2 = true) (st : σ) (s : List Char) :
    (write (minify s) k st).2 = true :=
  writeChunks_of_total ht st _

/-- Not vacuous: a lawful sink with room for three bytes fails on `[1, 2]` and holds `[1,`; with room for five it
succeeds. -/
example : roomSink.Lawful ∧ (write (minify "[1, 2]".toList) roomSink ([], 3)).2 = false ∧
    (write (minify "[1, 2]".toList) roomSink ([], 3)).1.1 = utf8 "[1,".toList ∧
    (write (minify "[1, 2]".toList) roomSink ([], 5)).2 = true :=
  ⟨roomSink_lawful, by decide +kernel, by decide +kernel, by decide +kernel⟩

end Verif.Json
