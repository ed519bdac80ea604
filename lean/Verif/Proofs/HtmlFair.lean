import Verif.Proofs.HtmlClose
/-!
# Checks for the words of a tag, for the examples
-/
set_option linter.unusedSimpArgs false
namespace Verif.Html
open Verif.Spec.Html

def sizeB (k t : List Char) : Bool :=
  if (k ++ ['=', '"']).isPrefixOf t then
    (t.reverse.head? == some '"') && !(t.drop (k.length + 2)).dropLast.isEmpty && (t.drop (k.length + 2)).dropLast.all plainSign
  else !contains (k ++ ['=', '"']) t

def fairB (w : Chunk) : Bool :=
  w.text.all (fun c => !isWhitespace c && c != '<' && c != '>') &&
  (w.text.reverse.head? != some '=' && w.text.reverse.take 2 != ['"', '='] && w.text.reverse.take 2 != ['\'', '=']) &&
  sizeB "width".toList w.text && sizeB "height".toList w.text

theorem sizeB_spec {k t : List Char} (hk : '=' ∉ k) (h : sizeB k t = true) {a b : List Char} (e : t = a ++ (k ++ '=' :: '"' :: b)) :
    a = [] ∧ ∃ v, v ≠ [] ∧ (∀ c ∈ v, plainSign c = true) ∧ b = v ++ ['"'] := by
  rw [sizeB] at h
  split at h
  · rename_i hp
    obtain ⟨r, hr⟩ := isPrefix_iff.1 hp
    have hd : t.drop (k.length + 2) = r := by
      rw [hr, show k.length + 2 = (k ++ ['=', '"']).length from by simp, List.drop_left]
    simp only [Bool.and_eq_true, Bool.not_eq_true', List.all_eq_true, beq_iff_eq, hd] at h
    obtain ⟨⟨h1, h2⟩, h3⟩ := h
    have hne : r ≠ [] := by rintro rfl; simp at h2
    have hl : r.getLast hne = '"' := by
      rw [List.head?_reverse, hr, List.getLast?_append, List.getLast?_eq_some_getLast hne] at h1
      exact Option.some.inj h1
    have hv : r = r.dropLast ++ ['"'] := by rw [← hl]; exact (List.dropLast_concat_getLast hne).symm
    have hae : a = [] := by
      have e' : k ++ '=' :: ('"' :: r) = (a ++ k) ++ '=' :: ('"' :: b) := by
        have := hr.symm.trans e
        simpa using this
      -- the first `=` is the one behind `k`; all signs of the value differ from it
      by_cases ha : '=' ∈ a ++ k
      · exfalso
        have hc : 2 ≤ (t.filter (· == '=')).length := by
          rw [e, ← List.append_assoc, List.filter_append, List.filter_cons_of_pos (by decide), List.length_append, List.length_cons]
          have : 0 < ((a ++ k).filter (· == '=')).length := List.length_pos_of_mem (List.mem_filter.2 ⟨ha, by decide⟩)
          omega
        have h0 : ∀ s : List Char, '=' ∉ s → s.filter (· == '=') = [] := fun s hs => by
          rw [List.filter_eq_nil_iff]
          intro c hc; rw [beq_iff_eq]; rintro rfl; exact hs hc
        have : (t.filter (· == '=')).length = 1 := by
          rw [hr, hv]
          simp only [List.filter_append, h0 k hk, h0 r.dropLast (fun hc => absurd (h3 _ hc) (by decide))]
          decide
        omega
      · have := (class_split (p := (· != '=')) (fun c hc => bne_iff_ne.2 fun h => hk (h ▸ hc))
          (fun c hc => bne_iff_ne.2 fun h => ha (h ▸ hc)) (by decide) (by decide) e').1
        have hlen := congrArg List.length this
        simp at hlen
        exact hlen
    subst hae
    refine ⟨rfl, r.dropLast, fun h => by rw [h] at h2; simp at h2, h3, ?_⟩
    have : k ++ ['=', '"'] ++ b = k ++ ['=', '"'] ++ r := by rw [← hr, e]; simp
    rw [List.append_cancel_left this]; exact hv
  · rw [contains_iff.2 ⟨a, b, by rw [e]; simp⟩] at h; cases h

theorem fair_of {word : Char → Bool} {w : Chunk} (h : fairB w = true) : w.Fair word := by
  simp only [fairB, Bool.and_eq_true, List.all_eq_true, Bool.not_eq_true', bne_iff_ne] at h
  obtain ⟨⟨⟨h1, ⟨h2, h3⟩, h4⟩, h5⟩, h6⟩ := h
  refine ⟨fun c hc => ⟨(h1 c hc).1.1, (h1 c hc).1.2, (h1 c hc).2⟩, ?_, ?_⟩
  · intro n r _ e
    refine ⟨?_, ?_, ?_⟩ <;> rintro rfl <;> rw [e] at h2 h3 h4
    · exact h2 (by simp)
    · exact h3 (by simp)
    · exact h4 (by simp)
  · rintro k (rfl | rfl) a b e
    · exact sizeB_spec (by decide +kernel) h5 e
    · exact sizeB_spec (by decide +kernel) h6 e

def steadyB (word : Char → Bool) : Option Char → List Chunk → Bool
  | _, [] => true
  | p, w :: l => (!(p.any word && word w.first) || (w.extra == 0 || w.attr word)) &&
    steadyB word (if w.sized then some w.bare.last else none) l

theorem steady_of {word : Char → Bool} {l : List Chunk} {p : Option Char} (h : steadyB word p l = true) : Steady word p l := by
  induction l generalizing p with
  | nil => exact trivial
  | cons w l ih =>
    rw [steadyB, Bool.and_eq_true] at h
    refine ⟨?_, ih h.2⟩
    rintro c rfl h1 h2
    simpa [h1, h2] using h.1

end Verif.Html
