import Verif.Proofs.HtmlPage
/-!
# Checks for the examples about pages
-/
set_option linter.unusedSimpArgs false
namespace Verif.Html
open Verif.Spec.Html

/-- The first `-->` is at the end. -/
def firstB : List Char → Bool
  | [] => true
  | c :: s => (!"-->".toList.isPrefixOf (c :: s) || s.length == 2) && firstB s

theorem first_of {s : List Char} (h : firstB s = true) : ∀ u v, s = u ++ "-->".toList ++ v → v = [] := by
  induction s with
  | nil => intro u v e; simp at e
  | cons c s ih =>
    rw [firstB, Bool.and_eq_true] at h
    intro u v e
    cases u with
    | nil =>
      have h1 := h.1
      rw [e] at h1
      have : "-->".toList.isPrefixOf ([] ++ "-->".toList ++ v) = true := by simp
      rw [this] at h1
      have h2 := congrArg List.length e
      simp at h1 h2
      exact List.length_eq_zero_iff.1 (by omega)
    | cons d u => exact ih h.2 u v (List.cons.inj e).2

def taglessB : List Char → Bool
  | [] => true
  | c :: s => (c != '<' || stray s && s.any fun c => !isWhitespace c) && taglessB s

theorem tagless_of {t : List Char} (h : taglessB t = true) : Tagless t := by
  induction t with
  | nil => exact .of (by simp)
  | cons c s ih =>
    rw [taglessB, Bool.and_eq_true] at h
    intro a b e
    cases a with
    | nil =>
      obtain ⟨rfl, rfl⟩ := List.cons.inj e
      simpa using h.1
    | cons d a => exact ih h.2 a b (List.cons.inj e).2

def sharpB : List Char → Bool
  | [] => true
  | c :: _ => !dull c

theorem sharp_of {t : List Char} (h : sharpB t = true) : Sharp t := by
  rintro c u rfl
  simpa [sharpB] using h

def okB : Seg → Bool
  | .text t => taglessB t
  | .tag t => !t.contains '<' && !t.contains '>' && sharpB t && !"!--".toList.isPrefixOf t
  | .comment b => firstB (b ++ "-->".toList)

theorem ok_of {x : Seg} (h : okB x = true) : x.Ok := by
  cases x with
  | text t => exact tagless_of h
  | tag t =>
    simp only [okB, Bool.and_eq_true, Bool.not_eq_true', List.contains_eq_mem, decide_eq_false_iff_not] at h
    refine ⟨h.1.1.1, h.1.1.2, sharp_of h.1.2, ?_⟩
    rintro u rfl
    have : "!--".toList.isPrefixOf ("!--".toList ++ u) = true := by simp
    rw [this] at h; cases h.2
  | comment b => exact first_of h

theorem conditional_mem {b : List Char} (h : Conditional b) : '[' ∈ b := by
  induction h with
  | here => simp
  | blank _ _ ih => exact List.mem_cons_of_mem _ ih
  | again _ ih => exact List.mem_append_right _ ih

def condB : List Char → Bool
  | [] => false
  | c :: s => c == '[' || isWhitespace c && condB s

theorem cond_of {b : List Char} (h : condB b = true) : Conditional b := by
  induction b with
  | nil => cases h
  | cons c s ih =>
    simp only [condB, Bool.or_eq_true, beq_iff_eq, Bool.and_eq_true] at h
    rcases h with rfl | h
    · exact .here
    · exact .blank h.1 (ih h.2)

def plainB : Seg → Bool
  | .text t => taglessB t
  | .tag t => !t.contains '<' && !t.contains '>' && sharpB t
  | .comment _ => false

/-- One segment, or a conditional comment. -/
def chunkB (C : List Seg) : Bool :=
  (match C with
    | [x] => okB x && (match x with
      | .comment b => !b.contains '['
      | _ => true)
    | _ => false) ||
  C.all plainB && (let b := ((render C).drop 4).take ((render C).length - 7)
    render C == (Seg.comment b).show && firstB (b ++ "-->".toList) && condB b)

theorem page_of (L : List (List Seg)) (h : L.all chunkB = true) : Page L.flatten := by
  induction L with
  | nil => exact .nil
  | cons C L ih =>
    rw [List.all_cons, Bool.and_eq_true] at h
    have ih := ih h.2
    have h1 := h.1
    rw [chunkB.eq_def, Bool.or_eq_true] at h1
    rw [List.flatten_cons]
    rcases h1 with h1 | h1
    · split at h1
      · rename_i x
        rw [Bool.and_eq_true] at h1
        refine .seg (ok_of h1.1) ?_ ih
        rintro b rfl hb
        have := conditional_mem hb
        simp [this] at h1
      · cases h1
    · simp only [Bool.and_eq_true, beq_iff_eq] at h1
      refine .block ⟨?_, _, h1.2.1.1, first_of h1.2.1.2, cond_of h1.2.2⟩ ih
      intro x hx
      have := List.all_eq_true.1 h1.1 x hx
      cases x with
      | text t => exact tagless_of this
      | tag t =>
        simp only [plainB, Bool.and_eq_true, Bool.not_eq_true', List.contains_eq_mem, decide_eq_false_iff_not] at this
        exact ⟨this.1.1, this.1.2, sharp_of this.2⟩
      | comment b => cases this

def opensB (t : List Char) : Bool := !"!--".toList.isPrefixOf t || condB (t.drop 3)

theorem opens_of {t : List Char} (h : opensB t = true) : Opens t := by
  rintro u rfl
  have e : "!--".toList.isPrefixOf ("!--".toList ++ u) = true := by simp
  have e2 : ("!--".toList ++ u).drop 3 = u := rfl
  rw [opensB, e, e2] at h
  have h : condB u = true := by simpa using h
  clear e e2
  rename_i h0
  clear h0
  induction u with
  | nil => cases h
  | cons c s ih =>
    simp only [condB, Bool.or_eq_true, beq_iff_eq, Bool.and_eq_true] at h
    rcases h with rfl | h
    · exact ⟨[], s, rfl, by simp⟩
    · obtain ⟨w, v, rfl, hw⟩ := ih h.2
      refine ⟨c :: w, v, rfl, ?_⟩
      intro d hd
      rcases List.mem_cons.1 hd with rfl | hd
      · exact h.1
      · exact hw d hd

end Verif.Html
