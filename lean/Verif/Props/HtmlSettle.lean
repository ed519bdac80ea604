import Verif.Proofs.HtmlSettle
/-!
# C80: minifying a page again and again comes to an end
-/
set_option linter.unusedSimpArgs false
namespace Verif.Html
open Verif.Spec.Html Verif.Spec

/-- C80: after at most `2 * bytes s + 1` runs `html::minify` does not change the page any more, and nothing of what it is to remove is left
in it. (One run is not always enough, see `C78_full_false`.) -/
theorem C80_settles {T : Tables} (hT : T.Ok) (s : List Char) :
    ∃ n o, n ≤ 2 * bytes s + 1 ∧ again (minify T) n s = some o ∧ minify T o = some o ∧ Minimal o := by
  obtain ⟨n, o, h1, h2, h3⟩ := settles hT (bytes s) s (Nat.le_refl _)
  exact ⟨n, o, h1, h2, h3, minimal_of hT h3⟩

/-- From then on further runs change nothing. -/
theorem C80_stays {T : Tables} (hT : T.Ok) (s : List Char) :
    ∃ o, Minimal o ∧ ∀ n, 2 * bytes s + 1 ≤ n → again (minify T) n s = some o := by
  obtain ⟨n, o, h1, h2, h3, h4⟩ := C80_settles hT s
  refine ⟨o, h4, fun m hm => ?_⟩
  have hstay : ∀ k, again (minify T) k o = some o := by
    intro k
    induction k with
    | zero => rfl
    | succ k ih => rw [again, h3]; exact ih
  have hadd : ∀ (j k : Nat) (s : List Char), again (minify T) (j + k) s = (again (minify T) j s).bind (again (minify T) k) := by
    intro j k
    induction j with
    | zero => intro s; rw [Nat.zero_add]; rfl
    | succ j ih =>
      intro s
      rw [show j + 1 + k = j + k + 1 by omega, again, again]
      cases minify T s with
      | none => rfl
      | some x => exact ih x
  rw [show m = n + (m - n) by omega, hadd, h2]
  exact hstay _

/-- No fixed number of runs is enough: for every `k` there is a page of `6 * k + 6` characters that is still changed by the run
after the first `k`. -/
theorem C80_no_bound (T : Tables) (k : Nat) :
    ∃ s o, s.length = 6 * k + 6 ∧ again (minify T) k s = some o ∧ minify T o ≠ some o := by
  refine ⟨deep (k + 1), deep 1, by rw [deep_length]; omega, deep_again T k 1, ?_⟩
  rw [deep_step]
  simp [deep]

/-- Two pages that take their time. -/
example : again (minify ascii) 3 "<bo<bo<body>dy>dy>".toList = some [] ∧ again (minify ascii) 2 "<bo<bo<body>dy>dy>".toList = some "<body>".toList ∧
    again (minify ascii) 2 "<script a\ntype=\"b\">".toList = some "<script a>".toList ∧
    minify ascii "<script a>".toList = some "<script a>".toList := by decide +kernel

end Verif.Html
