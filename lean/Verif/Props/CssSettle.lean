import Verif.Proofs.CssSettle
/-!
# C81: minifying a style sheet again and again comes to an end after three runs
-/
set_option linter.unusedSimpArgs false
namespace Verif.Css
open Verif.Spec.Css Verif.Spec

/-- C81, the full statement: if `css::minify` accepts a sheet, then it accepts its own results, and the third one is not changed any
more. -/
def C81_full : Prop := ∀ alpha : Char → Bool, AlphaOk alpha → ∀ s out, minify alpha s = .ok out →
  ∃ o, again (done alpha) 3 s = some o ∧ minify alpha o = .ok o

/-- It is false: a comment begins where the blank of `/ *=` has been. -/
theorem C81_full_false : ¬ C81_full := by
  intro h
  obtain ⟨o, h1, _⟩ := h asciiAlpha asciiAlpha_ok "/ *=".toList "/*=".toList (by decide +kernel)
  have : again (done asciiAlpha) 3 "/ *=".toList = none := by decide +kernel
  rw [this] at h1; cases h1

/-- C81, the part that holds: three runs are enough for every sheet that is accepted and has no `/ *=`. Missing: the sheets with
`/ *=`; the result of the first run may be rejected then, as above. -/
theorem C81_settles_partial (alpha : Char → Bool) (hA : AlphaOk alpha) (s out : List Char) (h : minify alpha s = .ok out)
    (hs : slashStarEq (segs (items s)).acc = false) :
    ∃ o, again (done alpha) 3 s = some o ∧ minify alpha o = .ok o := by
  obtain ⟨o2, o3, h1, h2, h3⟩ := settle_three hA h hs
  exact ⟨o3, by simp [again, done, h, h1, h2], h3⟩

/-- From then on further runs change nothing. -/
theorem C81_stays_partial (alpha : Char → Bool) (hA : AlphaOk alpha) (s out : List Char) (h : minify alpha s = .ok out)
    (hs : slashStarEq (segs (items s)).acc = false) : ∃ o, ∀ n, again (done alpha) (n + 3) s = some o := by
  obtain ⟨o2, o3, h1, h2, h3⟩ := settle_three hA h hs
  have hstay : ∀ k, again (done alpha) k o3 = some o3 := by
    intro k
    induction k with
    | zero => rfl
    | succ k ih => simp only [again, done, h3]; exact ih
  exact ⟨o3, fun n => by simp only [again, done, h, h1, h2, Option.bind_some]; exact hstay n⟩

/-- Two runs are enough for a sheet without ordinary comments. -/
theorem C81_plain_partial (alpha : Char → Bool) (hA : AlphaOk alpha) (s out : List Char) (h : minify alpha s = .ok out)
    (hs : slashStarEq (segs (items s)).acc = false) (hp : ∀ m ∈ (marks (items s)).acc, m.1 ≠ .comment) :
    ∃ o, again (done alpha) 2 s = some o ∧ minify alpha o = .ok o := by
  obtain ⟨o, h1, h2⟩ := settle_two hA h hs hp
  exact ⟨o, by simp [again, done, h, h1], h2⟩

/-- Two runs are not enough in general: the first one makes `@m` part of a pseudo-class, so that the second one finds `@n` where names
of at-rules are expected and prints a blank after it, which the third one keeps besides its own. -/
theorem C81_two_not_enough :
    minify asciiAlpha ":/**/@m x @n*".toList = .ok ":@m x @n*".toList ∧ minify asciiAlpha ":@m x @n*".toList = .ok ":@m x @n *".toList ∧
    minify asciiAlpha ":@m x @n *".toList = .ok ":@m x @n  *".toList ∧
    minify asciiAlpha ":@m x @n  *".toList = .ok ":@m x @n  *".toList := by decide +kernel

/-- One run is not enough for a sheet without comments. -/
theorem C81_one_not_enough :
    minify asciiAlpha "@m*".toList = .ok "@m *".toList ∧ minify asciiAlpha "@m *".toList = .ok "@m  *".toList ∧
    minify asciiAlpha "@m  *".toList = .ok "@m  *".toList := by decide +kernel

/-- These sheets meet the hypotheses. -/
example : slashStarEq (segs (items ":/**/@m x @n*".toList)).acc = false ∧ slashStarEq (segs (items "@m*".toList)).acc = false ∧
    (∀ m ∈ (marks (items "@m*".toList)).acc, m.1 ≠ .comment) ∧
    again (done asciiAlpha) 3 ":/**/@m x @n*".toList = some ":@m x @n  *".toList ∧
    again (done asciiAlpha) 3 "/* x */ a > b { c : calc( 1px + 2px ) /**/ ; }".toList = some "a>b{c:calc(1px + 2px );}".toList := by decide +kernel

end Verif.Css
