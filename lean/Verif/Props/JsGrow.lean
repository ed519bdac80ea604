import Verif.Proofs.JsSquare
import Verif.Props.JsMinify
import Verif.Spec.Again
/-!
# C82 and C83: how large the result of `js::minify` can be, after one run and after several
-/
set_option linter.unusedSimpArgs false
namespace Verif.Js
open Verif.Spec Verif.Spec.Js

/-! ## C82: one run -/

/-- C82: for every script, of any kind, the result has at most as many bytes as this quadratic bound allows. -/
theorem C82_bound (s out : List Char) (h : minify s = .ok out) : blen out ≤ (4 * blen s + 2) * (blen s + 22) := minify_big h

/-- No linear bound would do: after an unfinished regular expression the same text is printed again and again. -/
theorem C82_not_linear (c : Nat) : ∃ s out, minify s = .ok out ∧ c * (blen s + 1) < blen out := by
  obtain ⟨out, h1, h2⟩ := square_big (3 * c + 3)
  refine ⟨_, out, h1, Nat.lt_of_lt_of_le ?_ h2⟩
  rw [blen_square, show 3 * (3 * c + 3 + 1) + 2 + 1 = 9 * c + 15 by omega, show 3 * c + 3 + 1 = 3 * c + 4 by omega,
    Nat.add_mul (3 * c) 4, Nat.mul_assoc, Nat.mul_add c, Nat.mul_add c, ← Nat.mul_assoc c 9, Nat.mul_comm c 9, Nat.mul_assoc 9 c c,
    ← Nat.mul_assoc c 3, Nat.mul_comm c 3, Nat.mul_assoc 3 c c]
  omega

/-- One of these scripts: 20 bytes become 76. -/
example : minify "/).).).).).).\n))))))".toList =
    .ok "/).).).).).).\n)).).).).).\n))).).).).\n)))).).).\n))))).).\n)))))).\n))))))))))))".toList := by decide +kernel

/-! ## C83: several runs -/

/-- `js::minify` as a function that may fail. -/
def done (s : List Char) : Option (List Char) :=
  match minify s with
  | .ok out => some out
  | _ => none

/-- C83, the full statement: when a script is minified again and again, there is a run after which nothing changes any more. -/
def C83_full : Prop := ∀ s out, minify s = .ok out → ∃ n o, again done n s = some o ∧ minify o = .ok o

/-- Every run doubles the dots behind the line. -/
theorem C83_grows (m n : Nat) : again done n ("/.\n".toList ++ List.replicate (m + 1) '.') =
    some ("/.\n".toList ++ List.replicate (2 ^ n * (m + 1)) '.') := by
  have : ∀ n m, again done n (dots (m + 1)) = some (dots (2 ^ n * (m + 1))) := by
    intro n
    induction n with
    | zero => intro m; simp [again]
    | succ n ih =>
      intro m
      have h := ih (2 * m + 1)
      rw [again]
      simp only [done, dots_double, Option.bind_some]
      rw [show 2 * (m + 1) = 2 * m + 1 + 1 by omega, h, Nat.pow_succ, Nat.mul_assoc]
      congr 2
  exact this n m

/-- So it is false: the script with one dot is doubled and doubled. -/
theorem C83_full_false : ¬ C83_full := by
  intro h
  obtain ⟨n, o, h1, h2⟩ := h "/.\n.".toList "/.\n..".toList (by decide +kernel)
  have h3 := C83_grows 0 n
  rw [show "/.\n".toList ++ List.replicate (0 + 1) '.' = "/.\n.".toList from rfl, h1] at h3
  cases h3
  obtain ⟨m, hm⟩ : ∃ m, 2 ^ n = m + 1 := ⟨2 ^ n - 1, by have := Nat.two_pow_pos n; omega⟩
  have h4 := dots_double m
  rw [Nat.mul_one] at h2
  rw [show "/.\n".toList ++ List.replicate (2 ^ n) '.' = dots (m + 1) by rw [hm]; rfl, h4] at h2
  have h5 := congrArg (fun x => match x with | Out.ok l => List.length l | _ => 0) h2
  simp [dots] at h5
  omega

/-- C83, the part that holds: for a closed script whose minified form can be read, one run is enough. Missing: the other scripts; some
of them grow forever, as above. -/
theorem C83_settles_partial (s : List Char) (h : Closed s) (hs : Readable (lex s)) :
    ∃ o, (∀ n, again done (n + 1) s = some o) ∧ minify o = .ok o := by
  obtain ⟨out, h1, h2⟩ := C53_idempotent_partial s h hs
  refine ⟨out, ?_, h2⟩
  have hstay : ∀ k, again done k out = some out := by
    intro k
    induction k with
    | zero => rfl
    | succ k ih => simp only [again, done, h2]; exact ih
  intro n
  simp only [again, done, h1, Option.bind_some]
  exact hstay n

example : Closed sample ∧ Readable (lex sample) := sample_ok

end Verif.Js
