import Verif.Proofs.EcmaHashbang
/-!
# C79: js::minify and hashbang comments
-/
set_option linter.unusedSimpArgs false
namespace Verif.Js
open Spec.Js Spec.Ecma

/-- C79 as stated: a script with a hashbang comment still has one, and the code after it has the same tokens. -/
def C79_full : Prop := ∀ (goal : List Spec.Ecma.Tok → Bool) (s : List Char), Closed s → Hashbang s → (∀ t ∈ toks goal (code s), good t = true) →
  ∃ out, minify s = .ok out ∧ Hashbang out ∧ toks goal (code out) = toks goal (code s)

/-- C79 is false: `#!/bin/x` and `f()` on the next line become `#!/bin/x f()`, which is all comment. -/
theorem C79_full_false : ¬C79_full := by
  intro h
  obtain ⟨out, h1, -, h2⟩ := h (fun _ => false) "#!/bin/x\nf()".toList (by unfold Closed; decide +kernel) ⟨_, rfl⟩ (by decide +kernel)
  have hm : minify "#!/bin/x\nf()".toList = .ok "#!/bin/x f()".toList := by decide +kernel
  rw [hm] at h1
  cases h1
  exact absurd h2 (by decide +kernel)

/-- The first half of C79 holds: the output begins with `#!` again. -/
theorem C79_begins {s : List Char} (h : Closed s) (hb : Hashbang s) : ∃ out, minify s = .ok out ∧ Hashbang out :=
  ⟨_, minify_closed h, minimal_hashbang h hb⟩

/-- The second half fails for nearly all scripts: unless a literal, a regular expression or a licence has a line break in it, nothing of the
output is code. -/
theorem C79_lost {s : List Char} (h : Closed s) (hb : Hashbang s)
    (hl : ∀ l ∈ lex s, solid l = true → ∀ c ∈ text l, lineEnd c = false) : ∃ out, minify s = .ok out ∧ code out = [] :=
  ⟨_, minify_closed h, code_nil (minimal_hashbang h hb) (minimal_lines hl)⟩

/-- C79, the part that holds: for such scripts the tokens are the same exactly if there are none. Missing: scripts with line breaks in
literals or licences, of which the part after the first one is left. -/
theorem C79_iff_partial (goal : List Spec.Ecma.Tok → Bool) {s : List Char} (h : Closed s) (hb : Hashbang s)
    (hl : ∀ l ∈ lex s, solid l = true → ∀ c ∈ text l, lineEnd c = false) :
    ∃ out, minify s = .ok out ∧ (toks goal (code out) = toks goal (code s) ↔ toks goal (code s) = []) := by
  obtain ⟨out, h1, h2⟩ := C79_lost h hb hl
  refine ⟨out, h1, ?_⟩
  rw [h2]
  have : toks goal [] = [] := rfl
  rw [this]
  exact ⟨Eq.symm, Eq.symm⟩

/-- A script of this kind with code, and one without. -/
example : (∀ s ∈ ["#!/usr/bin/env node\n'use strict'\nconst a = 1; // b\n", "#!/usr/bin/env node\n// a\n"].map String.toList, Closed s ∧ Hashbang s ∧
      ∀ l ∈ lex s, solid l = true → ∀ c ∈ text l, lineEnd c = false) ∧
    minify "#!/usr/bin/env node\n'use strict'\nconst a = 1; // b\n".toList = .ok "#!/usr/bin/env node'use strict'const a=1;".toList ∧
    (toks (fun _ => false) (code "#!/usr/bin/env node\n'use strict'\nconst a = 1; // b\n".toList)).length = 6 ∧
    toks (fun _ => false) (code "#!/usr/bin/env node\n// a\n".toList) = [] := by
  refine ⟨?_, by decide +kernel, by decide +kernel, by decide +kernel⟩
  intro s hs
  simp only [List.map_cons, List.map_nil, List.mem_cons, List.not_mem_nil, or_false] at hs
  rcases hs with rfl | rfl
  · exact ⟨by unfold Closed; decide +kernel, ⟨_, rfl⟩, by decide +kernel⟩
  · exact ⟨by unfold Closed; decide +kernel, ⟨_, rfl⟩, by decide +kernel⟩

/-- With a line break in a template literal, what follows it is read as other tokens. -/
example : minify "#!x\ny = `a\nb` + 1".toList = .ok "#!x y=`a\nb`+1".toList ∧ code "#!x y=`a\nb`+1".toList = "b`+1".toList := by
  decide +kernel

end Verif.Js
