import Verif.Spec.CliMeaning
import Verif.Props.Cli
import Verif.Props.Json
import Verif.Proofs.JsonUnique
import Verif.Props.CssTokens
import Verif.Props.JsLines
/-!
# C76: the files that are written mean what the files that were read mean
-/
set_option linter.unusedSimpArgs false
namespace Verif.Cli
open Verif.Spec.Cli

/-- C76 as stated: the outputs of a run that is not hindered mean what the inputs mean. -/
def C76_full : Prop := ∀ (alpha : Char → Bool) (ext : Option FileType) (fs : FS), Css.AlphaOk alpha → Wf fs → ∀ (js : List Job),
  (∀ j ∈ js, j.Ok alpha fs ext ∧ Valid j.ty j.content) →
  (js.Pairwise fun i j => i.target ≠ j.target ∧ i.target ≠ j.source) →
  ∀ j ∈ js, ∃ t r, (run alpha none ext fs (js.map Job.path)).1.node j.target = some (.file (utf8 t) r true) ∧ Means j.ty j.content t

/-- A minified text means what the source means. -/
private theorem means_plain {alpha : Char → Bool} (hA : Css.AlphaOk alpha) {ty : FileType} {s t : List Char} (h : Minified alpha ty s t)
    (hp : Plain alpha ty s) : Means ty s t := by
  cases ty with
  | css => exact Css.C69_tokens_partial alpha hA s t h hp.1 hp.2.1 hp.2.2
  | js =>
    obtain ⟨h1, h2, h3, h4, h5⟩ := hp
    obtain ⟨out, ho, hl⟩ := Js.C71_kept_partial Spec.Ecma.usualRule Spec.Ecma.usual s h1 h2 h3
      (fun _ => ⟨Js.usual_blind, Js.usualRule_blind⟩) h4 h5
    have e : Js.minify s = .ok t := h
    rw [ho] at e
    cases e
    refine ⟨Spec.Ecma.semicolons (Spec.Js.lex s), fun p hp => ?_, hl⟩
    obtain ⟨out', ho', ht⟩ := Js.C70_tokens_partial Spec.Ecma.usual s h1 h2 h3 (fun _ => Js.usual_blind) h4
    have e1 : ((Spec.Ecma.lines Spec.Ecma.usualRule Spec.Ecma.usual s).map (·.2)) = Spec.Ecma.toks Spec.Ecma.usual s :=
      (Spec.Ecma.marked_toks _ _ _ _).trans (Spec.Ecma.parts_toks Spec.Ecma.usual _ _ _ (Nat.le_refl _))
    have hm := List.mem_map_of_mem (f := (·.2)) hp
    rw [List.map_take, e1, ht, List.take_append_of_le_length (by simp)] at hm
    exact List.eq_of_mem_replicate (List.mem_of_mem_take hm)
  | json =>
    intro v hv
    obtain ⟨w, hw, hg, hd⟩ := hp
    cases Json.text_unique hv hw
    have e : t = Json.minifyStr s := h
    rw [e]
    exact Json.C01_same_value_partial v s hv hg hd
  | unknown => exact h.elim

local instance {α β : Type} [DecidableEq α] [DecidableEq β] : DecidableEq (Except α β) := fun x y =>
  match x, y with
  | .ok a, .ok b => if h : a = b then isTrue (by rw [h]) else isFalse (fun e => h (Except.ok.inj e))
  | .error a, .error b => if h : a = b then isTrue (by rw [h]) else isFalse (fun e => h (Except.error.inj e))
  | .ok _, .error _ => isFalse (by simp)
  | .error _, .ok _ => isFalse (by simp)

private def oneFile : FS := ofList (base ++ [entry "a.js" "a + +b"])

/-- The blank between two operators is lost. -/
theorem C76_full_false : ¬C76_full := by
  intro h
  have ok : (job "a.js" "a.js" "a.min.js" "a + +b" "a++b" .js).Ok okLetters oneFile none := by
    refine job_of ?_ ?_ ?_ ?_ ?_ ?_ ⟨?_, ?_, ?_, ?_⟩ ?_ (.inr ⟨?_, ?_⟩) ?_ <;> decide +kernel
  obtain ⟨t, r, h1, k, -, h2⟩ := h okLetters none oneFile Css.asciiAlpha_ok (wf_ofList (by decide +kernel) (by decide +kernel) (by decide +kernel))
    [job "a.js" "a.js" "a.min.js" "a + +b" "a++b" .js] (by
      intro j hj
      simp only [List.mem_cons, List.not_mem_nil, or_false] at hj
      subst hj
      refine ⟨ok, ?_, ?_⟩
      · unfold Spec.Js.Closed; decide +kernel
      · exact List.all_eq_true.1 (by decide +kernel)) (by simp) _ List.mem_cons_self
  have h3 : (run okLetters none none oneFile ([job "a.js" "a.js" "a.min.js" "a + +b" "a++b" .js].map Job.path)).1.node
      (job "a.js" "a.js" "a.min.js" "a + +b" "a++b" .js).target = some (.file (utf8 "a++b".toList) true true) := by decide +kernel
  rw [h3] at h1
  have h4 : utf8 "a++b".toList = utf8 t := by injection h1 with h1; injection h1
  have h5 : "a++b".toList = t := by
    have := (decode_iff _ _).2 h4
    rw [(decode_iff _ _).2 rfl] at this
    exact Option.some.inj this
  subst h5
  have h6 := congrArg List.length h2
  rw [List.length_drop] at h6
  have h7 : (Spec.Ecma.lines Spec.Ecma.usualRule Spec.Ecma.usual "a++b".toList).length = 3 := by decide +kernel
  have h8 : (Spec.Ecma.lines Spec.Ecma.usualRule Spec.Ecma.usual "a + +b".toList).length = 4 := by decide +kernel
  have e : (job "a.js" "a.js" "a.min.js" "a + +b" "a++b" .js).content = "a + +b".toList := rfl
  rw [e, h8, h7] at h6
  have h9 : k = 1 := by omega
  rw [e, h9] at h2
  exact absurd h2 (by decide +kernel)

/-- C76, the part that holds: for the runs of C47 without `-o`, if the inputs are as C01, C69, C70 and C71 have them. -/
theorem C76_partial (alpha : Char → Bool) (ext : Option FileType) (fs : FS) (hA : Css.AlphaOk alpha) (hwf : Wf fs) (js : List Job)
    (hok : ∀ j ∈ js, j.Ok alpha fs ext ∧ Plain alpha j.ty j.content)
    (hd : js.Pairwise fun i j => i.target ≠ j.target ∧ i.target ≠ j.source) :
    ∀ j ∈ js, ∃ t r, (run alpha none ext fs (js.map Job.path)).1.node j.target = some (.file (utf8 t) r true) ∧
      Means j.ty j.content t :=
  fun j hj => ⟨_, _, (C47_all_partial alpha ext fs hwf js (fun j hj => (hok j hj).1) hd).2.1 j hj,
    means_plain hA (hok j hj).1.valid (hok j hj).2⟩

/-- Not vacuous: the files of the example for C47. -/
example : Css.AlphaOk okLetters ∧ Wf threeFiles ∧ (∀ j ∈ threeJobs, j.Ok okLetters threeFiles none ∧ Plain okLetters j.ty j.content) ∧
    threeJobs.Pairwise (fun i j => i.target ≠ j.target ∧ i.target ≠ j.source) := by
  refine ⟨Css.asciiAlpha_ok, three_wf, fun j hj => ⟨three_ok j hj, ?_⟩, by decide +kernel⟩
  simp only [threeJobs, List.mem_cons, List.not_mem_nil, or_false] at hj
  rcases hj with rfl | rfl | rfl
  · refine ⟨?_, ?_⟩
    · unfold Spec.Js.Closed; decide +kernel
    · decide +kernel
  · exact ⟨by decide +kernel, List.all_eq_true.1 (by decide +kernel), by decide +kernel⟩
  · have hn : Spec.Json.IsNumber ['1'] := ⟨[], ['1'], [], [], rfl, .inl rfl, .inr ⟨'1', [], rfl, by decide, by decide, by simp⟩, .inl rfl, .inl rfl⟩
    have hb : Spec.Json.IsWs [' '] := by intro c hc; simp at hc; exact .inl hc
    have h0 : Spec.Json.IsWs [] := by intro c hc; cases hc
    refine ⟨.arr (.cons (.num ['1']) .nil), ?_, ?_, ?_⟩
    · exact Spec.Json.Text.mk (w1 := []) (w2 := []) h0 (.arr (.one (.mk hb (.num hn) hb))) h0
    · simp [Spec.Json.AllStrings, Spec.Json.AllStringsE]
    · simp [Spec.Json.AllStrings, Spec.Json.AllStringsE]

/-- The same with `-o` and a directory. -/
theorem C76_outdir_partial (alpha : Char → Bool) (ext : Option FileType) (fs : FS) (hA : Css.AlphaOk alpha) (hwf : Wf fs) (op : Path)
    (hop : isDir fs op = true) (js : List OutJob) (hok : ∀ j ∈ js, j.Ok alpha fs op ext ∧ Plain alpha j.ty j.content)
    (hd : js.Pairwise (OutJob.Apart fs)) :
    ∀ j ∈ js, ∃ t r, (run alpha (some op) ext fs (js.map OutJob.path)).1.node (j.target fs) = some (.file (utf8 t) r true) ∧
      Means j.ty j.content t :=
  fun j hj => ⟨_, _, (C47_outdir_partial alpha ext fs hwf op hop js (fun j hj => (hok j hj).1) hd).2.1 j hj,
    means_plain hA (hok j hj).1.valid (hok j hj).2⟩

/-- Not vacuous. -/
example : Wf outFiles ∧ isDir outFiles (lit "out") = true ∧
    (∀ j ∈ outJobs, j.Ok okLetters outFiles (lit "out") none ∧ Plain okLetters j.ty j.content) ∧ outJobs.Pairwise (OutJob.Apart outFiles) := by
  refine ⟨outFiles_wf, by decide +kernel, fun j hj => ⟨out_ok j hj, ?_⟩, ?_⟩
  · simp only [outJobs, List.mem_cons, List.not_mem_nil, or_false] at hj
    rcases hj with rfl | rfl
    · refine ⟨?_, ?_⟩
      · unfold Spec.Js.Closed; decide +kernel
      · decide +kernel
    · exact ⟨by decide +kernel, List.all_eq_true.1 (by decide +kernel), by decide +kernel⟩
  · unfold OutJob.Apart
    decide +kernel

end Verif.Cli
