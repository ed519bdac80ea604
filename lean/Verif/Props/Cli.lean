import Verif.Proofs.CliFs
import Verif.Proofs.CliMake
/-!
# Properties of the command line program: C45 - C48, C57 - C59
-/
set_option linter.unusedSimpArgs false
namespace Verif.Cli
open Verif.Spec.Cli

/-! ## File systems for the examples -/

/-- A file system with the given nodes; the working directory is `/w`. -/
def ofList (xs : List (Loc × Node)) (room : Loc → Option Nat := fun _ => none) : FS :=
  { node := fun l => xs.lookup l, cwd := [lit "w"], room := room }

private theorem lookup_mem {xs : List (Loc × Node)} {l : Loc} {n : Node} (h : xs.lookup l = some n) : (l, n) ∈ xs := by
  induction xs with
  | nil => simp at h
  | cons x xs ih =>
    obtain ⟨k, m⟩ := x
    rw [List.lookup_cons] at h
    by_cases e : l = k
    · subst e; simp at h; simp [h]
    · rw [beq_eq_false_iff_ne.2 e] at h; exact List.mem_cons_of_mem _ (ih h)

theorem wf_ofList {xs : List (Loc × Node)} {room : Loc → Option Nat}
    (h : ∀ x ∈ xs, (ofList xs).isDirAt x.1 = true → (ofList xs).isDirAt x.1.tail = true)
    (h0 : (ofList xs).isDirAt [] = true) (h1 : (ofList xs).isDirAt [lit "w"] = true) : Wf (ofList xs room) := by
  refine ⟨h0, ?_, h1⟩
  intro l hl
  obtain ⟨w, hw⟩ := isDirAt_some.1 hl
  exact h _ (lookup_mem hw) hl

local instance {α β : Type} [DecidableEq α] [DecidableEq β] : DecidableEq (Except α β) := fun x y =>
  match x, y with
  | .ok a, .ok b => if h : a = b then isTrue (by rw [h]) else isFalse (fun e => h (Except.ok.inj e))
  | .error a, .error b => if h : a = b then isTrue (by rw [h]) else isFalse (fun e => h (Except.error.inj e))
  | .ok _, .error _ => isFalse (by simp)
  | .error _, .ok _ => isFalse (by simp)

/-- `/` and `/w`. -/
def base : List (Loc × Node) := [([], .dir true), ([lit "w"], .dir true)]

/-- A file in `/w`. -/
def entry (name content : String) : Loc × Node := ([lit name, lit "w"], .file (lit content) true true)

def okLetters : Char → Bool := fun c => c.isAlpha

/-! ## C45: types -/

/-- C45, first part: the type of a path is given by its extension, up to the case of its letters. -/
theorem C45_types (p : Path) (t : FileType) (ht : t ≠ .unknown) :
    FileType.of p = some t ↔ ∃ e, PathExt p e ∧ CaseOf e t.asStr := fileType_iff p t ht

example : FileType.of (lit "/x.css/a.b.jS//.") = some .js ∧ FileType.of (lit ".css") = some .unknown ∧
    FileType.of (lit "a.css/..") = some .unknown := by decide +kernel

/-- The `-t` option: exactly the three names. -/
theorem C45_parse (s : Bytes) (t : FileType) : FileType.parse s = some t ↔ t ≠ .unknown ∧ s = t.asStr := by
  unfold FileType.parse
  constructor
  · intro h
    have h1 := List.find?_some h
    have h2 := List.mem_of_find?_eq_some h
    refine ⟨?_, by simpa using (beq_iff_eq.1 h1).symm⟩
    rintro rfl
    simp at h2
  · rintro ⟨h, rfl⟩
    cases t with
    | css => decide +kernel
    | js => decide +kernel
    | json => decide +kernel
    | unknown => exact absurd rfl h

/-- C45 as stated, for paths of no known type. -/
def C45_full : Prop :=
  ∀ (alpha : Char → Bool) (fs : FS) (p : Path) (out : Option Path), (∀ t, ¬ TypeOf p none t) →
    writeOutFile alpha fs p out none = (fs, .unknown)

/-- It is false: an extension that is not UTF-8 stops the program. -/
theorem C45_full_false : ¬ C45_full := by
  intro h
  have h1 := h okLetters (ofList base) [97, 46, 255] none (by
    intro t ht
    have := ((chosen_iff _ _ _).2 ht).1
    have e : chosen [97, 46, 255] none = none := by decide +kernel
    rw [e] at this; simp at this)
  have h2 := congrArg Prod.snd h1
  have e : (writeOutFile okLetters (ofList base) [97, 46, 255] none none).2 = .panic := by decide +kernel
  rw [e] at h2
  exact absurd h2 (by decide)

/-- C45, the part that holds: a path that has no extension, or one that is UTF-8 but is no known one, is skipped. Missing:
extensions that are not UTF-8. -/
theorem C45_skipped_partial (alpha : Char → Bool) (fs : FS) (p : Path) (out : Option Path) (h : ∀ t, ¬ TypeOf p none t)
    (hu : ∀ e, PathExt p e → ∃ s, e = utf8 s) : writeOutFile alpha fs p out none = (fs, .unknown) := by
  have hne : FileType.of p ≠ none := by
    intro e
    obtain ⟨x, h1, h2⟩ := (fileType_none p).1 e
    exact h2 (hu x h1)
  rw [writeOut_eq]
  cases hc : chosen p none with
  | none => exact absurd hc hne
  | some t =>
    simp only
    by_cases ht : t = .unknown
    · rw [if_pos (by simp [ht])]
    · exact absurd ((chosen_iff p none t).1 ⟨hc, ht⟩) (h t)

example : (∀ t, ¬ TypeOf (lit "a.html") none t) ∧ ∀ e, PathExt (lit "a.html") e → ∃ s, e = utf8 s := by
  constructor
  · intro t ht
    have := ((chosen_iff _ _ _).2 ht)
    have e : chosen (lit "a.html") none = some .unknown := by decide +kernel
    rw [e] at this
    exact this.2 (by simpa using this.1.symm)
  · intro e h
    have := (extension_iff _ _).2 h
    have e' : extension (lit "a.html") = some (lit "html") := by decide +kernel
    rw [e'] at this
    have : lit "html" = e := by simpa using this
    exact ⟨"html".toList, by rw [← this]; decide +kernel⟩

/-- The other paths of no known type stop the program, and that is all they do. -/
theorem C45_panic (alpha : Char → Bool) (fs : FS) (p : Path) (out : Option Path)
    (h : ∃ e, PathExt p e ∧ ¬ ∃ s, e = utf8 s) : writeOutFile alpha fs p out none = (fs, .panic) := by
  rw [writeOut_eq, show chosen p none = none from (fileType_none p).2 h]

example : ∃ e, PathExt [97, 46, 255] e ∧ ¬ ∃ s, e = utf8 s :=
  ⟨[255], (extension_iff _ _).1 (by decide +kernel), (decode_none _).1 (by decide +kernel)⟩

/-- With `-t` the extension plays no part in the choice of the minifier. -/
theorem C45_option (alpha : Char → Bool) (fs : FS) (hwf : Wf fs) (p : Path) (out : Option Path) (t : FileType)
    (h : (writeOutFile alpha fs p out (some t)).2 = .done) :
    ∃ s text l k w r, resolve fs p = .ok l ∧ fs.node l = some (.file (utf8 s) true w) ∧ Minified alpha t s text ∧
      (writeOutFile alpha fs p out (some t)).1.node k = some (.file (utf8 text) r true) := by
  obtain ⟨t', s, text, l, k, w, r, h1, h2, h3, h4, -, h6⟩ := (writeOut_spec alpha hwf p out (some t)).2 h
  have e : t = t' := h1.2
  subst e
  exact ⟨s, text, l, k, w, r, h2, h3, h4, h6⟩

example :
    let fs := ofList (base ++ [entry "a.css" "[ 1, 2 ]"])
    let r := writeOutFile okLetters fs (lit "a.css") none (some .json)
    r.2 = .done ∧ r.1.node [lit "a.min.json", lit "w"] = some (.file (lit "[1,2]") true true) := by decide +kernel

/-! ## C46: where the output goes -/

/-- C46 for paths: the output path is the input path with the extension replaced, and is another path. -/
theorem C46_path (p pre : Path) (n stem : Name) (t : FileType) (h : Names p pre n) (hs : Stem n stem) :
    setExtension p (minExt t) = pre ++ stem ++ lit ".min." ++ t.asStr ∧ setExtension p (minExt t) ≠ p := by
  have hm := minName_eq hs t
  have hset := setExtension_names h hs (minExt t)
  constructor
  · rw [hset]
    have : lit ".min." = dot :: lit "min." := by decide +kernel
    rw [this]
    simp [minExt]
  · intro e
    obtain ⟨tr, hp, hl, hn, ht⟩ := id h
    have hname := minName_isName hm hn.2.1
    have h2 : Names p pre (stem ++ dot :: minExt t) := ⟨[], by rw [← e, hset]; simp, hl, hname, .nil⟩
    exact minName_ne hm (names_unique h2 h)

example : setExtension (lit "../x.d/a.tar.gz/./") (minExt .css) = lit "../x.d/a.tar.min.css" ∧
    Names (lit "../x.d/a.tar.gz/./") (lit "../x.d/") (lit "a.tar.gz") ∧ Stem (lit "a.tar.gz") (lit "a.tar") := by
  refine ⟨by decide +kernel, ⟨lit "/./", by decide +kernel, .inr ⟨lit "../x.d", by decide +kernel⟩,
    ⟨by decide +kernel, by decide +kernel, by decide +kernel, by decide +kernel⟩, ?_⟩, .inr ⟨lit "gz", by decide +kernel, by decide +kernel, by decide +kernel⟩⟩
  have : lit "/./" = [47, 46, 47] := by decide +kernel
  rw [this]
  exact .cur (.sep .nil)

/-- C46 for files: without `-o`, processing a file changes at most the one beside it that has the new name, never the file
itself. -/
theorem C46_beside (alpha : Char → Bool) (fs : FS) (hwf : Wf fs) (p : Path) (ext : Option FileType) (l : Loc) (nd : Bytes)
    (r w : Bool) (hr : resolve fs p = .ok l) (hf : fs.node l = some (.file nd r w)) :
    ∃ n d, l = n :: d ∧ ∀ k, (writeOutFile alpha fs p none ext).1.node k ≠ fs.node k →
      ∃ t n', TypeOf p ext t ∧ MinName n t.asStr n' ∧ k = n' :: d ∧ n' ≠ n := by
  obtain ⟨pre, n, d, hp, rfl, -, -⟩ := resolve_file hwf hr (node_file_not_dir hf)
  refine ⟨n, d, rfl, fun k hk => ?_⟩
  have ht : Target fs none ext p k := by
    by_cases h : Target fs none ext p k
    · exact h
    · exact absurd (writeOut_frame alpha hwf p ext k h) hk
  obtain ⟨t, o, h1, h2, h3⟩ := id ht
  obtain ⟨stem, hs⟩ := stem_exists n
  have hm := minName_eq hs t
  refine ⟨t, _, h1, hm, ?_, minName_ne hm⟩
  exact ((target_beside hwf h1 hr (node_file_not_dir hf) hm).2.2.2 k).1 ht

example :
    let fs := ofList (base ++ [([lit "d", lit "w"], .dir true), ([lit "a.CSS", lit "d", lit "w"], .file (lit "a { }") true true)])
    Wf fs ∧ resolve fs (lit "d/../d/a.CSS") = .ok [lit "a.CSS", lit "d", lit "w"] ∧
    (writeOutFile okLetters fs (lit "d/../d/a.CSS") none none).1.node [lit "a.min.css", lit "d", lit "w"] =
      some (.file (lit "a{}") true true) := by
  refine ⟨wf_ofList (by decide +kernel) (by decide +kernel) (by decide +kernel), by decide +kernel, by decide +kernel⟩

/-! ## C47: several files -/

/-- C47 as stated (without `-o`): if every input is in place, then every output holds what its own input gives. -/
def C47_full : Prop :=
  ∀ (alpha : Char → Bool) (ext : Option FileType) (fs : FS), Wf fs → ∀ js : List Job, (∀ j ∈ js, j.Ok alpha fs ext) →
    ∀ j ∈ js, ∃ r, (run alpha none ext fs (js.map Job.path)).1.node j.target = some (.file (utf8 j.text) r true)

private def twoFiles : FS := ofList (base ++ [entry "a.js" "x", entry "a.JS" "y"])

private theorem stem_a (e : String) (h : lit ("a." ++ e) = [97] ++ 46 :: lit e) (h' : 46 ∉ lit e) :
    Stem (lit ("a." ++ e)) [97] := .inr ⟨lit e, h, by simp, h'⟩

theorem job_of {alpha : Char → Bool} {fs : FS} {ext : Option FileType} {j : Job}
    (h1 : chosen j.path ext = some j.ty) (h1' : j.ty ≠ .unknown) (h2 : resolve fs j.path = .ok j.source)
    (h3 : fs.node j.source = some (.file (utf8 j.content) true true)) (h4 : minifyAs alpha j.ty j.content = .ok j.text)
    (h5 : fileStem j.name = some (j.minName.take (j.minName.length - (minExt j.ty).length - 1)))
    (h5' : IsName j.name) (h5'' : j.minName.drop (j.minName.length - (minExt j.ty).length - 1) = dot :: minExt j.ty)
    (h6 : (∃ d r, fs.node j.target = some (.file d r true)) ∨ (fs.node j.target = none ∧ fs.node j.dir = some (.dir true)))
    (h7 : fs.room j.target = none) : j.Ok alpha fs ext := by
  refine ⟨(chosen_iff _ _ _).1 ⟨h1, h1'⟩, h2, ⟨_, h3⟩, (minifyAs_iff _ _ _ _).1 h4, ?_, h6, by rw [h7]; simp⟩
  obtain ⟨stem, hs⟩ := stem_exists j.name
  have e := fileStem_names (p := j.name) (pre := []) ⟨[], by simp, .inl rfl, h5', .nil⟩ hs
  rw [h5] at e
  have e : j.minName.take (j.minName.length - (minExt j.ty).length - 1) = stem := by simpa using e
  have : j.minName = stem ++ dot :: minExt j.ty := by
    rw [← e, ← h5'', List.take_append_drop]
  rw [this]
  exact minName_eq hs j.ty

def job (path name min content text : String) (ty : FileType) : Job :=
  { path := lit path, ty := ty, name := lit name, dir := [lit "w"], content := content.toList, text := text.toList,
    minName := lit min }

/-- C47 is false: `a.js` and `a.JS` share the output `a.min.js`. -/
theorem C47_full_false : ¬ C47_full := by
  intro h
  have ok1 : (job "a.js" "a.js" "a.min.js" "x" "x" .js).Ok okLetters twoFiles none := by
    refine job_of ?_ ?_ ?_ ?_ ?_ ?_ ⟨?_, ?_, ?_, ?_⟩ ?_ (.inr ⟨?_, ?_⟩) ?_ <;> decide +kernel
  have ok2 : (job "a.JS" "a.JS" "a.min.js" "y" "y" .js).Ok okLetters twoFiles none := by
    refine job_of ?_ ?_ ?_ ?_ ?_ ?_ ⟨?_, ?_, ?_, ?_⟩ ?_ (.inr ⟨?_, ?_⟩) ?_ <;> decide +kernel
  obtain ⟨r, hr⟩ := h okLetters none twoFiles (wf_ofList (by decide +kernel) (by decide +kernel) (by decide +kernel))
    [job "a.js" "a.js" "a.min.js" "x" "x" .js, job "a.JS" "a.JS" "a.min.js" "y" "y" .js] (by
      intro j hj
      simp only [List.mem_cons, List.not_mem_nil, or_false] at hj
      rcases hj with rfl | rfl
      · exact ok1
      · exact ok2) (job "a.js" "a.js" "a.min.js" "x" "x" .js) (by simp)
  have e : (run okLetters none none twoFiles [lit "a.js", lit "a.JS"]).1.node [lit "a.min.js", lit "w"] =
      some (.file (lit "y") true true) := by decide +kernel
  have hr' : (run okLetters none none twoFiles [lit "a.js", lit "a.JS"]).1.node [lit "a.min.js", lit "w"] =
      some (.file (utf8 "x".toList) r true) := hr
  rw [e] at hr'
  simp only [Option.some.injEq, Node.file.injEq] at hr'
  exact absurd hr'.1 (by decide +kernel)

/-- More that goes wrong: with `-o` naming a file all outputs go there; a file that comes after the one it is the output of
is read when it has changed; an absolute path ignores the directory given with `-o`. -/
theorem C47_full_false_more :
    (let fs := ofList (base ++ [entry "a.js" "x", entry "b.js" "y"])
     let r := run okLetters (some (lit "o.js")) none fs [lit "a.js", lit "b.js"]
     r.2 = [.done, .done] ∧ r.1.node [lit "o.js", lit "w"] = some (.file (lit "y") true true)) ∧
    (let fs := ofList (base ++ [entry "a.js" "x", entry "a.min.js" "y"])
     let r := run okLetters none none fs [lit "a.js", lit "a.min.js"]
     r.2 = [.done, .done] ∧ r.1.node [lit "a.min.min.js", lit "w"] = some (.file (lit "x") true true)) ∧
    (let fs := ofList (base ++ [entry "a.js" "x", ([lit "out", lit "w"], .dir true)])
     let r := run okLetters (some (lit "out")) none fs [lit "/w/a.js"]
     r.2 = [.done] ∧ r.1.node [lit "a.min.js", lit "w"] = some (.file (lit "x") true true) ∧
     r.1.node [lit "a.min.js", lit "out", lit "w"] = none) := by decide +kernel

/-- C47, what is reported as done: the output holds the minified content of its own input, provided that no output is the
output or a later input of another file. Holds without `-o` and with `-o` naming a directory. -/
theorem C47_done_partial (alpha : Char → Bool) (out : Option Path) (ext : Option FileType) (fs : FS) (hwf : Wf fs)
    (hm : ∀ op, out = some op → isDir fs op = true) (ps : List Path)
    (hd : ps.Pairwise fun p q => ∀ k, Target fs out ext p k → ¬ Target fs out ext q k ∧ k ≠ place fs.cwd q) (p : Path)
    (h : (p, Note.done) ∈ ps.zip (run alpha out ext fs ps).2) :
    ∃ t s text k w r, TypeOf p ext t ∧ fs.node (place fs.cwd p) = some (.file (utf8 s) true w) ∧
      Minified alpha t s text ∧ Target fs out ext p k ∧
      (run alpha out ext fs ps).1.node k = some (.file (utf8 text) r true) := run_done alpha ext hwf hm ps hd p h

/-- C47, the rest of the file system: whatever happens, nothing changes but the outputs and missing directories, which may
have been created. -/
theorem C47_rest_partial (alpha : Char → Bool) (out : Option Path) (ext : Option FileType) (fs : FS) (hwf : Wf fs)
    (hm : ∀ op, out = some op → isDir fs op = true) (ps : List Path) (l : Loc)
    (hl : ∀ p ∈ ps, ¬ Target fs out ext p l) :
    (∀ nd, fs.node l = some nd → (run alpha out ext fs ps).1.node l = some nd) ∧
    (fs.node l = none → (run alpha out ext fs ps).1.node l = none ∨ ∃ w, (run alpha out ext fs ps).1.node l = some (.dir w)) ∧
    (out = none → (run alpha out ext fs ps).1.node l = fs.node l) := by
  have hc := run_change alpha ext hwf hm ps
  have hl' : ¬ ∃ p ∈ ps, Target fs out ext p l := fun ⟨p, hp, ht⟩ => hl p hp ht
  refine ⟨fun nd h => hc.keep l nd hl' h, fun h => hc.new l hl' h, ?_⟩
  rintro rfl
  exact run_frame alpha ext hwf ps l hl

example :
    let fs := ofList (base ++ [entry "a.js" "x", ([lit "out", lit "w"], .dir true), ([lit "d", lit "w"], .dir true),
      ([lit "b.css", lit "d", lit "w"], .file (lit "b { }") true true)])
    let r := run okLetters (some (lit "out")) none fs [lit "a.js", lit "c.js", lit "d/b.css"]
    r.2 = [.done, .readError, .done] ∧ isDir fs (lit "out") = true ∧
    r.1.node [lit "d", lit "out", lit "w"] = some (.dir true) ∧
    r.1.node [lit "b.min.css", lit "d", lit "out", lit "w"] = some (.file (lit "b{}") true true) := by decide +kernel

/-- C47, when it is known beforehand (without `-o`): if every input is in place, and no output is the output or a later input
of another file, then all is done and nothing else changes. -/
theorem C47_all_partial (alpha : Char → Bool) (ext : Option FileType) (fs : FS) (hwf : Wf fs) (js : List Job)
    (hok : ∀ j ∈ js, j.Ok alpha fs ext) (hd : js.Pairwise fun i j => i.target ≠ j.target ∧ i.target ≠ j.source) :
    (run alpha none ext fs (js.map Job.path)).2 = js.map (fun _ => Note.done) ∧
    (∀ j ∈ js, (run alpha none ext fs (js.map Job.path)).1.node j.target =
      some (.file (utf8 j.text) (readable fs j.target) true)) ∧
    (∀ l, (∀ j ∈ js, l ≠ j.target) → (run alpha none ext fs (js.map Job.path)).1.node l = fs.node l) :=
  run_ok alpha ext hwf js hok hd

def threeFiles : FS :=
  ofList (base ++ [entry "a.js" "var x = 1 ;", entry "b.css" "a { }", entry "c.Json" "[ 1 ]", entry "a.min.js" "old"])

def threeJobs : List Job :=
  [job "a.js" "a.js" "a.min.js" "var x = 1 ;" "var x=1;" .js, job "./b.css" "b.css" "b.min.css" "a { }" "a{}" .css,
    job "/w/c.Json" "c.Json" "c.min.json" "[ 1 ]" "[1]" .json]

theorem three_ok : ∀ j ∈ threeJobs, j.Ok okLetters threeFiles none := by
  have ok1 : (job "a.js" "a.js" "a.min.js" "var x = 1 ;" "var x=1;" .js).Ok okLetters threeFiles none := by
    refine job_of ?_ ?_ ?_ ?_ ?_ ?_ ⟨?_, ?_, ?_, ?_⟩ ?_ (.inl ⟨lit "old", true, ?_⟩) ?_ <;> decide +kernel
  have ok2 : (job "./b.css" "b.css" "b.min.css" "a { }" "a{}" .css).Ok okLetters threeFiles none := by
    refine job_of ?_ ?_ ?_ ?_ ?_ ?_ ⟨?_, ?_, ?_, ?_⟩ ?_ (.inr ⟨?_, ?_⟩) ?_ <;> decide +kernel
  have ok3 : (job "/w/c.Json" "c.Json" "c.min.json" "[ 1 ]" "[1]" .json).Ok okLetters threeFiles none := by
    refine job_of ?_ ?_ ?_ ?_ ?_ ?_ ⟨?_, ?_, ?_, ?_⟩ ?_ (.inr ⟨?_, ?_⟩) ?_ <;> decide +kernel
  intro j hj
  simp only [threeJobs, List.mem_cons, List.not_mem_nil, or_false] at hj
  rcases hj with rfl | rfl | rfl
  · exact ok1
  · exact ok2
  · exact ok3

theorem three_wf : Wf threeFiles := wf_ofList (by decide +kernel) (by decide +kernel) (by decide +kernel)

example : Wf threeFiles ∧ (∀ j ∈ threeJobs, j.Ok okLetters threeFiles none) ∧
    threeJobs.Pairwise (fun i j => i.target ≠ j.target ∧ i.target ≠ j.source) := ⟨three_wf, three_ok, by decide +kernel⟩

/-- C47 with `-o` for a single file, be `-o` a directory or not: if everything is in place, the missing directories are created,
the output is written and nothing else changes. -/
theorem C47_out_partial (alpha : Char → Bool) (ext : Option FileType) (fs : FS) (hwf : Wf fs) (op : Path) (j : OutJob)
    (hok : j.Ok alpha fs op ext) :
    (run alpha (some op) ext fs [j.path]).2 = [.done] ∧
    (run alpha (some op) ext fs [j.path]).1.node (j.target fs) =
      some (.file (utf8 j.text) (readable fs (j.target fs)) true) ∧
    (∀ l, l ≠ j.target fs → (run alpha (some op) ext fs [j.path]).1.node l = fs.node l ∨
      (l <:+ j.dir fs ∧ fs.node l = none ∧ (run alpha (some op) ext fs [j.path]).1.node l = some (.dir true))) := by
  obtain ⟨h1, h2, h3⟩ := writeOut_out hwf hok
  rw [run_cons, if_neg (by rw [h1]; decide), h1]
  exact ⟨rfl, h2, h3⟩

/-- C47 with `-o` for a directory and any number of files: if everything is in place for all of them and they do not get in each
other's way, the missing directories are created, all outputs are written and nothing else changes. -/
theorem C47_outdir_partial (alpha : Char → Bool) (ext : Option FileType) (fs : FS) (hwf : Wf fs) (op : Path)
    (hop : isDir fs op = true) (js : List OutJob) (hok : ∀ j ∈ js, j.Ok alpha fs op ext)
    (hd : js.Pairwise (OutJob.Apart fs)) :
    (run alpha (some op) ext fs (js.map OutJob.path)).2 = js.map (fun _ => Note.done) ∧
    (∀ j ∈ js, (run alpha (some op) ext fs (js.map OutJob.path)).1.node (j.target fs) =
      some (.file (utf8 j.text) (readable fs (j.target fs)) true)) ∧
    (∀ l, (∀ j ∈ js, l ≠ j.target fs) → (run alpha (some op) ext fs (js.map OutJob.path)).1.node l = fs.node l ∨
      ((∃ j ∈ js, l <:+ j.dir fs) ∧ fs.node l = none ∧
        (run alpha (some op) ext fs (js.map OutJob.path)).1.node l = some (.dir true))) :=
  run_out alpha ext hwf hop js hok hd

def outFiles : FS :=
  ofList (base ++ [([lit "s", lit "w"], .dir false), ([lit "d", lit "s", lit "w"], .dir true), ([lit "out", lit "w"], .dir true),
    ([lit "a.js", lit "s", lit "w"], .file (lit "var x = 1 ;") true false),
    ([lit "b.css", lit "d", lit "s", lit "w"], .file (lit "a { }") true true)])

theorem outFiles_wf : Wf outFiles := wf_ofList (by decide +kernel) (by decide +kernel) (by decide +kernel)

def outJob (path : String) (ty : FileType) (source : Loc) (content text pre name : String) : OutJob :=
  { path := lit path, ty := ty, source := source, content := content.toList, text := text.toList, pre := lit pre,
    name := lit name }

/-- A check of `Clear` that can be computed: all ways to cut `pre` at a separator. -/
private def clearAt (fs : FS) : Path → Path → Bool
  | _, [] => true
  | q, b :: r =>
    (if b == 47 then
      let x := place fs.cwd (q ++ [47])
      fs.isDirAt x || (fs.node x == none && (fs.node x.tail == none || fs.node x.tail == some (.dir true)) &&
        !(pieces r).contains [dot, dot])
    else true) && clearAt fs (q ++ [b]) r

private theorem mem_of_climbs {r : Path} (h : Climbs r) : [dot, dot] ∈ pieces r := by
  obtain ⟨u, v, rfl, hu, hv⟩ := h
  have h1 : pieces ([46, 46] ++ v) = [dot, dot] :: (pieces v).tail := by
    rcases hv with rfl | hv
    · rfl
    · cases v with
      | nil => simp at hv
      | cons b v =>
        simp only [List.head?_cons, Option.some.injEq] at hv
        subst hv
        rw [show ([46, 46] : Path) ++ 47 :: v = [dot, dot] ++ slash :: v from rfl, pieces_sep]
        rfl
  rw [List.append_assoc, pieces_lead hu, h1]
  simp

private theorem clear_of {fs : FS} {pre q0 : Path} (h : clearAt fs q0 pre = true) (q r : Path) (e : pre = q ++ 47 :: r) :
    fs.isDirAt (place fs.cwd (q0 ++ q ++ [47])) = true ∨
    (fs.node (place fs.cwd (q0 ++ q ++ [47])) = none ∧
      (fs.node (place fs.cwd (q0 ++ q ++ [47])).tail = none ∨
        fs.node (place fs.cwd (q0 ++ q ++ [47])).tail = some (.dir true)) ∧ ¬ Climbs r) := by
  induction q generalizing q0 pre with
  | nil =>
    rw [e] at h
    simp only [List.nil_append, clearAt, beq_self_eq_true, if_true, Bool.and_eq_true, Bool.or_eq_true, beq_iff_eq] at h
    rw [List.append_nil]
    rcases h.1 with h | ⟨⟨h1, h2⟩, h3⟩
    · exact .inl h
    · exact .inr ⟨h1, h2, fun hc => by simp [mem_of_climbs hc] at h3⟩
  | cons b q ih =>
    rw [e] at h
    simp only [List.cons_append, clearAt, Bool.and_eq_true] at h
    have := ih h.2 rfl
    simpa using this

def outJobs : List OutJob :=
  [outJob "s/a.js" .js [lit "a.js", lit "s", lit "w"] "var x = 1 ;" "var x=1;" "out/s/" "a.min.js",
    outJob "s/d/b.css" .css [lit "b.css", lit "d", lit "s", lit "w"] "a { }" "a{}" "out/s/d/" "b.min.css"]

private theorem outJob_of {alpha : Char → Bool} {fs : FS} {op : Path} {ext : Option FileType} {j : OutJob} {w : Bool}
    (hwf : Wf fs) (h1 : chosen j.path ext = some j.ty) (h1' : j.ty ≠ .unknown) (h2 : resolve fs j.path = .ok j.source)
    (h3 : fs.node j.source = some (.file (utf8 j.content) true w)) (h4 : minifyAs alpha j.ty j.content = .ok j.text)
    (h5 : (outPath fs j.path (some op) j.ty).2.1 = j.pre ++ j.name)
    (h6 : Lead j.pre ∧ IsName j.name) (h7 : clearAt fs [] j.pre = true)
    (h8 : (∃ d r, fs.node (j.target fs) = some (.file d r true)) ∨
      (fs.node (j.target fs) = none ∧ (fs.node (j.dir fs) = none ∨ fs.node (j.dir fs) = some (.dir true))))
    (h9 : fs.room (j.target fs) = none) : j.Ok alpha fs op ext := by
  obtain ⟨pre, n, d, hp, -, -, -⟩ := resolve_file hwf h2 (node_file_not_dir h3)
  refine ⟨(chosen_iff _ _ _).1 ⟨h1, h1'⟩, h2, ⟨_, h3⟩, (minifyAs_iff _ _ _ _).1 h4, ?_, h6, fun q r e => ?_, h8,
    by rw [h9]; simp⟩
  · rw [← h5]; exact outPath_spec fs hp (some op) j.ty
  · have := clear_of h7 q r e
    simpa using this

theorem out_ok : ∀ j ∈ outJobs, j.Ok okLetters outFiles (lit "out") none := by
  intro j hj
  simp only [outJobs, List.mem_cons, List.not_mem_nil, or_false] at hj
  rcases hj with rfl | rfl
  · refine outJob_of (w := false) outFiles_wf ?_ ?_ ?_ ?_ ?_ ?_ ⟨.inr ⟨lit "out/s", ?_⟩, ?_, ?_, ?_, ?_⟩ ?_
      (.inr ⟨?_, .inl ?_⟩) ?_ <;> decide +kernel
  · refine outJob_of (w := true) outFiles_wf ?_ ?_ ?_ ?_ ?_ ?_ ⟨.inr ⟨lit "out/s/d", ?_⟩, ?_, ?_, ?_, ?_⟩ ?_
      (.inr ⟨?_, .inl ?_⟩) ?_ <;> decide +kernel

/-- Two files below `s`; below `out` neither `s` nor `s/d` exists. -/
example : Wf outFiles ∧ isDir outFiles (lit "out") = true ∧ (∀ j ∈ outJobs, j.Ok okLetters outFiles (lit "out") none) ∧
    outJobs.Pairwise (OutJob.Apart outFiles) := by
  refine ⟨outFiles_wf, by decide +kernel, out_ok, ?_⟩
  unfold OutJob.Apart
  decide +kernel

/-- `-o ../v/new/x.js` where `/v` exists. -/
example : (outJob "a.js" .js [lit "a.js", lit "w"] "f ( )" "f()" "../v/new/" "x.js").Ok okLetters
    (ofList (base ++ [entry "a.js" "f ( )", ([lit "v"], .dir true)])) (lit "../v/new/x.js") none := by
  refine outJob_of (w := true) (wf_ofList ?_ ?_ ?_) ?_ ?_ ?_ ?_ ?_ ?_ ⟨.inr ⟨lit "../v/new", ?_⟩, ?_, ?_, ?_, ?_⟩ ?_
      (.inr ⟨?_, .inl ?_⟩) ?_ <;> decide +kernel

/-! ## C48: failure -/

/-- C48 as stated. -/
def C48_full : Prop :=
  ∀ (alpha : Char → Bool) (ext : Option FileType) (out : Option Path) (fs : FS), Wf fs → ∀ (p : Path) (t : FileType)
    (l : Loc) (s : List Char) (w : Bool), TypeOf p ext t → resolve fs p = .ok l → fs.node l = some (.file (utf8 s) true w) →
    (∀ text, ¬ Minified alpha t s text) → ∀ k, (writeOutFile alpha fs p out ext).1.node k = fs.node k

/-- C48 fails for every input that cannot be minified: an output that is there and can be written is emptied. -/
theorem C48_emptied (alpha : Char → Bool) (ext : Option FileType) (fs : FS) (hwf : Wf fs) (p : Path) (t : FileType)
    (n n' : Name) (d : Loc) (s : List Char) (w : Bool) (ht : TypeOf p ext t) (hr : resolve fs p = .ok (n :: d))
    (hi : fs.node (n :: d) = some (.file (utf8 s) true w)) (hbad : ∀ text, ¬ Minified alpha t s text)
    (hm : MinName n t.asStr n')
    (ho : (∃ old r, fs.node (n' :: d) = some (.file old r true)) ∨
      (fs.node (n' :: d) = none ∧ fs.node d = some (.dir true))) :
    (writeOutFile alpha fs p none ext).2 = .panic ∧
    (writeOutFile alpha fs p none ext).1.node (n' :: d) = some (.file [] (readable fs (n' :: d)) true) ∧
    ∀ k, k ≠ n' :: d → (writeOutFile alpha fs p none ext).1.node k = fs.node k := by
  obtain ⟨-, hr', -, htg⟩ := target_beside hwf ht hr (node_file_not_dir hi) hm
  have hop := openTrunc_can hr' ho
  have hf := writeOut_fails (out := none) ht hr hi hbad rfl hop
  refine ⟨by rw [hf], by rw [hf]; simp only [set_node, if_true], fun k hk => ?_⟩
  refine writeOut_frame alpha hwf p ext k (fun h => hk ((htg k).1 h))

private def brokenFile : FS := ofList (base ++ [entry "a.css" "a { ] }", entry "a.min.css" "precious"])

private theorem broken_wf : Wf brokenFile := wf_ofList (by decide +kernel) (by decide +kernel) (by decide +kernel)

private theorem broken_bad : ∀ text, ¬ Minified okLetters .css "a { ] }".toList text := by
  intro text h
  have : Css.minify okLetters "a { ] }".toList = .err "Unexpected ']'" := by decide +kernel
  rw [show Minified okLetters .css "a { ] }".toList text = (Css.minify okLetters "a { ] }".toList = .ok text) from rfl,
    this] at h
  simp at h

private theorem broken_type : TypeOf (lit "a.css") none .css := (chosen_iff _ _ _).1 (by decide +kernel)

/-- So C48 is false. -/
theorem C48_full_false : ¬ C48_full := by
  intro h
  have := h okLetters none none brokenFile broken_wf (lit "a.css") .css [lit "a.css", lit "w"] "a { ] }".toList true
    broken_type (by decide +kernel) (by decide +kernel) broken_bad [lit "a.min.css", lit "w"]
  revert this
  decide +kernel

example : MinName (lit "a.css") FileType.css.asStr (lit "a.min.css") ∧
    (writeOutFile okLetters brokenFile (lit "a.css") none none).2 = .panic ∧
    (writeOutFile okLetters brokenFile (lit "a.css") none none).1.node [lit "a.min.css", lit "w"] =
      some (.file [] true true) :=
  ⟨⟨lit "a", .inr ⟨lit "css", by decide +kernel, by decide +kernel, by decide +kernel⟩, by decide +kernel⟩, by decide +kernel,
    by decide +kernel⟩

/-- C48, the part that holds: if the input cannot be read - it is missing, it must not be read, it is a directory, it is not
UTF-8 - then nothing at all changes. Missing: inputs that can be read but not minified, see above. -/
theorem C48_unread_partial (alpha : Char → Bool) (ext : Option FileType) (out : Option Path) (fs : FS) (p : Path)
    (h : ∀ l s w, resolve fs p = .ok l → fs.node l ≠ some (.file (utf8 s) true w)) :
    (writeOutFile alpha fs p out ext).1 = fs ∧ (writeOutFile alpha fs p out ext).2 ≠ .done := by
  rw [writeOut_eq]
  cases chosen p ext with
  | none => exact ⟨rfl, Note.noConfusion⟩
  | some t =>
    simp only
    split
    · exact ⟨rfl, Note.noConfusion⟩
    · cases hg : getAllData fs p with
      | err _ => exact ⟨rfl, Note.noConfusion⟩
      | panic _ => exact ⟨rfl, Note.noConfusion⟩
      | ok s =>
        obtain ⟨l, w, h1, h2⟩ := getAllData_ok hg
        exact absurd h2 (h l s w h1)

example :
    let fs := ofList (base ++ [([lit "a.js", lit "w"], .file [34, 255, 34] true true), ([lit "b.js", lit "w"], .dir true),
      ([lit "c.js", lit "w"], .file [] false true)])
    (writeOutFile okLetters fs (lit "a.js") none none).2 = .panic ∧ (writeOutFile okLetters fs (lit "b.js") none none).2 = .panic ∧
    (writeOutFile okLetters fs (lit "c.js") none none).2 = .readError ∧
    (writeOutFile okLetters fs (lit "d.js") none none).2 = .readError := by decide +kernel

/-! ## C57: the input -/

/-- C57 as stated. -/
def C57_full : Prop :=
  ∀ (alpha : Char → Bool) (ext : Option FileType) (out : Option Path) (fs : FS), Wf fs → ∀ (p : Path) (l : Loc) (nd : Bytes)
    (r w : Bool), resolve fs p = .ok l → fs.node l = some (.file nd r w) →
    (writeOutFile alpha fs p out ext).1.node l = some (.file nd r w)

/-- C57 is false: with `-o` naming the input itself it is overwritten, and emptied if it cannot be minified. -/
theorem C57_full_false : ¬ C57_full := by
  intro h
  have := h okLetters none (some (lit "a.css")) brokenFile broken_wf (lit "a.css") [lit "a.css", lit "w"]
    (lit "a { ] }") true true (by decide +kernel) (by decide +kernel)
  revert this
  decide +kernel

/-- C57, the part that holds: without `-o` the input stays as it is, whatever happens; with `-o` it does if the output is
elsewhere. Missing: an output that is the input. -/
theorem C57_input_partial (alpha : Char → Bool) (ext : Option FileType) (out : Option Path) (fs : FS) (hwf : Wf fs) (p : Path)
    (l : Loc) (nd : Bytes) (r w : Bool) (hr : resolve fs p = .ok l) (hf : fs.node l = some (.file nd r w))
    (ho : out = none ∨ ¬ Target fs out ext p l) :
    (writeOutFile alpha fs p out ext).1.node l = some (.file nd r w) := by
  have hnt : ¬ Target fs out ext p l := by
    rcases ho with rfl | ho
    · rintro ht
      obtain ⟨t, o, h1, h2, h3⟩ := id ht
      obtain ⟨pre, n, d, hp, rfl, -, -⟩ := resolve_file hwf hr (node_file_not_dir hf)
      obtain ⟨stem, hs⟩ := stem_exists n
      have hm := minName_eq hs t
      have e := ((target_beside hwf h1 hr (node_file_not_dir hf) hm).2.2.2 _).1 ht
      simp only [List.cons.injEq, and_true] at e
      exact minName_ne hm e.symm
    · exact ho
  exact (writeOut_spec alpha hwf p out ext).1.keep l _ hnt hf

example :
    (writeOutFile okLetters brokenFile (lit "a.css") none none).1.node [lit "a.css", lit "w"] =
      some (.file (lit "a { ] }") true true) ∧
    (writeOutFile okLetters brokenFile (lit "a.css") (some (lit "a.css")) none).1.node [lit "a.css", lit "w"] =
      some (.file [] true true) := by decide +kernel

/-! ## C58: running twice -/

/-- C58 as stated. -/
def C58_full : Prop :=
  ∀ (alpha : Char → Bool) (ext : Option FileType) (out : Option Path) (fs : FS), Wf fs → ∀ (ps : List Path) (l : Loc),
    (run alpha out ext (run alpha out ext fs ps).1 ps).1.node l = (run alpha out ext fs ps).1.node l

/-- C58 is false: `-o` may name the input, and `css::minify` is not idempotent. -/
theorem C58_full_false : ¬ C58_full := by
  intro h
  have := h okLetters none (some (lit "a.css")) (ofList (base ++ [entry "a.css" "@m*"]))
    (wf_ofList (by decide +kernel) (by decide +kernel) (by decide +kernel)) [lit "a.css"] [lit "a.css", lit "w"]
  revert this
  decide +kernel

/-- C58, the part that holds (without `-o`): if every input is in place and no output is an input or the output of another
file, then the second run succeeds as well and changes nothing. -/
theorem C58_twice_partial (alpha : Char → Bool) (ext : Option FileType) (fs : FS) (hwf : Wf fs) (js : List Job)
    (hok : ∀ j ∈ js, j.Ok alpha fs ext) (hd : ∀ i ∈ js, ∀ j ∈ js, i.target ≠ j.source)
    (hd' : js.Pairwise fun i j => i.target ≠ j.target) :
    (run alpha none ext (run alpha none ext fs (js.map Job.path)).1 (js.map Job.path)).2 = js.map (fun _ => Note.done) ∧
    ∀ l, (run alpha none ext (run alpha none ext fs (js.map Job.path)).1 (js.map Job.path)).1.node l =
      (run alpha none ext fs (js.map Job.path)).1.node l := run_again alpha ext hwf js hok hd hd'

example : Wf threeFiles ∧ (∀ j ∈ threeJobs, j.Ok okLetters threeFiles none) ∧
    (∀ i ∈ threeJobs, ∀ j ∈ threeJobs, i.target ≠ j.source) ∧ threeJobs.Pairwise (fun i j => i.target ≠ j.target) :=
  ⟨three_wf, three_ok, by decide +kernel, by decide +kernel⟩

/-- C58 with `-o` for a single file, be `-o` a directory or not: if everything is in place and the output is not the input, then
the second run succeeds as well and changes nothing. -/
theorem C58_out_partial (alpha : Char → Bool) (ext : Option FileType) (fs : FS) (hwf : Wf fs) (op : Path) (j : OutJob)
    (hok : j.Ok alpha fs op ext) (hs : j.target fs ≠ j.source) :
    (run alpha (some op) ext (run alpha (some op) ext fs [j.path]).1 [j.path]).2 = [.done] ∧
    ∀ l, (run alpha (some op) ext (run alpha (some op) ext fs [j.path]).1 [j.path]).1.node l =
      (run alpha (some op) ext fs [j.path]).1.node l := run_one_again alpha ext hwf hok hs

/-- C58 with `-o` for a directory and any number of files. -/
theorem C58_outdir_partial (alpha : Char → Bool) (ext : Option FileType) (fs : FS) (hwf : Wf fs) (op : Path)
    (hop : isDir fs op = true) (js : List OutJob) (hok : ∀ j ∈ js, j.Ok alpha fs op ext)
    (hd : js.Pairwise (OutJob.Apart fs)) (hs : ∀ i ∈ js, ∀ j ∈ js, i.target fs ≠ j.source) :
    (run alpha (some op) ext (run alpha (some op) ext fs (js.map OutJob.path)).1 (js.map OutJob.path)).2 =
      js.map (fun _ => Note.done) ∧
    ∀ l, (run alpha (some op) ext (run alpha (some op) ext fs (js.map OutJob.path)).1 (js.map OutJob.path)).1.node l =
      (run alpha (some op) ext fs (js.map OutJob.path)).1.node l := run_out_again alpha ext hwf hop js hok hd hs

example : Wf outFiles ∧ isDir outFiles (lit "out") = true ∧ (∀ j ∈ outJobs, j.Ok okLetters outFiles (lit "out") none) ∧
    outJobs.Pairwise (OutJob.Apart outFiles) ∧ ∀ i ∈ outJobs, ∀ j ∈ outJobs, i.target outFiles ≠ j.source := by
  refine ⟨outFiles_wf, by decide +kernel, out_ok, ?_, by decide +kernel⟩
  unfold OutJob.Apart
  decide +kernel

/-- `-o x.js` where there is no such file. -/
example : (outJob "a.js" .js [lit "a.js", lit "w"] "f ( )" "f()" "" "x.js").Ok okLetters
    (ofList (base ++ [entry "a.js" "f ( )"])) (lit "x.js") none ∧
    isDir (ofList (base ++ [entry "a.js" "f ( )"])) (lit "x.js") = false ∧
    (outJob "a.js" .js [lit "a.js", lit "w"] "f ( )" "f()" "" "x.js").target (ofList (base ++ [entry "a.js" "f ( )"])) ≠
      [lit "a.js", lit "w"] := by
  refine ⟨?_, by decide +kernel, by decide +kernel⟩
  refine outJob_of (w := true) (wf_ofList ?_ ?_ ?_) ?_ ?_ ?_ ?_ ?_ ?_ ⟨.inl ?_, ?_, ?_, ?_, ?_⟩ ?_
      (.inr ⟨?_, .inr ?_⟩) ?_ <;> decide +kernel

/-! ## C59: one bad file among others -/

/-- C59 as stated. -/
def C59_full : Prop :=
  ∀ (alpha : Char → Bool) (ext : Option FileType) (out : Option Path) (fs : FS), Wf fs → ∀ ps : List Path,
    (run alpha out ext fs ps).2.length = ps.length

/-- C59 is false: the first input that is not valid ends the run. -/
theorem C59_full_false : ¬ C59_full := by
  intro h
  have := h okLetters none none (ofList (base ++ [entry "a.css" "]", entry "b.css" "b { }"]))
    (wf_ofList (by decide +kernel) (by decide +kernel) (by decide +kernel)) [lit "a.css", lit "b.css"]
  revert this
  decide +kernel

/-- C59, the part that holds: files of no known type and files that cannot be opened are as if they had not been given.
Missing: inputs that cannot be minified, that are not UTF-8 or that are directories. -/
theorem C59_skip_partial (alpha : Char → Bool) (ext : Option FileType) (out : Option Path) (fs : FS) (p : Path)
    (ps : List Path)
    (h : (writeOutFile alpha fs p out ext).2 = .unknown ∨ (writeOutFile alpha fs p out ext).2 = .readError) :
    (run alpha out ext fs (p :: ps)).1 = (run alpha out ext fs ps).1 ∧
    (run alpha out ext fs (p :: ps)).2.tail = (run alpha out ext fs ps).2 := by
  have hfs : (writeOutFile alpha fs p out ext).1 = fs := by
    rw [writeOut_eq] at h ⊢
    cases hc : chosen p ext with
    | none => rfl
    | some t =>
      rw [hc] at h
      simp only at h ⊢
      split
      · rfl
      · rename_i hu
        rw [if_neg hu] at h
        cases hg : getAllData fs p with
        | err _ => rfl
        | panic _ => rfl
        | ok s =>
          exfalso
          rw [hg] at h
          simp only at h
          generalize outPath fs p out t = q at h
          obtain ⟨fs1, o, b⟩ := q
          cases b with
          | false => simp at h
          | true =>
            simp only at h
            cases ho : openTrunc fs1 o with
            | none => rw [ho] at h; simp at h
            | some q =>
              obtain ⟨fs2, k⟩ := q
              rw [ho] at h
              simp only at h
              cases hm : minifyAs alpha t s with
              | err _ => rw [hm] at h; simp at h
              | panic _ => rw [hm] at h; simp at h
              | ok text =>
                rw [hm] at h
                simp only at h
                generalize writeAll fs2 k (utf8 text) = q at h
                obtain ⟨fs3, b⟩ := q
                cases b <;> simp at h
  have hnp : (writeOutFile alpha fs p out ext).2 ≠ .panic := by
    rcases h with h | h <;> rw [h] <;> decide
  rw [run_cons, if_neg hnp, hfs]
  exact ⟨rfl, rfl⟩

example :
    let fs := ofList (base ++ [entry "b.css" "b { }"])
    let r := run okLetters none none fs [lit "a.html", lit "a.css", lit "b.css"]
    r.2 = [.unknown, .readError, .done] ∧ r.1.node [lit "b.min.css", lit "w"] = some (.file (lit "b{}") true true) := by
  decide +kernel

/-- There is one note per file up to the first panic, which is the last one. -/
theorem C59_notes (alpha : Char → Bool) (ext : Option FileType) (out : Option Path) (fs : FS) (ps : List Path) :
    ((run alpha out ext fs ps).2.length = ps.length ∧ Note.panic ∉ (run alpha out ext fs ps).2.dropLast) ∨
    ((run alpha out ext fs ps).2.length ≤ ps.length ∧ (run alpha out ext fs ps).2.getLast? = some .panic ∧
      Note.panic ∉ (run alpha out ext fs ps).2.dropLast) := by
  induction ps generalizing fs with
  | nil => left; simp [run]
  | cons p ps ih =>
    rw [run_cons]
    split
    · right; simp
    · rename_i hn
      have := ih (writeOutFile alpha fs p out ext).1
      generalize run alpha out ext (writeOutFile alpha fs p out ext).1 ps = q at this
      obtain ⟨fs1, ns⟩ := q
      simp only at this ⊢
      cases ns with
      | nil =>
        rcases this with ⟨h1, h2⟩ | ⟨h1, h2, h3⟩
        · left; simp at h1 ⊢; exact List.eq_nil_of_length_eq_zero h1.symm
        · simp at h2
      | cons m ms =>
        rcases this with ⟨h1, h2⟩ | ⟨h1, h2, h3⟩
        · left
          refine ⟨by simp at h1 ⊢; exact h1, ?_⟩
          rw [List.dropLast_cons_of_ne_nil (by simp)]
          simp only [List.mem_cons, not_or]
          exact ⟨fun e => hn e.symm, h2⟩
        · right
          refine ⟨by simp at h1 ⊢; omega, by rw [List.getLast?_cons_cons]; exact h2, ?_⟩
          rw [List.dropLast_cons_of_ne_nil (by simp)]
          simp only [List.mem_cons, not_or]
          exact ⟨fun e => hn e.symm, h3⟩

end Verif.Cli
