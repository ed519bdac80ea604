import Verif.Proofs.CliPath
import Verif.Spec.CliRun
/-!
# What a run of the command line program does to the file system
-/
set_option linter.unusedSimpArgs false
namespace Verif.Cli
open Verif.JsonRead Verif.Spec.Cli

/-! ## Where paths lead -/

theorem stepLoc_eq (l : Loc) (n : Name) : stepLoc l n = enter l n := by
  unfold stepLoc enter dead
  simp only [Bool.or_eq_true, beq_iff_eq]
  rfl

theorem follow_pieces (l : Loc) (n : Name) (p : Path) :
    follow l n p = (match pieces p with | [] => [n] | m :: ms => (n ++ m) :: ms).foldl stepLoc l := by
  induction p generalizing l n with
  | nil => simp [follow, pieces, stepLoc_eq]
  | cons b p ih =>
    unfold follow pieces
    by_cases hb : b = 47
    · rw [if_pos hb, if_pos (by simp [hb, slash]), ih]
      simp only [List.append_nil, List.foldl_cons, stepLoc_eq]
      cases h : pieces p with
      | nil => exact absurd h (pieces_ne_nil p)
      | cons m ms => simp
    · rw [if_neg hb, if_neg (by simpa [slash] using hb), ih]
      cases h : pieces p with
      | nil => exact absurd h (pieces_ne_nil p)
      | cons m ms => simp

theorem place_eq (cwd : Loc) (p : Path) :
    place cwd p = (pieces p).foldl stepLoc (if isAbsolute p then [] else cwd) := by
  unfold place isAbsolute
  rw [follow_pieces]
  simp only [beq_iff_eq]
  cases h : pieces p with
  | nil => exact absurd h (pieces_ne_nil p)
  | cons m ms => simp [slash]; rfl

theorem walk_foldl {fs : FS} {l k : Loc} {ns : List Name} (h : walk fs l ns = .ok k) : k = ns.foldl stepLoc l := by
  induction ns generalizing l with
  | nil => simp only [walk, Except.ok.injEq] at h; rw [← h]; rfl
  | cons n ns ih =>
    unfold walk at h
    split at h
    · exact ih h
    · simp at h
    · simp at h

theorem resolve_place {fs : FS} {p : Path} {l : Loc} (h : resolve fs p = .ok l) : l = place fs.cwd p := by
  unfold resolve at h
  split at h
  · simp at h
  · rw [walk_foldl h, place_eq]

/-! ## Changes -/

/-- `fs'` is `fs` but for the places in `L` and new directories. -/
structure Change (fs fs' : FS) (L : Loc → Prop) : Prop where
  cwd : fs'.cwd = fs.cwd
  room : fs'.room = fs.room
  keep : ∀ l nd, ¬ L l → fs.node l = some nd → fs'.node l = some nd
  new : ∀ l, ¬ L l → fs.node l = none → fs'.node l = none ∨ ∃ w, fs'.node l = some (.dir w)
  dirs : ∀ l, fs.isDirAt l = true → fs'.isDirAt l = true
  wf : Wf fs → Wf fs'

theorem Change.refl (fs : FS) (L : Loc → Prop) : Change fs fs L :=
  ⟨rfl, rfl, fun _ _ _ h => h, fun _ _ h => .inl h, fun _ h => h, fun h => h⟩

theorem isDirAt_some {fs : FS} {l : Loc} : fs.isDirAt l = true ↔ ∃ w, fs.node l = some (.dir w) := by
  unfold FS.isDirAt
  cases fs.node l with
  | none => simp
  | some nd => cases nd <;> simp

theorem Change.trans {a b c : FS} {L : Loc → Prop} (h1 : Change a b L) (h2 : Change b c L) : Change a c L := by
  refine ⟨h2.cwd.trans h1.cwd, h2.room.trans h1.room, fun l nd hl h => h2.keep l nd hl (h1.keep l nd hl h), ?_,
    fun l h => h2.dirs l (h1.dirs l h), fun h => h2.wf (h1.wf h)⟩
  intro l hl h
  rcases h1.new l hl h with h' | ⟨w, h'⟩
  · exact h2.new l hl h'
  · exact .inr ⟨w, h2.keep l _ hl h'⟩

theorem Change.mono {a b : FS} {L M : Loc → Prop} (h : Change a b L) (hLM : ∀ l, L l → M l) : Change a b M :=
  ⟨h.cwd, h.room, fun l nd hl => h.keep l nd (fun x => hl (hLM l x)), fun l hl => h.new l (fun x => hl (hLM l x)), h.dirs, h.wf⟩

theorem set_node (fs : FS) (l k : Loc) (n : Node) : (fs.set l n).node k = if k = l then some n else fs.node k := rfl

theorem canCreate_tail {fs : FS} {l : Loc} (h : fs.canCreate l = true) : fs.isDirAt l.tail = true := by
  unfold FS.canCreate at h
  exact isDirAt_some.2 ⟨true, by simpa using h⟩

theorem set_change_dir {fs : FS} {l : Loc} (h : fs.node l = none) (hc : fs.canCreate l = true) (w : Bool)
    (L : Loc → Prop) : Change fs (fs.set l (.dir w)) L := by
  have hdirs : ∀ k, fs.isDirAt k = true → (fs.set l (.dir w)).isDirAt k = true := by
    intro k hk
    rw [isDirAt_some] at *
    rw [set_node]
    by_cases e : k = l
    · rw [if_pos e]; exact ⟨w, rfl⟩
    · rw [if_neg e]; exact hk
  refine ⟨rfl, rfl, ?_, ?_, hdirs, fun hwf => ⟨hdirs _ hwf.root, ?_, hdirs _ hwf.cwd⟩⟩
  · intro k nd _ hk
    rw [set_node, if_neg]; · exact hk
    rintro rfl; rw [h] at hk; simp at hk
  · intro k _ hk
    rw [set_node]
    by_cases e : k = l
    · rw [if_pos e]; exact .inr ⟨w, rfl⟩
    · rw [if_neg e]; exact .inl hk
  · intro k hk
    by_cases e : k = l
    · rw [e]; exact hdirs _ (canCreate_tail hc)
    · refine hdirs _ (hwf.above k ?_)
      rw [isDirAt_some] at *
      rw [set_node, if_neg e] at hk; exact hk

theorem set_change_file {fs : FS} {l : Loc} (h : fs.isDirAt l = false) (d : Bytes) (r w : Bool) :
    Change fs (fs.set l (.file d r w)) (· = l) := by
  have hdirs : ∀ k, (fs.set l (.file d r w)).isDirAt k = fs.isDirAt k := by
    intro k
    by_cases e : k = l
    · rw [e, h]; unfold FS.isDirAt; rw [set_node, if_pos rfl]
    · unfold FS.isDirAt; rw [set_node, if_neg e]
  refine ⟨rfl, rfl, ?_, ?_, fun k hk => by rw [hdirs]; exact hk, fun hwf => ⟨?_, ?_, ?_⟩⟩
  · intro k nd hl hk; rw [set_node, if_neg hl]; exact hk
  · intro k hl hk; rw [set_node, if_neg hl]; exact .inl hk
  · rw [hdirs]; exact hwf.root
  · intro k hk; rw [hdirs] at *; exact hwf.above k hk
  · rw [hdirs]; exact hwf.cwd

theorem mkdir_change {fs fs' : FS} {p : Path} (h : mkdir fs p = .ok fs') (L : Loc → Prop) : Change fs fs' L := by
  unfold mkdir at h
  split at h
  · simp at h
  · split at h
    · simp at h
    · rename_i hn
      split at h
      · rename_i hc
        simp only [Except.ok.injEq] at h; rw [← h]; exact set_change_dir hn hc true L
      · simp at h

theorem createDirAll_change (k : Nat) (fs : FS) (p : Path) (L : Loc → Prop) : Change fs (createDirAll k fs p).1 L := by
  induction k generalizing fs p with
  | zero => exact .refl _ _
  | succ k ih =>
    unfold createDirAll
    split
    · exact .refl _ _
    · split
      · rename_i hm; exact mkdir_change hm L
      · exact .refl _ _
      · split
        · exact .refl _ _
        · rename_i q _
          have := ih fs q
          split
          · rename_i fs1 hc; rw [hc] at this; exact this
          · rename_i fs1 hc; rw [hc] at this
            split
            · rename_i hm; exact this.trans (mkdir_change hm L)
            · exact this

theorem prepare_change (fs : FS) (o : Path) (L : Loc → Prop) : Change fs (prepare fs o).1 L := by
  unfold prepare
  split
  · exact .refl _ _
  · split
    · exact .refl _ _
    · exact createDirAll_change _ _ _ _

theorem openTrunc_spec {fs fs' : FS} {p : Path} {l : Loc} (h : openTrunc fs p = some (fs', l)) :
    l = place fs.cwd p ∧ resolve fs p = .ok l ∧ Change fs fs' (· = l) ∧ (∃ r, fs'.node l = some (.file [] r true)) ∧
    ((∃ d r, fs.node l = some (.file d r true)) ∨ fs.node l = none) := by
  unfold openTrunc at h
  split at h
  · simp at h
  · rename_i k hr
    split at h
    · rename_i d r hn
      simp only [Option.some.injEq, Prod.mk.injEq] at h
      obtain ⟨rfl, rfl⟩ := h
      refine ⟨resolve_place hr, hr, set_change_file ?_ _ _ _, ⟨r, by rw [set_node, if_pos rfl]⟩, .inl ⟨d, r, hn⟩⟩
      unfold FS.isDirAt; rw [hn]
    · simp at h
    · simp at h
    · rename_i hn
      split at h
      · simp only [Option.some.injEq, Prod.mk.injEq] at h
        obtain ⟨rfl, rfl⟩ := h
        refine ⟨resolve_place hr, hr, set_change_file ?_ _ _ _, ⟨true, by rw [set_node, if_pos rfl]⟩, .inr hn⟩
        unfold FS.isDirAt; rw [hn]
      · simp at h

theorem writeAll_spec {fs : FS} {l : Loc} {d : Bytes} {r w : Bool} (hn : fs.node l = some (.file d r w)) (bs : Bytes) :
    Change fs (writeAll fs l bs).1 (· = l) ∧
    (∃ n, (writeAll fs l bs).1.node l = some (.file (bs.take n) r w)) ∧
    ((writeAll fs l bs).2 = true → (writeAll fs l bs).1.node l = some (.file bs r w)) ∧
    ((writeAll fs l bs).2 = true ↔ ∀ k, fs.room l = some k → bs.length ≤ k) := by
  have hd : fs.isDirAt l = false := by unfold FS.isDirAt; rw [hn]
  unfold writeAll
  rw [hn]
  simp only
  cases hr : fs.room l with
  | none =>
    refine ⟨set_change_file hd _ _ _, ⟨bs.length, ?_⟩, fun _ => ?_, ?_⟩
    · simp [set_node]
    · simp [set_node]
    · simp
  | some k =>
    by_cases hk : bs.length ≤ k
    · simp only [hk, if_true]
      refine ⟨set_change_file hd _ _ _, ⟨bs.length, ?_⟩, fun _ => ?_, ?_⟩
      · simp [set_node]
      · simp [set_node]
      · simp; exact hk
    · simp only [hk, if_false]
      refine ⟨set_change_file hd _ _ _, ⟨k, ?_⟩, fun h => ?_, ?_⟩
      · simp [set_node]
      · simp at h
      · simp; omega

theorem getAllData_ok {fs : FS} {p : Path} {s : List Char} (h : getAllData fs p = .ok s) :
    ∃ l w, resolve fs p = .ok l ∧ fs.node l = some (.file (utf8 s) true w) := by
  unfold getAllData at h
  split at h
  · simp at h
  · rename_i l hr
    split at h
    · simp at h
    · simp at h
    · simp at h
    · rename_i d w hn
      split at h
      · simp at h
      · rename_i s' hd
        simp only [Out.ok.injEq] at h
        subst h
        rw [(decode_iff d s').1 hd] at hn
        exact ⟨l, w, hr, hn⟩

theorem getAllData_of {fs : FS} {p : Path} {s : List Char} {l : Loc} {w : Bool} (hr : resolve fs p = .ok l)
    (hn : fs.node l = some (.file (utf8 s) true w)) : getAllData fs p = .ok s := by
  unfold getAllData
  rw [hr]; simp only; rw [hn]; simp only
  rw [(decode_iff _ s).2 rfl]

/-! ## A path that leads to a file has a name at its end -/

theorem walk_append {fs : FS} {l k : Loc} {xs ys : List Name} (h : walk fs l (xs ++ ys) = .ok k) :
    ∃ m, walk fs l xs = .ok m ∧ walk fs m ys = .ok k := by
  induction xs generalizing l with
  | nil => exact ⟨l, rfl, h⟩
  | cons x xs ih =>
    rw [List.cons_append, walk] at h
    rw [walk]
    split at h
    · exact ih h
    · simp at h
    · simp at h

theorem walk_append_of {fs : FS} {l m : Loc} {xs ys : List Name} (h : walk fs l xs = .ok m) :
    walk fs l (xs ++ ys) = walk fs m ys := by
  induction xs generalizing l with
  | nil => simp only [walk, Except.ok.injEq] at h; rw [← h]; rfl
  | cons x xs ih =>
    rw [walk] at h
    rw [List.cons_append, walk]
    split at h
    · exact ih h
    · simp at h
    · simp at h

/-- Dead pieces at the end only pass through directories. -/
theorem walk_dead {fs : FS} {l k : Loc} {ds : List Name} (hd : ∀ d ∈ ds, dead d = true) (h : walk fs l ds = .ok k) :
    k = l ∧ (ds ≠ [] → fs.isDirAt l = true) := by
  induction ds generalizing l with
  | nil => simp only [walk, Except.ok.injEq] at h; exact ⟨h.symm, fun x => absurd rfl x⟩
  | cons d ds ih =>
    unfold walk at h
    split at h
    · rename_i w hn
      have hs : stepLoc l d = l := by unfold stepLoc; rw [if_pos (hd d (by simp))]
      rw [hs] at h
      exact ⟨(ih (fun x hx => hd x (by simp [hx])) h).1, fun _ => isDirAt_some.2 ⟨w, hn⟩⟩
    · simp at h
    · simp at h

theorem walk_last {fs : FS} {l k : Loc} {xs : List Name} {n : Name} (h : walk fs l (xs ++ [n]) = .ok k) :
    ∃ m, walk fs l xs = .ok m ∧ fs.isDirAt m = true ∧ k = stepLoc m n := by
  obtain ⟨m, h1, h2⟩ := walk_append h
  refine ⟨m, h1, ?_⟩
  unfold walk at h2
  split at h2
  · rename_i w hn
    simp only [walk, Except.ok.injEq] at h2
    exact ⟨isDirAt_some.2 ⟨w, hn⟩, h2.symm⟩
  · simp at h2
  · simp at h2

theorem absolute_lead {p pre : Path} {n : Name} (h : Names p pre n) (q : Path) (hq : q.head? ≠ some slash) :
    isAbsolute (pre ++ q) = isAbsolute p := by
  obtain ⟨t, rfl, hl, hn, ht⟩ := h
  unfold isAbsolute
  cases pre with
  | nil =>
    cases n with
    | nil => exact absurd rfl hn.1
    | cons b n =>
      have hb : b ≠ slash := by intro e; exact hn.2.1 (by rw [e]; exact List.mem_cons_self)
      simp only [List.nil_append, List.cons_append, List.head?_cons]
      rw [beq_eq_false_iff_ne.2 hq]
      symm; rw [beq_eq_false_iff_ne]; simpa using hb
  | cons b pre => rfl

/-- A path that leads to a file names it, and other names beside it lead to the same directory. -/
theorem resolve_file {fs : FS} (hwf : Wf fs) {p : Path} {l : Loc} (h : resolve fs p = .ok l)
    (hf : fs.isDirAt l = false) :
    ∃ pre n d, Names p pre n ∧ l = n :: d ∧ fs.isDirAt d = true ∧
      ∀ m, IsName m → resolve fs (pre ++ m) = .ok (m :: d) := by
  have hne : p ≠ [] := by rintro rfl; simp [resolve] at h
  unfold resolve at h
  rw [if_neg (by simpa using hne)] at h
  have hstart : fs.isDirAt (if isAbsolute p then [] else fs.cwd) = true := by
    split
    · exact hwf.root
    · exact hwf.cwd
  cases hn : fileName p with
  | some n =>
    obtain ⟨pre, hp⟩ := names_of_fileName hn
    obtain ⟨ds, e, hd⟩ := pieces_names hp
    have hnm : IsName n := by obtain ⟨t, -, -, hn, -⟩ := hp; exact hn
    have hlead : Lead pre := by obtain ⟨t, -, hl, -, -⟩ := hp; exact hl
    rw [e, show leadPieces pre ++ n :: ds = (leadPieces pre ++ [n]) ++ ds by simp] at h
    obtain ⟨k, h1, h2⟩ := walk_append h
    obtain ⟨rfl, h3⟩ := walk_dead hd h2
    have hds : ds = [] := by
      by_cases hds : ds = []
      · exact hds
      · rw [h3 hds] at hf; simp at hf
    obtain ⟨m, h4, h5, h6⟩ := walk_last h1
    have hst : ∀ x, IsName x → stepLoc m x = x :: m := by
      intro x hx
      unfold stepLoc
      rw [if_neg (by simp [name_not_dead hx]), if_neg (by simp; exact hx.2.2.2)]
    refine ⟨pre, n, m, hp, by rw [h6, hst n hnm], h5, ?_⟩
    intro x hx
    unfold resolve
    have hx0 : x.head? ≠ some slash := by
      cases x with
      | nil => simp
      | cons b x => intro e; simp only [List.head?_cons, Option.some.injEq] at e; exact hx.2.1 (by simp [e, slash])
    rw [if_neg (by simp; intro _; exact hx.1), absolute_lead hp x hx0, pieces_lead hlead, pieces_name hx.2.1,
      walk_append_of h4]
    obtain ⟨w, hw⟩ := isDirAt_some.1 h5
    unfold walk
    rw [hw]
    simp only [walk, hst x hx]
  | none =>
    exfalso
    have : fs.isDirAt l = true := by
      obtain ⟨ds, rest, e, hd, hr⟩ := split_dead (pieces p).reverse
      have e' : pieces p = rest.reverse ++ ds.reverse := by
        have := congrArg List.reverse e
        simpa using this
      rw [e'] at h
      obtain ⟨k, h1, h2⟩ := walk_append h
      obtain ⟨rfl, h3⟩ := walk_dead (by simpa using hd) h2
      unfold fileName live at hn
      rw [hr] at hn
      cases rest with
      | nil =>
        simp only [List.reverse_nil, walk, Except.ok.injEq] at h1
        rw [← h1]; exact hstart
      | cons m ms =>
        simp only at hn
        split at hn
        · rename_i hm
          simp only [beq_iff_eq] at hm
          rw [List.reverse_cons] at h1
          obtain ⟨k, _, h5, h6⟩ := walk_last h1
          rw [h6, hm]
          exact hwf.above k h5
        · simp at hn
    rw [this] at hf; simp at hf

/-! ## Types -/

theorem minifyAs_iff (alpha : Char → Bool) (t : FileType) (s text : List Char) :
    minifyAs alpha t s = .ok text ↔ Minified alpha t s text := by
  unfold minifyAs Minified
  cases t with
  | css => simp only; split <;> simp_all
  | js => simp only; split <;> simp_all
  | json => simp; exact eq_comm
  | unknown => simp

theorem asStr_lower (t : FileType) : ∀ b ∈ t.asStr, lowerByte b = b := by
  cases t <;> decide +kernel

theorem decode_asStr (e : Bytes) (t : FileType) (w : List Char) (hw : t.asStr = utf8 w) :
    decode (e.map lowerByte) = some w ↔ CaseOf e t.asStr := by
  rw [decode_iff, ← hw, map_lower_iff (asStr_lower t)]

theorem fileType_css (p : Path) : FileType.of p = some .css ↔ ∃ e, PathExt p e ∧ CaseOf e FileType.css.asStr := by
  have hd := fun e => decode_asStr e .css "css".toList (by decide +kernel)
  unfold FileType.of
  constructor
  · intro h
    split at h
    · simp at h
    · rename_i e he
      refine ⟨e, (extension_iff p e).1 he, (hd e).1 ?_⟩
      split at h
      · simp at h
      · rename_i s hs
        rw [hs]
        repeat' split at h
        all_goals simp_all
  · rintro ⟨e, h1, h2⟩
    rw [(extension_iff p e).2 h1]
    simp only
    rw [(hd e).2 h2]
    simp

theorem fileType_js (p : Path) : FileType.of p = some .js ↔ ∃ e, PathExt p e ∧ CaseOf e FileType.js.asStr := by
  have hd := fun e => decode_asStr e .js "js".toList (by decide +kernel)
  unfold FileType.of
  constructor
  · intro h
    split at h
    · simp at h
    · rename_i e he
      refine ⟨e, (extension_iff p e).1 he, (hd e).1 ?_⟩
      split at h
      · simp at h
      · rename_i s hs
        rw [hs]
        repeat' split at h
        all_goals simp_all
  · rintro ⟨e, h1, h2⟩
    rw [(extension_iff p e).2 h1]
    simp only
    rw [(hd e).2 h2]
    simp

theorem fileType_json (p : Path) : FileType.of p = some .json ↔ ∃ e, PathExt p e ∧ CaseOf e FileType.json.asStr := by
  have hd := fun e => decode_asStr e .json "json".toList (by decide +kernel)
  unfold FileType.of
  constructor
  · intro h
    split at h
    · simp at h
    · rename_i e he
      refine ⟨e, (extension_iff p e).1 he, (hd e).1 ?_⟩
      split at h
      · simp at h
      · rename_i s hs
        rw [hs]
        repeat' split at h
        all_goals simp_all
  · rintro ⟨e, h1, h2⟩
    rw [(extension_iff p e).2 h1]
    simp only
    rw [(hd e).2 h2]
    simp

theorem fileType_iff (p : Path) (t : FileType) (ht : t ≠ .unknown) :
    FileType.of p = some t ↔ ∃ e, PathExt p e ∧ CaseOf e t.asStr := by
  cases t with
  | css => exact fileType_css p
  | js => exact fileType_js p
  | json => exact fileType_json p
  | unknown => exact absurd rfl ht

theorem fileType_none (p : Path) : FileType.of p = none ↔ ∃ e, PathExt p e ∧ ¬ ∃ s, e = utf8 s := by
  unfold FileType.of
  constructor
  · intro h
    split at h
    · simp at h
    · rename_i e he
      refine ⟨e, (extension_iff p e).1 he, ?_⟩
      split at h
      · rename_i hd; rw [decode_lower] at hd; exact (decode_none e).1 hd
      · repeat' split at h
        all_goals simp at h
  · rintro ⟨e, h1, h2⟩
    rw [(extension_iff p e).2 h1]
    simp only
    rw [(decode_lower e).2 ((decode_none e).2 h2)]

/-- The type `write_out_file` uses. -/
def chosen (p : Path) (ext : Option FileType) : Option FileType :=
  match ext with
  | some v => some v
  | none => FileType.of p

theorem chosen_iff (p : Path) (ext : Option FileType) (t : FileType) :
    (chosen p ext = some t ∧ t ≠ .unknown) ↔ TypeOf p ext t := by
  unfold chosen TypeOf
  cases ext with
  | some v => simp; exact and_comm
  | none =>
    simp only
    constructor
    · rintro ⟨h1, h2⟩; exact ⟨h2, (fileType_iff p t h2).1 h1⟩
    · rintro ⟨h1, h2⟩; exact ⟨(fileType_iff p t h1).2 h2, h1⟩

theorem TypeOf.unique {p : Path} {ext : Option FileType} {t t' : FileType} (h : TypeOf p ext t) (h' : TypeOf p ext t') :
    t = t' := by
  have h1 := ((chosen_iff p ext t).2 h).1
  rw [((chosen_iff p ext t').2 h').1] at h1
  simpa using h1.symm

/-! ## One file -/

theorem minName_eq {n stem : Name} (h : Stem n stem) (t : FileType) :
    MinName n t.asStr (stem ++ dot :: minExt t) := by
  refine ⟨stem, h, ?_⟩
  have : dot :: minExt t = [46, 109, 105, 110, 46] ++ t.asStr := by
    unfold minExt
    rw [show lit "min." = [109, 105, 110, 46] by decide +kernel]; rfl
  rw [this, List.append_assoc]

theorem minName_unique {n ty a b : Name} (ha : MinName n ty a) (hb : MinName n ty b) : a = b := by
  obtain ⟨s, hs, rfl⟩ := ha
  obtain ⟨s', hs', rfl⟩ := hb
  have hrel : ∀ s, Stem n s → fileStem (n : Path) = some s ∨ ¬ IsName n := by
    intro s hs
    by_cases hn : IsName n
    · left; exact fileStem_names (pre := []) ⟨[], by simp, .inl rfl, hn, .nil⟩ hs
    · exact .inr hn
  have : s = s' := by
    rcases hs with ⟨h1, rfl⟩ | ⟨e, h1⟩ <;> rcases hs' with ⟨h2, rfl⟩ | ⟨e', h2⟩
    · rfl
    · have := rsplit_ext h2
      rcases rsplit_noExt h1 with h | h <;> rw [h] at this <;> simp at this
    · have := rsplit_ext h1
      rcases rsplit_noExt h2 with h | h <;> rw [h] at this <;> simp at this
    · have := rsplit_ext h1
      rw [rsplit_ext h2] at this
      simp at this; exact this.1.symm
  rw [this]

theorem names_push {op p pre : Path} {n : Name} (h : Names p pre n) (hop : Lead op) : Names (op ++ p) (op ++ pre) n := by
  obtain ⟨t, rfl, hl, hn, ht⟩ := h
  refine ⟨t, by simp, ?_, hn, ht⟩
  rcases hl with rfl | ⟨q, rfl⟩
  · simpa using hop
  · exact .inr ⟨op ++ q, by simp⟩

theorem push_relative {op p : Path} (hne : op ≠ []) (ha : ¬ p.head? = some 47) :
    push op p = if op.getLast? = some 47 then op ++ p else op ++ [47] ++ p := by
  unfold push isAbsolute
  rw [if_neg (by simpa [slash] using ha)]
  cases hl : op.getLast? with
  | none => exact absurd (by simpa using hl) hne
  | some b =>
    by_cases hb : b = 47
    · simp [hb, slash]
    · simp [hb, slash]

/-- The path computed by cli.rs:142-161 is the one of the specification. -/
theorem outPath_spec (fs : FS) {p pre : Path} {n : Name} (h : Names p pre n) (out : Option Path) (t : FileType) :
    OutPath (isDir fs) p out t.asStr (outPath fs p out t).2.1 := by
  obtain ⟨stem, hs⟩ := stem_exists n
  refine ⟨pre, n, _, h, minName_eq hs t, ?_⟩
  unfold outPath
  cases out with
  | none => simp only; rw [setExtension_names h hs]; simp
  | some op =>
    simp only
    unfold givenOut
    by_cases hd : isDir fs op = true
    · rw [if_pos hd, if_pos hd]
      by_cases ha : p.head? = some 47
      · rw [if_pos ha]
        unfold push isAbsolute
        rw [if_pos (by simpa [slash] using ha), setExtension_names h hs]; simp
      · have hne : op ≠ [] := by rintro rfl; simp [isDir, resolve] at hd
        rw [if_neg ha, push_relative hne ha]
        by_cases hb : op.getLast? = some 47
        · rw [if_pos hb, if_pos hb]
          obtain ⟨q, hq⟩ := List.getLast?_eq_some_iff.1 hb
          rw [setExtension_names (names_push h (.inr ⟨q, hq⟩)) hs]; simp
        · rw [if_neg hb, if_neg hb, setExtension_names (names_push h (.inr ⟨op, rfl⟩)) hs]; simp
    · rw [if_neg hd, if_neg hd]

theorem outPath_unique {isDir : Path → Bool} {p : Path} {out : Option Path} {ty o o' : Path}
    (h : OutPath isDir p out ty o) (h' : OutPath isDir p out ty o') : o = o' := by
  obtain ⟨pre, n, m, hn, hm, h⟩ := h
  obtain ⟨pre', n', m', hn', hm', h'⟩ := h'
  have e := names_unique hn hn'
  subst e
  have e := minName_unique hm hm'
  subst e
  have hlive := live_names hn
  rw [live_names hn'] at hlive
  have e : pre = pre' := by
    have h1 : leadPieces pre' = leadPieces pre := by simpa using hlive
    obtain ⟨_, _, hl, _, _⟩ := hn
    obtain ⟨_, _, hl', _, _⟩ := hn'
    have := join_lead hl []
    rw [← h1, join_lead hl'] at this
    simpa using this.symm
  subst e
  cases out with
  | none => simp only at h h'; rw [h, h']
  | some op =>
    simp only at h h'
    repeat' split at h
    all_goals simp_all

theorem Target.unique {fs : FS} {out : Option Path} {ext : Option FileType} {p : Path} {l l' : Loc}
    (h : Target fs out ext p l) (h' : Target fs out ext p l') : l = l' := by
  obtain ⟨t, o, h1, h2, rfl⟩ := h
  obtain ⟨t', o', h1', h2', rfl⟩ := h'
  have e := h1.unique h1'
  subst e
  rw [outPath_unique h2 h2']

theorem openTrunc_frame {fs fs' : FS} {p : Path} {l : Loc} (h : openTrunc fs p = some (fs', l)) (k : Loc) (hk : k ≠ l) :
    fs'.node k = fs.node k := by
  unfold openTrunc at h
  repeat' split at h
  all_goals first
    | (simp only [Option.some.injEq, Prod.mk.injEq] at h; obtain ⟨rfl, rfl⟩ := h; rw [set_node, if_neg hk])
    | simp at h

theorem writeAll_frame (fs : FS) (l : Loc) (bs : Bytes) (k : Loc) (hk : k ≠ l) :
    (writeAll fs l bs).1.node k = fs.node k := by
  unfold writeAll
  repeat' split
  all_goals first
    | rw [set_node, if_neg hk]
    | rfl

/-- `write_out_file` with the choice of the type named. -/
theorem writeOut_eq (alpha : Char → Bool) (fs : FS) (p : Path) (out : Option Path) (ext : Option FileType) :
    writeOutFile alpha fs p out ext = match chosen p ext with
      | none => (fs, .panic)
      | some t =>
        if t == .unknown then (fs, .unknown)
        else
          match getAllData fs p with
          | .err _ => (fs, .readError)
          | .panic _ => (fs, .panic)
          | .ok content =>
            match outPath fs p out t with
            | (fs, _, false) => (fs, .panic)
            | (fs, o, true) =>
              match openTrunc fs o with
              | none => (fs, .cannotCreate)
              | some (fs, l) =>
                match minifyAs alpha t content with
                | .ok text =>
                  match writeAll fs l (utf8 text) with
                  | (fs, true) => (fs, .done)
                  | (fs, false) => (fs, .cannotWrite)
                | _ => (fs, .panic) := by
  cases ext <;> rfl

theorem outPath_change (fs : FS) (p : Path) (out : Option Path) (t : FileType) (L : Loc → Prop) :
    Change fs (outPath fs p out t).1 L := by
  unfold outPath
  cases out with
  | none => exact .refl _ _
  | some op => exact prepare_change fs _ L

/-- What one call of `write_out_file` does. -/
theorem writeOut_spec (alpha : Char → Bool) {fs : FS} (hwf : Wf fs) (p : Path) (out : Option Path)
    (ext : Option FileType) :
    Change fs (writeOutFile alpha fs p out ext).1 (Target fs out ext p) ∧
    ((writeOutFile alpha fs p out ext).2 = .done → ∃ t s text l k w r, TypeOf p ext t ∧ resolve fs p = .ok l ∧
      fs.node l = some (.file (utf8 s) true w) ∧ Minified alpha t s text ∧ Target fs out ext p k ∧
      (writeOutFile alpha fs p out ext).1.node k = some (.file (utf8 text) r true)) := by
  rw [writeOut_eq]
  cases hc : chosen p ext with
  | none => exact ⟨.refl _ _, by simp⟩
  | some t =>
    simp only
    by_cases ht : t = .unknown
    · rw [if_pos (by simp [ht])]; exact ⟨.refl _ _, by simp⟩
    · rw [if_neg (by simp [ht])]
      have hty : TypeOf p ext t := (chosen_iff p ext t).1 ⟨hc, ht⟩
      cases hg : getAllData fs p with
      | err _ => exact ⟨.refl _ _, by simp⟩
      | panic _ => exact ⟨.refl _ _, by simp⟩
      | ok s =>
        simp only
        obtain ⟨l, w, hr, hn⟩ := getAllData_ok hg
        obtain ⟨pre, n, d, hp, -, -, -⟩ := resolve_file hwf hr (by unfold FS.isDirAt; rw [hn])
        have ho := outPath_spec fs hp out t
        have hoc := outPath_change fs p out t (Target fs out ext p)
        have htg : Target fs out ext p (place fs.cwd (outPath fs p out t).2.1) := ⟨t, _, hty, ho, rfl⟩
        generalize outPath fs p out t = q at ho hoc htg
        obtain ⟨fs1, o, b⟩ := q
        cases b with
        | false => exact ⟨hoc, by simp⟩
        | true =>
          simp only at ho hoc htg ⊢
          cases hop : openTrunc fs1 o with
          | none => exact ⟨hoc, by simp⟩
          | some q =>
            obtain ⟨fs2, k⟩ := q
            simp only
            obtain ⟨hk, -, hc2, ⟨r, hnode⟩, -⟩ := openTrunc_spec hop
            rw [hoc.cwd] at hk
            rw [← hk] at htg
            have hsub : ∀ l, l = k → Target fs out ext p l := by rintro _ rfl; exact htg
            have h2 := hoc.trans (hc2.mono hsub)
            cases hm : minifyAs alpha t s with
            | err _ => exact ⟨h2, by simp⟩
            | panic _ => exact ⟨h2, by simp⟩
            | ok text =>
              simp only
              obtain ⟨w1, -, w3, -⟩ := writeAll_spec hnode (utf8 text)
              generalize writeAll fs2 k (utf8 text) = q at w1 w3
              obtain ⟨fs3, b⟩ := q
              have h3 := h2.trans (w1.mono hsub)
              cases b with
              | false => exact ⟨h3, by simp⟩
              | true =>
                refine ⟨h3, fun _ => ⟨t, s, text, l, k, w, r, hty, hr, hn, (minifyAs_iff _ _ _ _).1 hm, htg, w3 rfl⟩⟩

/-- Without `-o` nothing changes but the target. -/
theorem writeOut_frame (alpha : Char → Bool) {fs : FS} (hwf : Wf fs) (p : Path) (ext : Option FileType) (l : Loc)
    (hl : ¬ Target fs none ext p l) : (writeOutFile alpha fs p none ext).1.node l = fs.node l := by
  rw [writeOut_eq]
  cases hc : chosen p ext with
  | none => rfl
  | some t =>
    simp only
    by_cases ht : t = .unknown
    · rw [if_pos (by simp [ht])]
    · rw [if_neg (by simp [ht])]
      have hty : TypeOf p ext t := (chosen_iff p ext t).1 ⟨hc, ht⟩
      cases hg : getAllData fs p with
      | err _ => rfl
      | panic _ => rfl
      | ok s =>
        simp only
        obtain ⟨l', w, hr, hn⟩ := getAllData_ok hg
        obtain ⟨pre, n, d, hp, -, -, -⟩ := resolve_file hwf hr (by unfold FS.isDirAt; rw [hn])
        have ho := outPath_spec fs hp none t
        have htg : Target fs none ext p (place fs.cwd (outPath fs p none t).2.1) := ⟨t, _, hty, ho, rfl⟩
        simp only [outPath] at htg ⊢
        cases hop : openTrunc fs (setExtension p (minExt t)) with
        | none => rfl
        | some q =>
          obtain ⟨fs2, k⟩ := q
          simp only
          obtain ⟨hk, -, -, -, -⟩ := openTrunc_spec hop
          rw [← hk] at htg
          have hlk : l ≠ k := by rintro rfl; exact hl htg
          have hf := openTrunc_frame hop l hlk
          cases minifyAs alpha t s with
          | err _ => exact hf
          | panic _ => exact hf
          | ok text =>
            simp only
            have hw := writeAll_frame fs2 k (utf8 text) l hlk
            generalize writeAll fs2 k (utf8 text) = q at hw
            obtain ⟨fs3, b⟩ := q
            cases b <;> exact hw.trans hf

/-! ## Several files -/

theorem walk_mono {a b : FS} (hd : ∀ l, a.isDirAt l = true → b.isDirAt l = true) {l k : Loc} {ns : List Name}
    (h : walk a l ns = .ok k) : walk b l ns = .ok k := by
  induction ns generalizing l with
  | nil => exact h
  | cons n ns ih =>
    rw [walk] at h ⊢
    split at h
    · rename_i w hn
      obtain ⟨w', hw'⟩ := isDirAt_some.1 (hd l (isDirAt_some.2 ⟨w, hn⟩))
      rw [hw']; exact ih h
    · simp at h
    · simp at h

theorem Change.resolve {a b : FS} {L : Loc → Prop} (hc : Change a b L) {p : Path} {k : Loc}
    (h : Cli.resolve a p = .ok k) : Cli.resolve b p = .ok k := by
  unfold Cli.resolve at h ⊢
  split at h
  · simp at h
  · rename_i hp
    rw [if_neg hp, hc.cwd]
    exact walk_mono hc.dirs h

theorem Change.isDir {a b : FS} {L : Loc → Prop} (hc : Change a b L) {p : Path} (h : Cli.isDir a p = true) :
    Cli.isDir b p = true := by
  unfold Cli.isDir at h ⊢
  split at h
  · rename_i l hr; rw [hc.resolve hr]; exact hc.dirs l h
  · simp at h

/-- The argument of `-o`, if there is one, is a directory. -/
def DirMode (fs : FS) (out : Option Path) : Prop := ∀ op, out = some op → isDir fs op = true

theorem Change.dirMode {a b : FS} {L : Loc → Prop} (hc : Change a b L) {out : Option Path} (h : DirMode a out) :
    DirMode b out := fun op e => hc.isDir (h op e)

theorem outPath_dirMode {a b : FS} {out : Option Path} (ha : DirMode a out) (hb : DirMode b out) (p ty o : Path) :
    OutPath (isDir a) p out ty o ↔ OutPath (isDir b) p out ty o := by
  unfold OutPath
  cases out with
  | none => exact Iff.rfl
  | some op => simp only [ha op rfl, hb op rfl]

theorem Change.target {a b : FS} {L : Loc → Prop} (hc : Change a b L) {out : Option Path} (h : DirMode a out)
    (ext : Option FileType) (p : Path) (l : Loc) : Target b out ext p l ↔ Target a out ext p l := by
  unfold Target
  simp only [outPath_dirMode (hc.dirMode h) h, hc.cwd]

theorem run_cons (alpha : Char → Bool) (out : Option Path) (ext : Option FileType) (fs : FS) (p : Path) (ps : List Path) :
    run alpha out ext fs (p :: ps) =
      if (writeOutFile alpha fs p out ext).2 = .panic then ((writeOutFile alpha fs p out ext).1, [.panic])
      else ((run alpha out ext (writeOutFile alpha fs p out ext).1 ps).1,
        (writeOutFile alpha fs p out ext).2 :: (run alpha out ext (writeOutFile alpha fs p out ext).1 ps).2) := by
  rw [run]
  generalize writeOutFile alpha fs p out ext = q
  obtain ⟨fs1, n⟩ := q
  cases n <;> simp

theorem run_change (alpha : Char → Bool) {out : Option Path} (ext : Option FileType) {fs : FS} (hwf : Wf fs)
    (hm : DirMode fs out) (ps : List Path) :
    Change fs (run alpha out ext fs ps).1 (fun l => ∃ p ∈ ps, Target fs out ext p l) := by
  induction ps generalizing fs with
  | nil => exact .refl _ _
  | cons p ps ih =>
    rw [run_cons]
    have h1 := (writeOut_spec alpha hwf p out ext).1
    generalize writeOutFile alpha fs p out ext = q at h1
    obtain ⟨fs1, n⟩ := q
    simp only at h1 ⊢
    have h1' := h1.mono (M := fun l => ∃ q ∈ p :: ps, Target fs out ext q l) (fun l hl => ⟨p, by simp, hl⟩)
    split
    · exact h1'
    · refine h1'.trans ((ih (h1.wf hwf) (h1.dirMode hm)).mono ?_)
      rintro l ⟨q, hq, ht⟩
      exact ⟨q, by simp [hq], (h1.target hm ext q l).1 ht⟩

/-- What is reported as done is done, if no output is the output or a later input of another file. -/
theorem run_done (alpha : Char → Bool) {out : Option Path} (ext : Option FileType) {fs : FS} (hwf : Wf fs)
    (hm : DirMode fs out) (ps : List Path)
    (hd : ps.Pairwise fun p q => ∀ k, Target fs out ext p k → ¬ Target fs out ext q k ∧ k ≠ place fs.cwd q) :
    ∀ p, (p, Note.done) ∈ ps.zip (run alpha out ext fs ps).2 → ∃ t s text k w r, TypeOf p ext t ∧
      fs.node (place fs.cwd p) = some (.file (utf8 s) true w) ∧ Minified alpha t s text ∧ Target fs out ext p k ∧
      (run alpha out ext fs ps).1.node k = some (.file (utf8 text) r true) := by
  induction ps generalizing fs with
  | nil => intro p h; simp [run] at h
  | cons p ps ih =>
    rw [List.pairwise_cons] at hd
    rw [run_cons]
    obtain ⟨h1, h2⟩ := writeOut_spec alpha hwf p out ext
    generalize writeOutFile alpha fs p out ext = q at h1 h2
    obtain ⟨fs1, n⟩ := q
    simp only at h1 h2 ⊢
    have hwf1 := h1.wf hwf
    have hm1 := h1.dirMode hm
    split
    · intro q hq
      simp only [List.zip_cons_cons, List.zip_nil_right, List.mem_singleton, Prod.mk.injEq] at hq
      exact absurd hq.2 (by decide)
    · intro q hq
      simp only [List.zip_cons_cons, List.mem_cons, Prod.mk.injEq] at hq
      rcases hq with ⟨rfl, hn⟩ | hq
      · obtain ⟨t, s, text, l, k, w, r, a1, a2, a3, a4, a5, a6⟩ := h2 hn.symm
        refine ⟨t, s, text, k, w, r, a1, ?_, a4, a5, ?_⟩
        · rw [← resolve_place a2]; exact a3
        · refine (run_change alpha ext hwf1 hm1 ps).keep k _ ?_ a6
          rintro ⟨q', hq', ht⟩
          exact (hd.1 q' hq' k a5).1 ((h1.target hm ext q' k).1 ht)
      · have hd2 : ps.Pairwise fun p q => ∀ k, Target fs1 out ext p k → ¬ Target fs1 out ext q k ∧ k ≠ place fs1.cwd q := by
          refine hd.2.imp ?_
          intro a b hab k hk
          rw [h1.target hm, h1.cwd]
          exact hab k ((h1.target hm ext a k).1 hk)
        obtain ⟨t, s, text, k, w, r, a1, a2, a3, a4, a5⟩ := ih hwf1 hm1 hd2 q hq
        refine ⟨t, s, text, k, w, r, a1, ?_, a3, (h1.target hm ext q k).1 a4, a5⟩
        have hqm : q ∈ ps := (List.of_mem_zip hq).1
        rw [h1.cwd] at a2
        have hnt : ¬ Target fs out ext p (place fs.cwd q) := fun h => (hd.1 q hqm _ h).2 rfl
        cases hn : fs.node (place fs.cwd q) with
        | none =>
          rcases h1.new _ hnt hn with h | ⟨w', h⟩ <;> rw [h] at a2 <;> simp at a2
        | some nd => rw [h1.keep _ _ hnt hn] at a2; exact a2

theorem run_frame (alpha : Char → Bool) (ext : Option FileType) {fs : FS} (hwf : Wf fs) (ps : List Path) (l : Loc)
    (hl : ∀ p ∈ ps, ¬ Target fs none ext p l) : (run alpha none ext fs ps).1.node l = fs.node l := by
  induction ps generalizing fs with
  | nil => rfl
  | cons p ps ih =>
    rw [run_cons]
    have h1 := (writeOut_spec alpha hwf p none ext).1
    have h2 := writeOut_frame alpha hwf p ext l (hl p (by simp))
    generalize writeOutFile alpha fs p none ext = q at h1 h2
    obtain ⟨fs1, n⟩ := q
    simp only at h1 h2 ⊢
    split
    · exact h2
    · refine (ih (h1.wf hwf) ?_).trans h2
      intro q hq ht
      exact hl q (by simp [hq]) ((h1.target (fun _ e => by simp at e) ext q l).1 ht)

/-! ## Inputs that can be processed -/

theorem stem_noslash {n stem : Name} (h : Stem n stem) (hn : 47 ∉ n) : 47 ∉ stem := by
  rcases h with ⟨_, rfl⟩ | ⟨e, rfl, _, _⟩
  · exact hn
  · intro h; exact hn (by simp [h])

theorem asStr_noslash (t : FileType) : 47 ∉ t.asStr := by cases t <;> decide +kernel

theorem minName_isName {n n' : Name} {t : FileType} (h : MinName n t.asStr n') (hn : 47 ∉ n) : IsName n' := by
  obtain ⟨stem, hs, rfl⟩ := h
  have h1 := stem_noslash hs hn
  have h2 := asStr_noslash t
  refine ⟨by simp, ?_, ?_, ?_⟩
  · simp [h1, h2]
  · intro e
    have : (109 : UInt8) ∈ [46] := by rw [← e]; simp
    simp at this
  · intro e
    have : (109 : UInt8) ∈ [46, 46] := by rw [← e]; simp
    simp at this

theorem minName_ne {n n' ty : Name} (h : MinName n ty n') : n' ≠ n := by
  rintro rfl
  obtain ⟨stem, hs, e⟩ := h
  rcases hs with ⟨h, rfl⟩ | ⟨e', rfl, h1, h2⟩
  · have := congrArg List.length e
    simp at this
  · simp only [List.append_assoc, List.append_cancel_left_eq, List.cons_append, List.nil_append, List.cons.injEq,
      true_and] at e
    rw [e] at h2
    exact h2 (by simp)

/-- The target of an input that is there. -/
theorem target_beside {fs : FS} (hwf : Wf fs) {p : Path} {ext : Option FileType} {t : FileType} {n n' : Name} {d : Loc}
    (ht : TypeOf p ext t) (hr : resolve fs p = .ok (n :: d)) (hf : fs.isDirAt (n :: d) = false)
    (hm : MinName n t.asStr n') :
    (∃ pre, Names p pre n ∧ setExtension p (minExt t) = pre ++ n') ∧
    resolve fs (setExtension p (minExt t)) = .ok (n' :: d) ∧ fs.isDirAt d = true ∧
    ∀ l, Target fs none ext p l ↔ l = n' :: d := by
  obtain ⟨pre, m, d', hp, e, hd, hres⟩ := resolve_file hwf hr hf
  simp only [List.cons.injEq] at e
  obtain ⟨rfl, rfl⟩ := e
  obtain ⟨stem, hs⟩ := stem_exists n
  have hn' := minName_unique hm (minName_eq hs t)
  have hset : setExtension p (minExt t) = pre ++ n' := by rw [setExtension_names hp hs, hn']; simp
  have hname : IsName n' := minName_isName hm (by obtain ⟨_, _, _, h, _⟩ := hp; exact h.2.1)
  have hr' : resolve fs (setExtension p (minExt t)) = .ok (n' :: d) := by rw [hset]; exact hres n' hname
  have htg : Target fs none ext p (n' :: d) := by
    refine ⟨t, setExtension p (minExt t), ht, ?_, resolve_place hr'⟩
    exact outPath_spec fs hp none t
  exact ⟨⟨pre, hp, hset⟩, hr', hd, fun l => ⟨fun h => h.unique htg, fun h => h ▸ htg⟩⟩

theorem node_file_not_dir {fs : FS} {l : Loc} {d : Bytes} {r w : Bool} (h : fs.node l = some (.file d r w)) :
    fs.isDirAt l = false := by unfold FS.isDirAt; rw [h]

theorem openTrunc_can {fs : FS} {p : Path} {n : Name} {d : Loc} (hr : resolve fs p = .ok (n :: d))
    (h : (∃ d' r, fs.node (n :: d) = some (.file d' r true)) ∨ (fs.node (n :: d) = none ∧ fs.node d = some (.dir true))) :
    openTrunc fs p = some (fs.set (n :: d) (.file [] (readable fs (n :: d)) true), n :: d) := by
  unfold openTrunc readable
  rw [hr]
  simp only
  rcases h with ⟨d', r, h⟩ | ⟨h1, h2⟩
  · rw [h]
  · rw [h1]
    simp only [FS.canCreate, List.tail_cons, h2, beq_self_eq_true, if_true]

theorem job_target {alpha : Char → Bool} {fs : FS} (hwf : Wf fs) {ext : Option FileType} {j : Job} (h : j.Ok alpha fs ext)
    (l : Loc) : Target fs none ext j.path l ↔ l = j.target := by
  obtain ⟨w, hi⟩ := h.input
  exact (target_beside hwf h.type h.leads (node_file_not_dir hi) h.name).2.2.2 l

theorem writeOut_ok {alpha : Char → Bool} {fs : FS} (hwf : Wf fs) {ext : Option FileType} {j : Job}
    (h : j.Ok alpha fs ext) :
    (writeOutFile alpha fs j.path none ext).2 = .done ∧
    (writeOutFile alpha fs j.path none ext).1.node j.target =
      some (.file (utf8 j.text) (readable fs j.target) true) := by
  obtain ⟨w, hi⟩ := h.input
  obtain ⟨-, hr, hd, -⟩ := target_beside hwf h.type h.leads (node_file_not_dir hi) h.name
  have hopen : openTrunc fs (setExtension j.path (minExt j.ty)) =
      some (fs.set j.target (.file [] (readable fs j.target) true), j.target) := openTrunc_can hr h.output
  obtain ⟨hc, hne⟩ := (chosen_iff _ _ _).2 h.type
  rw [writeOut_eq, hc]
  simp only
  rw [if_neg (by simp [hne]), getAllData_of h.leads hi]
  simp only [outPath]
  rw [hopen]
  simp only
  rw [(minifyAs_iff _ _ _ _).2 h.valid]
  simp only
  have hnode : (fs.set j.target (.file [] (readable fs j.target) true)).node j.target =
      some (.file [] (readable fs j.target) true) := by rw [set_node, if_pos rfl]
  obtain ⟨-, -, w3, w4⟩ := writeAll_spec hnode (utf8 j.text)
  have hok := w4.2 h.room
  have hfin := w3 hok
  generalize writeAll (fs.set j.target (.file [] (readable fs j.target) true)) j.target (utf8 j.text) = q at hok hfin
  obtain ⟨fs3, b⟩ := q
  simp only at hok hfin
  subst hok
  exact ⟨rfl, hfin⟩

theorem job_after {alpha : Char → Bool} {fs fs' : FS} {ext : Option FileType} {j : Job} (h : j.Ok alpha fs ext)
    {L : Loc → Prop} (hc : Change fs fs' L)
    (hs : fs'.node j.source = fs.node j.source)
    (ht : (∃ d r, fs'.node j.target = some (.file d r true)) ∨ fs'.node j.target = fs.node j.target)
    (hd : fs'.node j.dir = fs.node j.dir) : j.Ok alpha fs' ext := by
  refine ⟨h.type, hc.resolve h.leads, by rw [hs]; exact h.input, h.valid, h.name, ?_, by rw [hc.room]; exact h.room⟩
  rcases ht with ht | ht
  · exact .inl ht
  · rw [ht, hd]; exact h.output

theorem target_not_dir {alpha : Char → Bool} {fs : FS} {ext : Option FileType} {j : Job} (h : j.Ok alpha fs ext) :
    fs.isDirAt j.target = false := by
  rcases h.output with ⟨d, r, h⟩ | ⟨h, _⟩ <;> unfold FS.isDirAt <;> rw [h]

/-- If everything is in place, everything is done, and nothing else changes. -/
theorem run_ok (alpha : Char → Bool) (ext : Option FileType) {fs : FS} (hwf : Wf fs) (js : List Job)
    (hok : ∀ j ∈ js, j.Ok alpha fs ext)
    (hd : js.Pairwise fun i j => i.target ≠ j.target ∧ i.target ≠ j.source) :
    (run alpha none ext fs (js.map Job.path)).2 = js.map (fun _ => Note.done) ∧
    (∀ j ∈ js, (run alpha none ext fs (js.map Job.path)).1.node j.target =
      some (.file (utf8 j.text) (readable fs j.target) true)) ∧
    (∀ l, (∀ j ∈ js, l ≠ j.target) → (run alpha none ext fs (js.map Job.path)).1.node l = fs.node l) := by
  have hframe : ∀ l, (∀ j ∈ js, l ≠ j.target) → (run alpha none ext fs (js.map Job.path)).1.node l = fs.node l := by
    intro l hl
    refine run_frame alpha ext hwf _ l ?_
    intro p hp ht
    obtain ⟨j, hj, rfl⟩ := List.mem_map.1 hp
    exact hl j hj ((job_target hwf (hok j hj) l).1 ht)
  refine ⟨?_, ?_, hframe⟩
  all_goals clear hframe
  · induction js generalizing fs with
    | nil => rfl
    | cons j js ih =>
      rw [List.pairwise_cons] at hd
      have hj := hok j (by simp)
      obtain ⟨h1, h2⟩ := writeOut_ok hwf hj
      have hch := (writeOut_spec alpha hwf j.path none ext).1
      have hfr := writeOut_frame alpha hwf j.path ext
      rw [List.map_cons, run_cons, if_neg (by rw [h1]; decide), List.map_cons, h1]
      simp only [List.cons.injEq, true_and]
      refine ih (hch.wf hwf) ?_ hd.2
      intro i hi
      have hi' := hok i (by simp [hi])
      have e1 := hfr i.source (fun h => (hd.1 i hi).2 ((job_target hwf hj _).1 h).symm)
      have e2 := hfr i.target (fun h => (hd.1 i hi).1 ((job_target hwf hj _).1 h).symm)
      have e3 : (writeOutFile alpha fs j.path none ext).1.node i.dir = fs.node i.dir := by
        refine hfr i.dir (fun h => ?_)
        have e := (job_target hwf hj _).1 h
        have hdir : fs.isDirAt i.dir = true := by
          obtain ⟨w, hin⟩ := hi'.input
          exact (target_beside hwf hi'.type hi'.leads (node_file_not_dir hin) hi'.name).2.2.1
        rw [e, target_not_dir hj] at hdir; simp at hdir
      exact job_after hi' hch e1 (.inr e2) e3
  · induction js generalizing fs with
    | nil => simp
    | cons j js ih =>
      rw [List.pairwise_cons] at hd
      have hj := hok j (by simp)
      obtain ⟨h1, h2⟩ := writeOut_ok hwf hj
      have hch := (writeOut_spec alpha hwf j.path none ext).1
      have hfr := writeOut_frame alpha hwf j.path ext
      rw [List.map_cons, run_cons, if_neg (by rw [h1]; decide)]
      simp only
      have hok1 : ∀ i ∈ js, i.Ok alpha (writeOutFile alpha fs j.path none ext).1 ext ∧
          (writeOutFile alpha fs j.path none ext).1.node i.target = fs.node i.target := by
        intro i hi
        have hi' := hok i (by simp [hi])
        have e1 := hfr i.source (fun h => (hd.1 i hi).2 ((job_target hwf hj _).1 h).symm)
        have e2 := hfr i.target (fun h => (hd.1 i hi).1 ((job_target hwf hj _).1 h).symm)
        have e3 : (writeOutFile alpha fs j.path none ext).1.node i.dir = fs.node i.dir := by
          refine hfr i.dir (fun h => ?_)
          have e := (job_target hwf hj _).1 h
          have hdir : fs.isDirAt i.dir = true := by
            obtain ⟨w, hin⟩ := hi'.input
            exact (target_beside hwf hi'.type hi'.leads (node_file_not_dir hin) hi'.name).2.2.1
          rw [e, target_not_dir hj] at hdir; simp at hdir
        exact ⟨job_after hi' hch e1 (.inr e2) e3, e2⟩
      intro i hi
      rcases List.mem_cons.1 hi with rfl | hi
      · rw [run_frame alpha ext (hch.wf hwf), h2]
        intro p hp ht
        obtain ⟨q, hq, rfl⟩ := List.mem_map.1 hp
        exact (hd.1 q hq).1 ((job_target (hch.wf hwf) (hok1 q hq).1 _).1 ht)
      · rw [ih (hch.wf hwf) (fun i hi => (hok1 i hi).1) hd.2 i hi]
        unfold readable
        rw [(hok1 i hi).2]

/-- Running again changes nothing. -/
theorem run_again (alpha : Char → Bool) (ext : Option FileType) {fs : FS} (hwf : Wf fs) (js : List Job)
    (hok : ∀ j ∈ js, j.Ok alpha fs ext)
    (hd : ∀ i ∈ js, ∀ j ∈ js, i.target ≠ j.source) (hd' : js.Pairwise fun i j => i.target ≠ j.target) :
    (run alpha none ext (run alpha none ext fs (js.map Job.path)).1 (js.map Job.path)).2 = js.map (fun _ => Note.done) ∧
    ∀ l, (run alpha none ext (run alpha none ext fs (js.map Job.path)).1 (js.map Job.path)).1.node l =
      (run alpha none ext fs (js.map Job.path)).1.node l := by
  have hpw : js.Pairwise fun i j => i.target ≠ j.target ∧ i.target ≠ j.source := by
    refine List.Pairwise.imp_of_mem ?_ hd'
    intro i j hi hj h; exact ⟨h, hd i hi j hj⟩
  obtain ⟨-, a2, a3⟩ := run_ok alpha ext hwf js hok hpw
  have hch := run_change alpha ext hwf (out := none) (fun _ e => by simp at e) (js.map Job.path)
  generalize run alpha none ext fs (js.map Job.path) = r at a2 a3 hch
  obtain ⟨fs1, ns⟩ := r
  simp only at a2 a3 hch ⊢
  have hok1 : ∀ j ∈ js, j.Ok alpha fs1 ext := by
    intro j hj
    have hj' := hok j hj
    refine job_after hj' hch (a3 _ fun i hi e => hd i hi j hj e.symm) (.inl ⟨_, _, a2 j hj⟩) (a3 _ fun i hi e => ?_)
    have hdir : fs.isDirAt j.dir = true := by
      obtain ⟨w, hin⟩ := hj'.input
      exact (target_beside hwf hj'.type hj'.leads (node_file_not_dir hin) hj'.name).2.2.1
    rw [e, target_not_dir (hok i hi)] at hdir; simp at hdir
  obtain ⟨b1, b2, b3⟩ := run_ok alpha ext (hch.wf hwf) js hok1 hpw
  refine ⟨b1, fun l => ?_⟩
  by_cases hl : ∃ j ∈ js, l = j.target
  · obtain ⟨j, hj, rfl⟩ := hl
    rw [b2 j hj, a2 j hj]
    have : readable fs1 j.target = readable fs j.target := by
      conv => lhs; unfold readable
      rw [a2 j hj]
    rw [this]
  · exact b3 l (fun j hj e => hl ⟨j, hj, e⟩)

/-! ## Failure -/

/-- Minification fails after the output has been truncated. -/
theorem writeOut_fails {alpha : Char → Bool} {fs fs1 fs2 : FS} {p o : Path} {out : Option Path} {ext : Option FileType}
    {t : FileType} {s : List Char} {l k : Loc} {w : Bool} (ht : TypeOf p ext t) (hr : resolve fs p = .ok l)
    (hi : fs.node l = some (.file (utf8 s) true w)) (hbad : ∀ text, ¬ Minified alpha t s text)
    (ho : outPath fs p out t = (fs1, o, true)) (hop : openTrunc fs1 o = some (fs2, k)) :
    writeOutFile alpha fs p out ext = (fs2, .panic) := by
  obtain ⟨hc, hne⟩ := (chosen_iff _ _ _).2 ht
  rw [writeOut_eq, hc]
  simp only
  rw [if_neg (by simp [hne]), getAllData_of hr hi]
  simp only
  rw [ho]
  simp only
  rw [hop]
  simp only
  cases hm : minifyAs alpha t s with
  | ok text => exact absurd ((minifyAs_iff _ _ _ _).1 hm) (hbad text)
  | err _ => rfl
  | panic _ => rfl

end Verif.Cli
