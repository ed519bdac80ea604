import Verif.Proofs.CliFs
/-!
# `create_dir_all` makes the directories on a clear way
-/
set_option linter.unusedSimpArgs false
namespace Verif.Cli
open Verif.JsonRead Verif.Spec.Cli

/-! ## `parent` -/

theorem pieces_join {xs : List Name} (hx : xs ≠ []) (hs : ∀ x ∈ xs, slash ∉ x) : pieces (joinPieces xs) = xs := by
  induction xs with
  | nil => exact absurd rfl hx
  | cons x xs ih =>
    by_cases h : xs = []
    · subst h; exact pieces_name (hs x (by simp))
    · rw [join_cons h, pieces_sep, pieces_name (hs x (by simp)), ih h (fun y hy => hs y (by simp [hy]))]; rfl

/-- The pieces of a path that does not end with skipped ones, unless there is nothing else. -/
def Trim (p : Path) : Prop :=
  (∃ xs n, pieces p = xs ++ [n] ∧ dead n = false) ∨ ∀ d ∈ pieces p, dead d = true

theorem absolute_pieces (p : Path) : isAbsolute p = true ↔ p ≠ [] ∧ (pieces p).head? = some [] := by
  cases p with
  | nil => simp [isAbsolute]
  | cons b p =>
    unfold isAbsolute pieces
    by_cases hb : b = slash
    · subst hb; simp
    · simp only [List.head?_cons, beq_iff_eq, Option.some.injEq, hb, if_false, ne_eq, reduceCtorEq, not_false_eq_true, true_and,
        false_iff]
      cases pieces p <;> simp

theorem asPath_spec (abs : Bool) (ns : List Name) (hs : ∀ x ∈ ns, slash ∉ x)
    (h0 : ns = [] → abs = false) (hl : ns ≠ [] → (abs = true ↔ ns.getLast? = some [])) :
    isAbsolute (asPath abs ns) = abs ∧ Trim (asPath abs ns) ∧
    ((∃ ds, ns.reverse = pieces (asPath abs ns) ++ ds ∧ ∀ d ∈ ds, dead d = true) ∨
      ((∀ d ∈ pieces (asPath abs ns), dead d = true) ∧ ∀ d ∈ ns, dead d = true)) ∧
    (asPath abs ns).length ≤ (joinPieces ns.reverse).length + 1 := by
  induction ns with
  | nil =>
    rw [h0 rfl]
    refine ⟨rfl, .inr (by simp [asPath, pieces, dead]), .inr ⟨by simp [asPath, pieces, dead], by simp⟩, by simp [asPath]⟩
  | cons n ns ih =>
    cases ns with
    | nil =>
      have hn := hs n (by simp)
      have hb := hl (by simp)
      simp only [List.getLast?_singleton, Option.some.injEq] at hb
      by_cases e : n = []
      · subst e
        have : abs = true := hb.2 rfl
        subst this
        refine ⟨rfl, .inr (by decide), .inr ⟨by decide, by simp [dead]⟩, by simp [asPath]⟩
      · have e1 : asPath abs [n] = n := by simp [asPath, e]
        have e2 : abs = false := by cases abs <;> simp_all
        rw [e1, e2]
        refine ⟨?_, ?_, .inl ⟨[], by rw [pieces_name hn]; rfl, by simp⟩, by simp [joinPieces]⟩
        · cases n with
          | nil => rfl
          | cons b n =>
            simp only [isAbsolute, List.head?_cons, beq_eq_false_iff_ne, ne_eq, Option.some.injEq]
            rintro rfl; exact hn (by simp)
        · by_cases hd : dead n = true
          · right; rw [pieces_name hn]; simpa using hd
          · left; exact ⟨[], n, by rw [pieces_name hn]; rfl, by simpa using hd⟩
    | cons m ms =>
      by_cases hd : dead n = true
      · have e1 : asPath abs (n :: m :: ms) = asPath abs (m :: ms) := by
          conv => lhs; unfold asPath
          rw [if_pos hd]
        rw [e1]
        obtain ⟨h1, h2, h3, h4⟩ := ih (fun x hx => hs x (by simp [hx])) (by simp) (fun _ => by simpa using hl (by simp))
        refine ⟨h1, h2, ?_, ?_⟩
        · rcases h3 with ⟨ds, e, hds⟩ | ⟨h5, h6⟩
          · left
            refine ⟨ds ++ [n], by rw [List.reverse_cons, e]; simp, ?_⟩
            intro d hm
            rcases List.mem_append.1 hm with hm | hm
            · exact hds d hm
            · simp only [List.mem_singleton] at hm; rw [hm]; exact hd
          · right
            refine ⟨h5, ?_⟩
            intro d hm
            rcases List.mem_cons.1 hm with rfl | hm
            · exact hd
            · exact h6 d hm
        · rw [List.reverse_cons, join_append (by simp) (by simp)]
          simp only [List.length_append, List.length_cons]
          omega
      · have e1 : asPath abs (n :: m :: ms) = joinPieces (n :: m :: ms).reverse := by
          conv => lhs; unfold asPath
          rw [if_neg hd]
        have hp : pieces (asPath abs (n :: m :: ms)) = (n :: m :: ms).reverse := by
          rw [e1]; exact pieces_join (by simp) (fun x hx => hs x (List.mem_reverse.1 hx))
        refine ⟨?_, .inl ⟨(m :: ms).reverse, n, by rw [hp]; simp, by simpa using hd⟩, .inl ⟨[], by rw [hp]; simp, by simp⟩,
          by rw [e1]; omega⟩
        have hb := hl (by simp)
        rw [Bool.eq_iff_iff, hb, absolute_pieces, hp]
        rw [List.head?_reverse]
        refine ⟨fun h => h.2, fun h => ⟨?_, h⟩⟩
        intro e
        rw [e] at hp
        have := congrArg List.length hp
        simp [pieces] at this

/-- The parent of a path: shorter, leading to the place before the last name. -/
theorem parent_spec {p : Path} {xs : List Name} {n : Name} (hp : pieces p = xs ++ [n]) (hn : dead n = false) :
    ∃ q, parent p = some q ∧ isAbsolute q = isAbsolute p ∧ Trim q ∧ q.length < p.length ∧
    ((∃ ds, xs = pieces q ++ ds ∧ ∀ d ∈ ds, dead d = true) ∨
      ((∀ d ∈ pieces q, dead d = true) ∧ ∀ d ∈ xs, dead d = true)) := by
  have hlive : live p = n :: xs.reverse := by
    unfold live
    rw [hp, List.reverse_append]
    simp only [List.reverse_cons, List.reverse_nil, List.nil_append, List.cons_append]
    rw [List.dropWhile_cons_of_neg (by simp [hn])]
  have hnn : n ≠ [] := by rintro rfl; simp [dead] at hn
  have hpn : p ≠ [] := by
    rintro rfl
    have := congrArg List.getLast? hp
    simp [pieces] at this; exact hnn this
  have hjoin : p = joinPieces (xs ++ [n]) := by rw [← hp, join_pieces]
  have hlen : 0 < n.length := List.length_pos_iff.2 hnn
  obtain ⟨h1, h2, h3, h4⟩ := asPath_spec (isAbsolute p) xs.reverse
    (fun x hx => pieces_noslash p x (by rw [hp]; simp at hx; simp [hx]))
    (fun e => by
      have e : xs = [] := by simpa using e
      subst e
      cases ha : isAbsolute p with
      | false => rfl
      | true =>
        have := ((absolute_pieces p).1 ha).2
        rw [hp] at this; simp at this; exact absurd this hnn)
    (fun e => by
      have e : xs ≠ [] := by simpa using e
      rw [absolute_pieces, hp, List.getLast?_reverse]
      obtain ⟨y, ys, rfl⟩ := List.exists_cons_of_ne_nil e
      simp [hpn])
  refine ⟨asPath (isAbsolute p) xs.reverse, ?_, h1, h2, ?_, ?_⟩
  · unfold parent; rw [hlive]
  · rw [List.reverse_reverse] at h4
    by_cases e : xs = []
    · subst e
      have ha : isAbsolute p = false := by
        cases ha : isAbsolute p with
        | false => rfl
        | true =>
          have := ((absolute_pieces p).1 ha).2
          rw [hp] at this; simp at this; exact absurd this hnn
      rw [ha]
      simp only [List.reverse_nil, asPath, Bool.false_eq_true, if_false, List.length_nil]
      exact List.length_pos_iff.2 hpn
    · have : p.length = (joinPieces xs).length + 1 + n.length := by
        conv => lhs; rw [hjoin, join_append e (by simp)]
        simp [joinPieces]; omega
      omega
  · rw [List.reverse_reverse] at h3
    rcases h3 with h3 | ⟨h5, h6⟩
    · exact .inl h3
    · exact .inr ⟨h5, fun d hd => h6 d (by simpa using hd)⟩

/-! ## Clear ways -/

/-- A place that is a directory, or where one can be made once the one above is there. -/
def Free (fs : FS) (l : Loc) : Prop :=
  fs.isDirAt l = true ∨ (fs.node l = none ∧ (fs.node l.tail = none ∨ fs.node l.tail = some (.dir true)))

/-- The pieces `ns` lead from `l` through directories that are there or can be made. -/
def Way (fs : FS) (l : Loc) (ns : List Name) : Prop :=
  ∀ xs ys, ns = xs ++ ys → Free fs (xs.foldl stepLoc l) ∧ (fs.isDirAt (xs.foldl stepLoc l) = true ∨ [dot, dot] ∉ ys)

theorem Way.init {fs : FS} {l : Loc} {xs ys : List Name} (h : Way fs l (xs ++ ys)) : Way fs l xs := by
  intro a b e
  obtain ⟨h1, h2⟩ := h a (b ++ ys) (by rw [e]; simp)
  exact ⟨h1, h2.imp_right fun h hm => h (by simp [hm])⟩

theorem Way.tail {fs : FS} {l : Loc} {n : Name} {ns : List Name} (h : Way fs l (n :: ns)) : Way fs (stepLoc l n) ns := by
  intro a b e
  exact h (n :: a) b (by rw [e]; rfl)

theorem foldl_dead {ds : List Name} (h : ∀ d ∈ ds, dead d = true) (l : Loc) : ds.foldl stepLoc l = l := by
  induction ds with
  | nil => rfl
  | cons d ds ih =>
    rw [List.foldl_cons, show stepLoc l d = l by unfold stepLoc; rw [if_pos (h d (by simp))]]
    exact ih (fun x hx => h x (by simp [hx]))

theorem way_dead {fs : FS} {l : Loc} (hl : fs.isDirAt l = true) {ds : List Name} (h : ∀ d ∈ ds, dead d = true) :
    Way fs l ds := by
  intro xs ys e
  rw [foldl_dead (fun d hd => h d (by rw [e]; simp [hd]))]
  exact ⟨.inl hl, .inl hl⟩

theorem walk_dirs {fs : FS} {l : Loc} {ns : List Name}
    (h : ∀ xs y ys, ns = xs ++ y :: ys → fs.isDirAt (xs.foldl stepLoc l) = true) : walk fs l ns = .ok (ns.foldl stepLoc l) := by
  induction ns generalizing l with
  | nil => rfl
  | cons n ns ih =>
    obtain ⟨w, hw⟩ := isDirAt_some.1 (h [] n ns rfl)
    simp only [List.foldl_nil] at hw
    rw [walk, hw]
    exact ih fun xs y ys e => h (n :: xs) y ys (by rw [e]; rfl)

/-- On a clear way nothing but a missing directory stops the walk. -/
theorem walk_way {fs : FS} {l : Loc} {ns : List Name} (h : Way fs l ns) :
    walk fs l ns = .ok (ns.foldl stepLoc l) ∨ walk fs l ns = .error .noent := by
  induction ns generalizing l with
  | nil => exact .inl rfl
  | cons n ns ih =>
    rw [walk]
    have h0 := (h [] (n :: ns) rfl).1
    simp only [List.foldl_nil] at h0
    rcases h0 with h0 | ⟨h0, -⟩
    · obtain ⟨w, hw⟩ := isDirAt_some.1 h0
      rw [hw]; exact ih h.tail
    · rw [h0]; exact .inr rfl

theorem suffix_foldl {ns : List Name} (h : [dot, dot] ∉ ns) (l : Loc) : l <:+ ns.foldl stepLoc l := by
  induction ns generalizing l with
  | nil => exact List.suffix_refl _
  | cons n ns ih =>
    simp only [List.mem_cons, not_or] at h
    refine List.IsSuffix.trans ?_ (ih h.2 _)
    unfold stepLoc
    split
    · exact List.suffix_refl _
    · rw [if_neg (by simp; exact fun e => h.1 e.symm)]
      exact List.suffix_cons _ _

theorem Wf.suffix {fs : FS} (h : Wf fs) {k l : Loc} (hk : k <:+ l) (hl : fs.isDirAt l = true) : fs.isDirAt k = true := by
  obtain ⟨t, rfl⟩ := hk
  induction t with
  | nil => exact hl
  | cons n t ih => exact ih (h.above _ hl)

private theorem exists_last {α : Type} {xs : List α} (h : xs ≠ []) : ∃ zs z, xs = zs ++ [z] :=
  ⟨xs.dropLast, xs.getLast h, (List.dropLast_concat_getLast h).symm⟩

/-- Where a path starts. -/
def start (fs : FS) (p : Path) : Loc := if isAbsolute p then [] else fs.cwd

theorem start_dir {fs : FS} (h : Wf fs) (p : Path) : fs.isDirAt (start fs p) = true := by
  unfold start; split
  · exact h.root
  · exact h.cwd

theorem place_start (fs : FS) (p : Path) : place fs.cwd p = (pieces p).foldl stepLoc (start fs p) := place_eq fs.cwd p

theorem mkdir_of {fs : FS} {p : Path} {k : Loc} (hr : resolve fs p = .ok k)
    (h : fs.isDirAt k = true ∨ (fs.node k = none ∧ fs.node k.tail = some (.dir true))) :
    (fs.isDirAt k = true ∧ mkdir fs p = .error .other ∧ isDir fs p = true) ∨
    (fs.node k = none ∧ mkdir fs p = .ok (fs.set k (.dir true))) := by
  rcases h with h | ⟨h1, h2⟩
  · left
    refine ⟨h, ?_, ?_⟩
    · obtain ⟨w, hw⟩ := isDirAt_some.1 h
      unfold mkdir; rw [hr]; simp only; rw [hw]
    · unfold isDir; rw [hr]; exact h
  · right
    refine ⟨h1, ?_⟩
    unfold mkdir; rw [hr]; simp only; rw [h1]
    simp only [FS.canCreate, h2, beq_self_eq_true, if_true]

theorem grown_set {fs fs' : FS} {l k : Loc} (h : Grown fs fs' l) (hl : l <:+ k) (hk : fs.node k = none) :
    Grown fs (fs'.set k (.dir true)) k := by
  intro j
  rw [set_node]
  by_cases e : j = k
  · subst e; rw [if_pos rfl]; exact .inr ⟨List.suffix_refl _, hk, rfl⟩
  · rw [if_neg e]
    exact (h j).imp_right fun ⟨h1, h2⟩ => ⟨h1.trans hl, h2⟩

theorem Grown.refl (fs : FS) (l : Loc) : Grown fs fs l := fun _ => .inl rfl

theorem Grown.mono {fs fs' : FS} {l k : Loc} (h : Grown fs fs' l) (hl : l <:+ k) : Grown fs fs' k :=
  fun j => (h j).imp_right fun ⟨h1, h2⟩ => ⟨h1.trans hl, h2⟩

/-- `create_dir_all` makes the directories that are missing on a clear way, and nothing else. -/
theorem createDirAll_way (fuel : Nat) {fs : FS} (hwf : Wf fs) {p : Path} (hf : p.length < fuel) (ht : Trim p)
    (hw : Way fs (start fs p) (pieces p)) :
    (createDirAll fuel fs p).2 = true ∧ (createDirAll fuel fs p).1.isDirAt (place fs.cwd p) = true ∧
    Grown fs (createDirAll fuel fs p).1 (place fs.cwd p) := by
  induction fuel generalizing p with
  | zero => omega
  | succ fuel ih =>
    rw [place_start]
    rw [createDirAll]
    by_cases hp : p = []
    · subst hp
      simp only [beq_self_eq_true, if_true]
      exact ⟨trivial, hwf.cwd, .refl _ _⟩
    rw [if_neg (by simpa using hp)]
    have hres : ∀ fs' : FS, fs'.cwd = fs.cwd → resolve fs' p = walk fs' (start fs p) (pieces p) := by
      intro fs' e; unfold resolve start; rw [if_neg (by simpa using hp), e]
    have hend := (hw (pieces p) [] (by simp)).1
    rcases walk_way hw with hk | hk
    · -- all but the last directory are there
      have hr := (hres fs rfl).trans hk
      have hfree : fs.isDirAt ((pieces p).foldl stepLoc (start fs p)) = true ∨
          (fs.node ((pieces p).foldl stepLoc (start fs p)) = none ∧
            fs.node ((pieces p).foldl stepLoc (start fs p)).tail = some (.dir true)) := by
        rcases hend with h | ⟨h1, h2⟩
        · exact .inl h
        · right
          refine ⟨h1, ?_⟩
          rcases h2 with h2 | h2
          · exfalso
            obtain ⟨xs, n, e⟩ := exists_last (pieces_ne_nil p)
            rw [e] at hk
            obtain ⟨m, -, hm, hs⟩ := walk_last hk
            rw [← e] at hs
            rw [hs] at h1 h2
            have h1' : fs.isDirAt (stepLoc m n) = false := by unfold FS.isDirAt; rw [h1]
            have h2' : fs.isDirAt (stepLoc m n).tail = false := by unfold FS.isDirAt; rw [h2]
            unfold stepLoc at h1' h2'
            split at h1'
            · rw [hm] at h1'; simp at h1'
            · rename_i hd
              split at h1'
              · rw [hwf.above m hm] at h1'; simp at h1'
              · rename_i hdd
                rw [if_neg hd, if_neg hdd, List.tail_cons, hm] at h2'; simp at h2'
          · exact h2
      rcases mkdir_of hr hfree with ⟨h1, h2, h3⟩ | ⟨h1, h2⟩
      · rw [h2]
        exact ⟨h3, h1, .refl _ _⟩
      · rw [h2]
        refine ⟨rfl, ?_, grown_set (.refl fs _) (List.suffix_refl _) h1⟩
        unfold FS.isDirAt; rw [set_node, if_pos rfl]
    · -- one of the directories above is missing
      have hr := (hres fs rfl).trans hk
      have hm0 : mkdir fs p = .error .noent := by unfold mkdir; rw [hr]
      rw [hm0]
      simp only
      have hstart := start_dir hwf p
      rcases ht with ⟨xs, n, e, hn⟩ | hdead
      · obtain ⟨q, hq, habs, htq, hlen, hpc⟩ := parent_spec e hn
        rw [hq]
        simp only
        have hsq : start fs q = start fs p := by unfold start; rw [habs]
        have hwx : Way fs (start fs p) xs := by rw [e] at hw; exact hw.init
        have hwq : Way fs (start fs q) (pieces q) := by
          rw [hsq]
          rcases hpc with ⟨ds, e2, -⟩ | ⟨h1, -⟩
          · rw [e2] at hwx; exact hwx.init
          · exact way_dead hstart h1
        have hplq : place fs.cwd q = xs.foldl stepLoc (start fs p) := by
          rw [place_start, hsq]
          rcases hpc with ⟨ds, e2, hd⟩ | ⟨h1, h2⟩
          · rw [e2, List.foldl_append, foldl_dead hd]
          · rw [foldl_dead h1, foldl_dead h2]
        obtain ⟨h1, h2, h3⟩ := ih (by omega) htq hwq
        have hch := createDirAll_change fuel fs q (fun _ => False)
        rw [hplq] at h2 h3
        generalize createDirAll fuel fs q = r at h1 h2 h3 hch
        obtain ⟨fs1, b⟩ := r
        simp only at h1 h2 h3 hch
        subst h1
        simp only
        -- the last piece is a name
        have hndd : n ≠ [dot, dot] := by
          rintro rfl
          have : walk fs (start fs p) (pieces p) = .ok ((pieces p).foldl stepLoc (start fs p)) := by
            refine walk_dirs fun as y ys e' => ?_
            have hh := (hw as (y :: ys) e').2
            rcases hh with hh | hh
            · exact hh
            · exfalso
              rw [e] at e'
              obtain ⟨zs, z, e3⟩ := exists_last (xs := y :: ys) (by simp)
              rw [e3, ← List.append_assoc] at e'
              have e4 := (List.append_inj' e' rfl).2
              simp only [List.cons.injEq, and_true] at e4
              exact hh (by rw [e3, e4]; simp)
          rw [this] at hk; simp at hk
        have hlast : (pieces p).foldl stepLoc (start fs p) = n :: xs.foldl stepLoc (start fs p) := by
          rw [e, List.foldl_append]
          simp only [List.foldl_cons, List.foldl_nil]
          generalize xs.foldl stepLoc (start fs p) = m
          unfold stepLoc
          rw [if_neg (by simp [hn]), if_neg (by simpa using hndd)]
        have hwalk : walk fs1 (start fs p) (pieces p) = .ok ((pieces p).foldl stepLoc (start fs p)) := by
          refine walk_dirs fun as y ys e' => ?_
          rcases (hw as (y :: ys) e').2 with hh | hh
          · exact hch.dirs _ hh
          · refine (hch.wf hwf).suffix ?_ h2
            -- `as` is a part of `xs`
            rw [e] at e'
            obtain ⟨zs, z, e3⟩ := exists_last (xs := y :: ys) (by simp)
            rw [e3, ← List.append_assoc] at e'
            have e4 : xs = as ++ zs := (List.append_inj' e' rfl).1
            rw [e4, List.foldl_append]
            exact suffix_foldl (fun h => hh (by rw [e3]; simp [h])) _
        have hr1 := (hres fs1 hch.cwd).trans hwalk
        rw [hlast] at hr1 hend ⊢
        generalize xs.foldl stepLoc (start fs p) = m at *
        have hsame : fs1.node (n :: m) = fs.node (n :: m) := by
          rcases h3 (n :: m) with h | ⟨h, -⟩
          · exact h
          · exact absurd h.length_le (by simp)
        have hfree : fs1.isDirAt (n :: m) = true ∨ (fs1.node (n :: m) = none ∧ fs1.node (n :: m).tail = some (.dir true)) := by
          rcases hend with h | ⟨h5, h6⟩
          · exact .inl (hch.dirs _ h)
          · right
            refine ⟨hsame.trans h5, ?_⟩
            rw [List.tail_cons] at h6 ⊢
            rcases h6 with h6 | h6
            · rcases h3 m with h | ⟨-, -, h⟩
              · obtain ⟨w, hw⟩ := isDirAt_some.1 h2
                rw [hw, h6] at h; simp at h
              · exact h
            · exact hch.keep _ _ id h6
        rcases mkdir_of hr1 hfree with ⟨g1, g2, g3⟩ | ⟨g1, g2⟩
        · rw [g2]
          exact ⟨g3, g1, h3.mono (List.suffix_cons _ _)⟩
        · rw [g2]
          refine ⟨rfl, ?_, grown_set h3 (List.suffix_cons _ _) (hsame ▸ g1)⟩
          unfold FS.isDirAt; rw [set_node, if_pos rfl]
      · exfalso
        have : walk fs (start fs p) (pieces p) = .ok ((pieces p).foldl stepLoc (start fs p)) := by
          refine walk_dirs fun as y ys e' => ?_
          rw [foldl_dead (fun d hd => hdead d (by rw [e']; simp [hd]))]
          exact hstart
        rw [this] at hk; simp at hk

/-! ## One file -/

theorem climbs_of_mem {r : Path} (h : [dot, dot] ∈ pieces r) : Climbs r := by
  obtain ⟨xs, ys, e⟩ := List.append_of_mem h
  have hr : r = joinPieces (xs ++ [dot, dot] :: ys) := by rw [← e, join_pieces]
  refine ⟨if xs = [] then [] else joinPieces xs ++ [slash], if ys = [] then [] else slash :: joinPieces ys, ?_, ?_, ?_⟩
  · rw [hr]
    by_cases h1 : xs = []
    · rw [if_pos h1, h1]
      by_cases h2 : ys = []
      · rw [if_pos h2, h2]; rfl
      · rw [if_neg h2, List.nil_append, join_cons h2]; rfl
    · rw [if_neg h1, join_append h1 (by simp)]
      by_cases h2 : ys = []
      · rw [if_pos h2, h2]; simp [joinPieces, dot]
      · rw [if_neg h2, join_cons h2]; simp [dot]
  · by_cases h1 : xs = []
    · rw [if_pos h1]; exact .inl rfl
    · rw [if_neg h1]; exact .inr ⟨_, rfl⟩
  · by_cases h2 : ys = []
    · rw [if_pos h2]; exact .inl rfl
    · rw [if_neg h2]; exact .inr rfl

/-- A clear way in the sense of the specification. -/
theorem way_of_clear {fs : FS} (hwf : Wf fs) {pre : Path} (hl : Lead pre) (h : Clear fs pre) :
    Way fs (start fs pre) (leadPieces pre) := by
  rcases hl with rfl | ⟨q0, hq0⟩
  · refine way_dead hwf.cwd ?_
    simp [leadPieces, pieces]
  · intro xs ys e
    by_cases hx : xs = []
    · subst hx
      have := start_dir hwf pre
      exact ⟨.inl this, .inl this⟩
    · have hp : pieces pre = xs ++ (ys ++ [[]]) := by
        have : pieces pre = pieces q0 ++ [[]] := by rw [hq0]; exact pieces_sep q0 []
        unfold leadPieces at e
        rw [this, List.dropLast_concat] at e
        rw [this, e, List.append_assoc]
      have hj : pre = joinPieces xs ++ slash :: joinPieces (ys ++ [[]]) := by
        conv => lhs; rw [← join_pieces pre, hp]
        exact join_append hx (by simp)
      have hs : ∀ n ∈ pieces pre, slash ∉ n := pieces_noslash pre
      have hpl : place fs.cwd (joinPieces xs ++ [slash]) = xs.foldl stepLoc (start fs pre) := by
        rw [place_start]
        have h1 : start fs (joinPieces xs ++ [slash]) = start fs pre := by
          unfold start isAbsolute
          rw [hj]
          cases joinPieces xs <;> rfl
        have h2 : pieces (joinPieces xs ++ [slash]) = xs ++ [[]] := by
          rw [show joinPieces xs ++ [slash] = joinPieces xs ++ slash :: [] from rfl, pieces_sep,
            pieces_join hx (fun n hn => hs n (by rw [hp]; simp [hn]))]
          rfl
        rw [h1, h2, List.foldl_append]
        rfl
      have := h (joinPieces xs) (joinPieces (ys ++ [[]])) hj
      rw [show ([47] : Path) = [slash] from rfl, hpl] at this
      rcases this with h1 | ⟨h1, h2, h3⟩
      · exact ⟨.inl h1, .inl h1⟩
      · refine ⟨.inr ⟨h1, h2⟩, .inr fun hm => h3 (climbs_of_mem ?_)⟩
        rw [pieces_join (by simp) (fun n hn => hs n (by rw [hp]; simp at hn ⊢; exact .inr hn))]
        simp [hm]

theorem place_lead (fs : FS) {pre : Path} (hl : Lead pre) : place fs.cwd pre = (leadPieces pre).foldl stepLoc (start fs pre) := by
  rw [place_start]
  rcases hl with rfl | ⟨q, rfl⟩
  · rfl
  · show (pieces (q ++ slash :: [])).foldl _ _ = (pieces (q ++ slash :: [])).dropLast.foldl _ _
    rw [pieces_sep, show pieces ([] : Path) = [[]] from rfl, List.dropLast_concat, List.foldl_append]
    rfl

/-- The directory of an output is made if the way is clear. -/
theorem prepare_clear {fs : FS} (hwf : Wf fs) {pre : Path} {n : Name} (hl : Lead pre) (hn : IsName n) (hc : Clear fs pre) :
    (prepare fs (pre ++ n)).2 = true ∧ Grown fs (prepare fs (pre ++ n)).1 (place fs.cwd pre) ∧
    resolve (prepare fs (pre ++ n)).1 (pre ++ n) = .ok (n :: place fs.cwd pre) ∧
    (prepare fs (pre ++ n)).1.isDirAt (place fs.cwd pre) = true := by
  have hw := way_of_clear hwf hl hc
  have hpc : pieces (pre ++ n) = leadPieces pre ++ [n] := by rw [pieces_lead hl, pieces_name hn.2.1]
  have hst : start fs (pre ++ n) = start fs pre := by
    unfold start isAbsolute
    cases pre with
    | nil =>
      cases n with
      | nil => rfl
      | cons b n =>
        have : b ≠ slash := by rintro rfl; exact hn.2.1 (List.mem_cons_self)
        simp [this]
    | cons b pre => rfl
  obtain ⟨q, hq, habs, htq, hlen, hsp⟩ := parent_spec hpc (name_not_dead hn)
  have hsq : start fs q = start fs pre := by rw [← hst]; unfold start; rw [habs]
  have hplq : place fs.cwd q = place fs.cwd pre := by
    rw [place_start, hsq, place_lead fs hl]
    rcases hsp with ⟨ds, e2, hd⟩ | ⟨h1, h2⟩
    · rw [e2, List.foldl_append, foldl_dead hd]
    · rw [foldl_dead h1, foldl_dead h2]
  have hwq : Way fs (start fs q) (pieces q) := by
    rw [hsq]
    rcases hsp with ⟨ds, e2, -⟩ | ⟨h1, -⟩
    · rw [e2] at hw; exact hw.init
    · exact way_dead (start_dir hwf pre) h1
  have hkey : (prepare fs (pre ++ n)).2 = true ∧ Grown fs (prepare fs (pre ++ n)).1 (place fs.cwd pre) ∧
      (prepare fs (pre ++ n)).1.isDirAt (place fs.cwd pre) = true := by
    unfold prepare
    rw [hq]
    simp only
    by_cases hd : isDir fs q = true
    · rw [if_pos hd]
      refine ⟨rfl, .refl _ _, ?_⟩
      unfold isDir at hd
      split at hd
      · rename_i l hr
        rw [← hplq, ← resolve_place hr]; exact hd
      · simp at hd
    · rw [if_neg hd]
      obtain ⟨h1, h2, h3⟩ := createDirAll_way (q.length + 1) hwf (by omega) htq hwq
      rw [hplq] at h2 h3
      exact ⟨h1, h3, h2⟩
  refine ⟨hkey.1, hkey.2.1, ?_, hkey.2.2⟩
  have hch := prepare_change fs (pre ++ n) (fun _ => False)
  have h2 := hkey.2.2
  generalize (prepare fs (pre ++ n)).1 = fs1 at hch h2
  unfold resolve
  rw [if_neg (by simp; exact fun _ => hn.1), hch.cwd]
  show walk fs1 (start fs (pre ++ n)) _ = _
  rw [hst, hpc, place_lead fs hl]
  rw [place_lead fs hl] at h2
  have hstep : n :: (leadPieces pre).foldl stepLoc (start fs pre) = (leadPieces pre ++ [n]).foldl stepLoc (start fs pre) := by
    rw [List.foldl_append]
    simp only [List.foldl_cons, List.foldl_nil]
    generalize (leadPieces pre).foldl stepLoc (start fs pre) = m
    unfold stepLoc
    rw [if_neg (by simp [name_not_dead hn]), if_neg (by simp; exact hn.2.2.2)]
  rw [hstep]
  refine walk_dirs fun as y ys e' => ?_
  obtain ⟨zs, z, e3⟩ := exists_last (xs := y :: ys) (by simp)
  rw [e3, ← List.append_assoc] at e'
  have e4 : leadPieces pre = as ++ zs := (List.append_inj' e' rfl).1
  rcases (hw as zs e4).2 with hh | hh
  · exact hch.dirs _ hh
  · refine (hch.wf hwf).suffix ?_ h2
    rw [e4, List.foldl_append]
    exact suffix_foldl hh _

/-- If everything is in place for `j` it is done: its output is written, and nothing else changes but for the directories
above it. -/
theorem writeOut_made {alpha : Char → Bool} {fs : FS} (hwf : Wf fs) {op : Path} {ext : Option FileType} {j : OutJob}
    (h : j.Ok alpha fs op ext) :
    (writeOutFile alpha fs j.path (some op) ext).2 = .done ∧
    (writeOutFile alpha fs j.path (some op) ext).1.node (j.target fs) =
      some (.file (utf8 j.text) (readable fs (j.target fs)) true) ∧
    (∀ k, k ≠ j.target fs → (writeOutFile alpha fs j.path (some op) ext).1.node k = fs.node k ∨
      (k <:+ j.dir fs ∧ fs.node k = none ∧ (writeOutFile alpha fs j.path (some op) ext).1.node k = some (.dir true))) ∧
    (writeOutFile alpha fs j.path (some op) ext).1.isDirAt (j.dir fs) = true ∧
    resolve (writeOutFile alpha fs j.path (some op) ext).1 (j.pre ++ j.name) = .ok (j.target fs) := by
  obtain ⟨w, hi⟩ := h.input
  obtain ⟨pre, n, d, hp, -, -, -⟩ := resolve_file hwf h.leads (node_file_not_dir hi)
  have ho : (outPath fs j.path (some op) j.ty).2.1 = j.pre ++ j.name :=
    outPath_unique (outPath_spec fs hp (some op) j.ty) h.out
  obtain ⟨hprep, hgrow, hres, hdir⟩ := prepare_clear hwf h.parts.1 h.parts.2 h.clear
  have hch := prepare_change fs (j.pre ++ j.name) (fun _ => False)
  have hout : outPath fs j.path (some op) j.ty = ((prepare fs (j.pre ++ j.name)).1, j.pre ++ j.name, true) := by
    unfold outPath at ho ⊢
    simp only at ho ⊢
    rw [ho, hprep]
  generalize (prepare fs (j.pre ++ j.name)).1 = fs1 at *
  have htgt : fs1.node (j.target fs) = fs.node (j.target fs) := by
    rcases hgrow (j.target fs) with h | ⟨h, -⟩
    · exact h
    · exact absurd h.length_le (by simp [OutJob.target, OutJob.dir])
  have hread : readable fs1 (j.target fs) = readable fs (j.target fs) := by unfold readable; rw [htgt]
  have hopen : openTrunc fs1 (j.pre ++ j.name) =
      some (fs1.set (j.target fs) (.file [] (readable fs (j.target fs)) true), j.target fs) := by
    rw [← hread]
    refine openTrunc_can hres ?_
    rcases h.output with h1 | ⟨h1, h2⟩
    · left
      obtain ⟨d, r, h1⟩ := h1
      exact ⟨d, r, htgt.trans h1⟩
    · right
      refine ⟨htgt.trans h1, ?_⟩
      rcases h2 with h2 | h2
      · rcases hgrow (j.dir fs) with h3 | ⟨-, -, h3⟩
        · obtain ⟨w, hw⟩ := isDirAt_some.1 hdir
          exact absurd (hw.symm.trans (h3.trans h2)) (by simp)
        · exact h3
      · exact hch.keep _ _ id h2
  obtain ⟨hc, hne⟩ := (chosen_iff _ _ _).2 h.type
  rw [writeOut_eq, hc]
  simp only
  rw [if_neg (by simp [hne]), getAllData_of h.leads hi]
  simp only [hout, hopen]
  rw [(minifyAs_iff _ _ _ _).2 h.valid]
  simp only
  have hnode : (fs1.set (j.target fs) (.file [] (readable fs (j.target fs)) true)).node (j.target fs) =
      some (.file [] (readable fs (j.target fs)) true) := by rw [set_node, if_pos rfl]
  obtain ⟨w1, -, w3, w4⟩ := writeAll_spec hnode (utf8 j.text)
  have hc2 := ((openTrunc_spec hopen).2.2.1.trans w1).resolve hres
  have hok := w4.2 (by
    show ∀ k, fs1.room _ = _ → _
    rw [hch.room]; exact h.room)
  have hfin := w3 hok
  have hfr := writeAll_frame (fs1.set (j.target fs) (.file [] (readable fs (j.target fs)) true)) (j.target fs) (utf8 j.text)
  generalize writeAll (fs1.set (j.target fs) (.file [] (readable fs (j.target fs)) true)) (j.target fs) (utf8 j.text) = q
    at hok hfin hfr hc2
  obtain ⟨fs3, b⟩ := q
  simp only at hok hfin hfr hc2
  subst hok
  have hne : j.dir fs ≠ j.target fs := fun e => absurd (congrArg List.length e) (by simp [OutJob.target])
  refine ⟨rfl, hfin, ?_, ?_, ?_⟩
  · intro k hk
    have e : fs3.node k = fs1.node k := by rw [hfr k hk, set_node, if_neg hk]
    simp only
    rw [e]
    exact hgrow k
  · unfold FS.isDirAt at hdir ⊢
    simp only
    rw [hfr _ hne, set_node, if_neg hne]
    exact hdir
  · exact hc2

theorem writeOut_out {alpha : Char → Bool} {fs : FS} (hwf : Wf fs) {op : Path} {ext : Option FileType} {j : OutJob}
    (h : j.Ok alpha fs op ext) :
    (writeOutFile alpha fs j.path (some op) ext).2 = .done ∧
    (writeOutFile alpha fs j.path (some op) ext).1.node (j.target fs) =
      some (.file (utf8 j.text) (readable fs (j.target fs)) true) ∧
    (∀ k, k ≠ j.target fs → (writeOutFile alpha fs j.path (some op) ext).1.node k = fs.node k ∨
      (k <:+ j.dir fs ∧ fs.node k = none ∧ (writeOutFile alpha fs j.path (some op) ext).1.node k = some (.dir true))) :=
  let ⟨a, b, c, _⟩ := writeOut_made hwf h
  ⟨a, b, c⟩

/-! ## Several files -/

theorem place_suffix (fs : FS) {q r : Path} (h : ¬ Climbs r) : place fs.cwd (q ++ [47]) <:+ place fs.cwd (q ++ 47 :: r) := by
  rw [place_start, place_start]
  have h1 : start fs (q ++ [47]) = start fs (q ++ 47 :: r) := by unfold start isAbsolute; cases q <;> rfl
  rw [h1, show q ++ [47] = q ++ slash :: [] from rfl, show q ++ 47 :: r = q ++ slash :: r from rfl, pieces_sep, pieces_sep,
    List.foldl_append, List.foldl_append]
  exact suffix_foldl (fun hm => h (climbs_of_mem hm)) _

theorem outJob_after {alpha : Char → Bool} {fs fs' : FS} {op : Path} {ext : Option FileType} {i j : OutJob}
    (h : j.Ok alpha fs op ext) (hd : isDir fs op = true) {L : Loc → Prop} (hc : Change fs fs' L)
    (hfr : ∀ k, k ≠ i.target fs → fs'.node k = fs.node k ∨
      (k <:+ i.dir fs ∧ fs.node k = none ∧ fs'.node k = some (.dir true)))
    (hap : i.Apart fs j) : j.Ok alpha fs' op ext := by
  obtain ⟨ha, hb, hs⟩ := hap
  have edir : j.dir fs' = j.dir fs := by unfold OutJob.dir; rw [hc.cwd]
  have etgt : j.target fs' = j.target fs := by unfold OutJob.target; rw [edir]
  have hsuf : ∀ k, k <:+ j.dir fs → fs.node k = none ∨ fs.node k = some (.dir true) →
      fs'.node k = fs.node k ∨ (fs.node k = none ∧ fs'.node k = some (.dir true)) := by
    intro k hk hn
    have : k ≠ i.target fs := by
      rintro rfl; exact ha (hk.trans (List.suffix_cons _ _))
    exact (hfr k this).imp_right fun ⟨_, h⟩ => h
  have htgt : fs'.node (j.target fs) = fs.node (j.target fs) := by
    rcases hfr (j.target fs) (fun e => ha (e ▸ List.suffix_refl _)) with h | ⟨h, -⟩
    · exact h
    · exact absurd (h.trans (List.suffix_cons _ _)) hb
  have hsrc : fs'.node j.source = fs.node j.source := by
    obtain ⟨w, hi⟩ := h.input
    rcases hfr j.source (fun e => hs e.symm) with h | ⟨-, h, -⟩
    · exact h
    · rw [hi] at h; simp at h
  refine ⟨h.type, hc.resolve h.leads, by rw [hsrc]; exact h.input, h.valid, ?_, h.parts, ?_, ?_, ?_⟩
  · have h1 := h.out
    obtain ⟨pre, n, n', g1, g2, g3⟩ := h1
    refine ⟨pre, n, n', g1, g2, ?_⟩
    simp only at g3 ⊢
    rw [if_pos hd] at g3
    rw [if_pos (hc.isDir hd)]
    exact g3
  · intro q r e
    rw [hc.cwd]
    rcases h.clear q r e with h1 | ⟨h1, h2, h3⟩
    · exact .inl (hc.dirs _ h1)
    · have hsx : place fs.cwd (q ++ [47]) <:+ j.dir fs := by
        unfold OutJob.dir; rw [e]; exact place_suffix fs h3
      generalize place fs.cwd (q ++ [47]) = x at *
      have htx : x.tail <:+ j.dir fs := (List.tail_suffix x).trans hsx
      rcases hsuf x hsx (.inl h1) with h4 | ⟨-, h4⟩
      · right
        refine ⟨h4.trans h1, ?_, h3⟩
        rcases hsuf x.tail htx h2 with h5 | ⟨-, h5⟩
        · rw [h5]; exact h2
        · exact .inr h5
      · left; unfold FS.isDirAt; rw [h4]
  · rw [etgt, edir, htgt]
    rcases h.output with h1 | ⟨h1, h2⟩
    · exact .inl h1
    · right
      refine ⟨h1, ?_⟩
      rcases hsuf _ (List.suffix_refl _) h2 with h5 | ⟨-, h5⟩
      · rw [h5]; exact h2
      · exact .inr h5
  · rw [etgt, hc.room]; exact h.room

/-- With `-o` and a directory: if everything is in place, everything is done, and nothing else changes but for the directories
above the outputs. -/
theorem run_out (alpha : Char → Bool) (ext : Option FileType) {fs : FS} (hwf : Wf fs) {op : Path} (hop : isDir fs op = true)
    (js : List OutJob) (hok : ∀ j ∈ js, j.Ok alpha fs op ext) (hd : js.Pairwise (OutJob.Apart fs)) :
    (run alpha (some op) ext fs (js.map OutJob.path)).2 = js.map (fun _ => Note.done) ∧
    (∀ j ∈ js, (run alpha (some op) ext fs (js.map OutJob.path)).1.node (j.target fs) =
      some (.file (utf8 j.text) (readable fs (j.target fs)) true)) ∧
    (∀ l, (∀ j ∈ js, l ≠ j.target fs) → (run alpha (some op) ext fs (js.map OutJob.path)).1.node l = fs.node l ∨
      ((∃ j ∈ js, l <:+ j.dir fs) ∧ fs.node l = none ∧
        (run alpha (some op) ext fs (js.map OutJob.path)).1.node l = some (.dir true))) := by
  induction js generalizing fs with
  | nil => exact ⟨rfl, by simp, fun l _ => .inl rfl⟩
  | cons j js ih =>
    rw [List.pairwise_cons] at hd
    have hj := hok j (by simp)
    obtain ⟨h1, h2, h3⟩ := writeOut_out hwf hj
    have hch := (writeOut_spec alpha hwf j.path (some op) ext).1
    rw [List.map_cons, run_cons, if_neg (by rw [h1]; decide), List.map_cons, h1]
    simp only
    generalize (writeOutFile alpha fs j.path (some op) ext).1 = fs1 at *
    have edir : ∀ i : OutJob, i.dir fs1 = i.dir fs := fun i => by unfold OutJob.dir; rw [hch.cwd]
    have etgt : ∀ i : OutJob, i.target fs1 = i.target fs := fun i => by unfold OutJob.target; rw [edir]
    have htg : ∀ i ∈ js, fs1.node (i.target fs) = fs.node (i.target fs) := by
      intro i hi
      obtain ⟨a1, a2, -⟩ := hd.1 i hi
      rcases h3 (i.target fs) (fun e => a1 (e ▸ List.suffix_refl _)) with h | ⟨h, -⟩
      · exact h
      · exact absurd (h.trans (List.suffix_cons _ _)) a2
    obtain ⟨g1, g2, g3⟩ := ih (hch.wf hwf) (hch.isDir hop)
      (fun i hi => outJob_after (hok i (by simp [hi])) hop hch h3 (hd.1 i hi))
      (hd.2.imp fun {a b} ⟨x, y, z⟩ => by unfold OutJob.Apart; rw [etgt, etgt]; exact ⟨x, y, z⟩)
    refine ⟨by rw [g1], ?_, ?_⟩
    · intro i hi
      rcases List.mem_cons.1 hi with rfl | hi
      · rcases g3 (i.target fs) (fun k hk => by
          rw [etgt]; rintro e; exact (hd.1 k hk).1 (e ▸ List.suffix_refl _)) with h | ⟨-, h, -⟩
        · rw [h]; exact h2
        · rw [h2] at h; simp at h
      · have := g2 i hi
        rw [etgt] at this
        rw [this]
        unfold readable
        rw [htg i hi]
    · intro l hl
      have hlj := hl j (by simp)
      have ha := h3 l hlj
      have hb := g3 l (fun i hi => by rw [etgt]; exact hl i (by simp [hi]))
      rcases hb with hb | ⟨⟨i, hi, hs⟩, hb1, hb2⟩
      · rcases ha with ha | ⟨ha1, ha2, ha3⟩
        · exact .inl (hb.trans ha)
        · exact .inr ⟨⟨j, by simp, ha1⟩, ha2, hb.trans ha3⟩
      · rcases ha with ha | ⟨ha1, ha2, ha3⟩
        · exact .inr ⟨⟨i, by simp [hi], by rw [edir] at hs; exact hs⟩, ha ▸ hb1, hb2⟩
        · rw [ha3] at hb1; simp at hb1

/-- The directories of the outputs are there afterwards. -/
theorem run_out_dirs (alpha : Char → Bool) (ext : Option FileType) {fs : FS} (hwf : Wf fs) {op : Path} (hop : isDir fs op = true)
    (js : List OutJob) (hok : ∀ j ∈ js, j.Ok alpha fs op ext) (hd : js.Pairwise (OutJob.Apart fs)) :
    ∀ j ∈ js, (run alpha (some op) ext fs (js.map OutJob.path)).1.isDirAt (j.dir fs) = true := by
  induction js generalizing fs with
  | nil => simp
  | cons j js ih =>
    rw [List.pairwise_cons] at hd
    obtain ⟨h1, -, h3, h4, -⟩ := writeOut_made hwf (hok j (by simp))
    have hch := (writeOut_spec alpha hwf j.path (some op) ext).1
    rw [List.map_cons, run_cons, if_neg (by rw [h1]; decide)]
    simp only
    generalize (writeOutFile alpha fs j.path (some op) ext).1 = fs1 at *
    have edir : ∀ i : OutJob, i.dir fs1 = i.dir fs := fun i => by unfold OutJob.dir; rw [hch.cwd]
    have etgt : ∀ i : OutJob, i.target fs1 = i.target fs := fun i => by unfold OutJob.target; rw [edir]
    have hm : DirMode fs1 (some op) := fun o e => by rw [← Option.some.inj e]; exact hch.isDir hop
    intro i hi
    rcases List.mem_cons.1 hi with rfl | hi
    · exact (run_change alpha ext (hch.wf hwf) hm _).dirs _ h4
    · have := ih (hch.wf hwf) (hch.isDir hop)
        (fun i hi => outJob_after (hok i (by simp [hi])) hop hch h3 (hd.1 i hi))
        (hd.2.imp fun {a b} ⟨x, y, z⟩ => by unfold OutJob.Apart; rw [etgt, etgt]; exact ⟨x, y, z⟩) i hi
      rw [edir] at this
      exact this

/-- What is needed for a file is still there once all outputs have been written. -/
theorem outJob_again {alpha : Char → Bool} {fs fs' : FS} {op : Path} {ext : Option FileType} {j : OutJob}
    (h : j.Ok alpha fs op ext) {L : Loc → Prop} (hc : Change fs fs' L) (hwf : Wf fs) (hd : isDir fs' op = isDir fs op)
    (hs : fs'.node j.source = fs.node j.source) (ht : ∃ d r, fs'.node (j.target fs) = some (.file d r true))
    (hdir : fs'.isDirAt (j.dir fs) = true) : j.Ok alpha fs' op ext := by
  have edir : j.dir fs' = j.dir fs := by unfold OutJob.dir; rw [hc.cwd]
  have etgt : j.target fs' = j.target fs := by unfold OutJob.target; rw [edir]
  refine ⟨h.type, hc.resolve h.leads, by rw [hs]; exact h.input, h.valid, ?_, h.parts, ?_, ?_, ?_⟩
  · obtain ⟨pre, n, n', g1, g2, g3⟩ := h.out
    refine ⟨pre, n, n', g1, g2, ?_⟩
    simp only at g3 ⊢
    rw [hd]
    exact g3
  · intro q r e
    rw [hc.cwd]
    left
    rcases h.clear q r e with h1 | ⟨-, -, h3⟩
    · exact hc.dirs _ h1
    · refine (hc.wf hwf).suffix ?_ hdir
      unfold OutJob.dir; rw [e]; exact place_suffix fs h3
  · rw [etgt]; exact .inl ht
  · rw [etgt, hc.room]; exact h.room

/-- Running again with `-o` and a directory changes nothing. -/
theorem run_out_again (alpha : Char → Bool) (ext : Option FileType) {fs : FS} (hwf : Wf fs) {op : Path} (hop : isDir fs op = true)
    (js : List OutJob) (hok : ∀ j ∈ js, j.Ok alpha fs op ext) (hd : js.Pairwise (OutJob.Apart fs))
    (hs : ∀ i ∈ js, ∀ j ∈ js, i.target fs ≠ j.source) :
    (run alpha (some op) ext (run alpha (some op) ext fs (js.map OutJob.path)).1 (js.map OutJob.path)).2 =
      js.map (fun _ => Note.done) ∧
    ∀ l, (run alpha (some op) ext (run alpha (some op) ext fs (js.map OutJob.path)).1 (js.map OutJob.path)).1.node l =
      (run alpha (some op) ext fs (js.map OutJob.path)).1.node l := by
  obtain ⟨-, a2, a3⟩ := run_out alpha ext hwf hop js hok hd
  have a4 := run_out_dirs alpha ext hwf hop js hok hd
  have hch := run_change alpha ext hwf (out := some op) (fun o e => by rw [← Option.some.inj e]; exact hop) (js.map OutJob.path)
  generalize run alpha (some op) ext fs (js.map OutJob.path) = r at a2 a3 a4 hch
  obtain ⟨fs1, ns⟩ := r
  simp only at a2 a3 a4 hch ⊢
  have edir : ∀ i : OutJob, i.dir fs1 = i.dir fs := fun i => by unfold OutJob.dir; rw [hch.cwd]
  have etgt : ∀ i : OutJob, i.target fs1 = i.target fs := fun i => by unfold OutJob.target; rw [edir]
  have hok1 : ∀ j ∈ js, j.Ok alpha fs1 op ext := by
    intro j hj
    refine outJob_again (hok j hj) hch hwf (by rw [hop, hch.isDir hop]) ?_ ⟨_, _, a2 j hj⟩ (a4 j hj)
    obtain ⟨w, hi⟩ := (hok j hj).input
    rcases a3 j.source (fun i hi e => hs i hi j hj e.symm) with h | ⟨-, h, -⟩
    · exact h
    · rw [hi] at h; simp at h
  obtain ⟨b1, b2, b3⟩ := run_out alpha ext (hch.wf hwf) (hch.isDir hop) js hok1
    (hd.imp fun {a b} ⟨x, y, z⟩ => by unfold OutJob.Apart; rw [etgt, etgt]; exact ⟨x, y, z⟩)
  refine ⟨b1, fun l => ?_⟩
  by_cases hl : ∃ j ∈ js, l = j.target fs
  · obtain ⟨j, hj, rfl⟩ := hl
    have h := b2 j hj
    rw [etgt] at h
    rw [h, a2 j hj]
    have : readable fs1 (j.target fs) = readable fs (j.target fs) := by
      conv => lhs; unfold readable
      rw [a2 j hj]
    rw [this]
  · rcases b3 l (fun j hj e => hl ⟨j, hj, by rw [e, etgt]⟩) with h | ⟨⟨j, hj, hsx⟩, h, -⟩
    · exact h
    · rw [edir] at hsx
      have := (hch.wf hwf).suffix hsx (a4 j hj)
      obtain ⟨w, hw⟩ := isDirAt_some.1 this
      rw [hw] at h; simp at h

/-- Running again with `-o` for a single file changes nothing. -/
theorem run_one_again (alpha : Char → Bool) (ext : Option FileType) {fs : FS} (hwf : Wf fs) {op : Path} {j : OutJob}
    (hok : j.Ok alpha fs op ext) (hs : j.target fs ≠ j.source) :
    (run alpha (some op) ext (run alpha (some op) ext fs [j.path]).1 [j.path]).2 = [.done] ∧
    ∀ l, (run alpha (some op) ext (run alpha (some op) ext fs [j.path]).1 [j.path]).1.node l =
      (run alpha (some op) ext fs [j.path]).1.node l := by
  have one : ∀ fs : FS, (writeOutFile alpha fs j.path (some op) ext).2 = .done →
      run alpha (some op) ext fs [j.path] = ((writeOutFile alpha fs j.path (some op) ext).1, [.done]) := by
    intro fs h
    rw [run_cons, if_neg (by rw [h]; decide), h]
    rfl
  obtain ⟨h1, h2, h3, h4, h5⟩ := writeOut_made hwf hok
  have hch := (writeOut_spec alpha hwf j.path (some op) ext).1
  rw [one fs h1]
  simp only
  generalize (writeOutFile alpha fs j.path (some op) ext).1 = fs1 at *
  have edir : j.dir fs1 = j.dir fs := by unfold OutJob.dir; rw [hch.cwd]
  have etgt : j.target fs1 = j.target fs := by unfold OutJob.target; rw [edir]
  have hop : isDir fs1 op = isDir fs op := by
    cases hd : isDir fs op with
    | true => exact hch.isDir hd
    | false =>
      obtain ⟨pre, n, n', -, -, g3⟩ := hok.out
      simp only [hd, Bool.false_eq_true, if_false] at g3
      rw [g3] at h5
      unfold isDir
      rw [h5]
      simp only
      unfold FS.isDirAt
      rw [h2]
  have hok1 : j.Ok alpha fs1 op ext := by
    refine outJob_again hok hch hwf hop ?_ ⟨_, _, h2⟩ h4
    obtain ⟨w, hi⟩ := hok.input
    rcases h3 j.source (fun e => hs e.symm) with h | ⟨-, h, -⟩
    · exact h
    · rw [hi] at h; simp at h
  obtain ⟨b1, b2, b3⟩ := writeOut_out (hch.wf hwf) hok1
  rw [one fs1 b1]
  refine ⟨rfl, fun l => ?_⟩
  by_cases hl : l = j.target fs
  · subst hl
    rw [etgt] at b2
    rw [b2, h2]
    have : readable fs1 (j.target fs) = readable fs (j.target fs) := by
      conv => lhs; unfold readable
      rw [h2]
    rw [this]
  · rcases b3 l (by rw [etgt]; exact hl) with h | ⟨hsx, h, -⟩
    · exact h
    · rw [edir] at hsx
      have := (hch.wf hwf).suffix hsx h4
      obtain ⟨w, hw⟩ := isDirAt_some.1 this
      rw [hw] at h; simp at h

end Verif.Cli
