import Verif.Model.Cli
import Verif.Spec.Cli
import Verif.Proofs.Utf8
/-!
# The operations on paths do what their specification says
-/
set_option linter.unusedSimpArgs false
namespace Verif.Cli
open Verif.JsonRead Verif.Spec.Cli

theorem pieces_ne_nil (p : Path) : pieces p ≠ [] := by
  cases p with
  | nil => simp [pieces]
  | cons b p => unfold pieces; split; · simp
                split <;> simp

theorem pieces_sep (p q : Path) : pieces (p ++ slash :: q) = pieces p ++ pieces q := by
  induction p with
  | nil => simp [pieces]
  | cons b p ih =>
    simp only [List.cons_append, pieces]
    split
    · rw [ih]; rfl
    · rw [ih]
      have := pieces_ne_nil p
      cases h : pieces p with
      | nil => exact absurd h this
      | cons n ns => rfl

theorem pieces_name {n : Name} (h : slash ∉ n) : pieces n = [n] := by
  induction n with
  | nil => rfl
  | cons b n ih =>
    simp only [List.mem_cons, not_or] at h
    unfold pieces
    rw [if_neg (by simp; exact fun e => h.1 e.symm), ih h.2]

theorem pieces_noslash (p : Path) : ∀ n ∈ pieces p, slash ∉ n := by
  induction p with
  | nil => simp [pieces]
  | cons b p ih =>
    unfold pieces
    split
    · intro n hn
      rcases List.mem_cons.1 hn with rfl | hn
      · simp
      · exact ih n hn
    · rename_i hb
      cases h : pieces p with
      | nil => exact absurd h (pieces_ne_nil p)
      | cons m ms =>
        rw [h] at ih
        intro n hn
        rcases List.mem_cons.1 hn with rfl | hn
        · simp only [List.mem_cons, not_or]
          exact ⟨fun e => hb (by simp [e]), ih m (by simp)⟩
        · exact ih n (by simp [hn])

theorem join_cons {n : Name} {ns : List Name} (h : ns ≠ []) : joinPieces (n :: ns) = n ++ slash :: joinPieces ns := by
  cases ns with
  | nil => exact absurd rfl h
  | cons m ms => rfl

theorem join_pieces (p : Path) : joinPieces (pieces p) = p := by
  induction p with
  | nil => rfl
  | cons b p ih =>
    unfold pieces
    split
    · rename_i hb
      rw [join_cons (pieces_ne_nil p), ih]
      simp only [beq_iff_eq] at hb; rw [hb]; rfl
    · cases h : pieces p with
      | nil => exact absurd h (pieces_ne_nil p)
      | cons m ms =>
        rw [h] at ih
        cases ms with
        | nil => simp only [joinPieces] at *; rw [ih]
        | cons k ks => simp only [joinPieces, List.cons_append] at *; rw [ih]

theorem join_append {xs ys : List Name} (hx : xs ≠ []) (hy : ys ≠ []) :
    joinPieces (xs ++ ys) = joinPieces xs ++ slash :: joinPieces ys := by
  induction xs with
  | nil => exact absurd rfl hx
  | cons x xs ih =>
    cases xs with
    | nil => simp only [List.cons_append, List.nil_append, join_cons hy]; rfl
    | cons z zs =>
      rw [List.cons_append, join_cons (by simp), ih (by simp), join_cons (n := x) (ns := z :: zs) (by simp)]
      simp

/-- The pieces of a trail: an empty one (it goes to the name before it), then dead ones. -/
theorem pieces_trail {t : List UInt8} (h : Trail t) : ∃ ds, pieces t = [] :: ds ∧ ∀ d ∈ ds, dead d = true := by
  induction h with
  | nil => exact ⟨[], rfl, by simp⟩
  | @sep t _ ih =>
    obtain ⟨ds, e, hd⟩ := ih
    refine ⟨[] :: ds, ?_, ?_⟩
    · show (if (47 : UInt8) == slash then _ else _) = _
      rw [if_pos (by decide), e]
    · intro d hm
      rcases List.mem_cons.1 hm with rfl | hm
      · rfl
      · exact hd d hm
  | @cur t _ ih =>
    obtain ⟨ds, e, hd⟩ := ih
    refine ⟨[dot] :: ds, ?_, ?_⟩
    · show (if (47 : UInt8) == slash then _ else _) = _
      rw [if_pos (by decide)]
      show [] :: (if (46 : UInt8) == slash then _ else _) = _
      rw [if_neg (by decide), e]; rfl
    · intro d hm
      rcases List.mem_cons.1 hm with rfl | hm
      · rfl
      · exact hd d hm

theorem pieces_app_trail {n : Name} (hn : slash ∉ n) {t : List UInt8} (h : Trail t) :
    ∃ ds, pieces (n ++ t) = n :: ds ∧ ∀ d ∈ ds, dead d = true := by
  obtain ⟨ds, e, hd⟩ := pieces_trail h
  refine ⟨ds, ?_, hd⟩
  induction n with
  | nil => exact e
  | cons b n ih =>
    simp only [List.mem_cons, not_or] at hn
    rw [List.cons_append, pieces, if_neg (by simp; exact fun e => hn.1 e.symm), ih hn.2]

theorem trail_of_dead (ds : List Name) (h : ∀ d ∈ ds, dead d = true) :
    Trail (if ds = [] then [] else slash :: joinPieces ds) := by
  induction ds with
  | nil => exact .nil
  | cons d ds ih =>
    have ih := ih (fun x hx => h x (by simp [hx]))
    rw [if_neg (by simp)]
    have hd := h d (by simp)
    simp only [dead, Bool.or_eq_true, beq_iff_eq] at hd
    by_cases hds : ds = []
    · subst hds
      rcases hd with rfl | rfl
      · exact .sep .nil
      · exact .cur .nil
    · rw [if_neg hds] at ih
      rw [join_cons hds]
      rcases hd with rfl | rfl
      · exact .sep ih
      · exact .cur ih

theorem dropWhile_append_dead {xs ys : List Name} (h : ∀ d ∈ xs, dead d = true) :
    (xs ++ ys).dropWhile dead = ys.dropWhile dead := by
  induction xs with
  | nil => rfl
  | cons x xs ih =>
    rw [List.cons_append, List.dropWhile_cons_of_pos (h x (by simp)), ih (fun d hd => h d (by simp [hd]))]

/-- The pieces before a name. -/
def leadPieces (pre : Path) : List Name := (pieces pre).dropLast

theorem pieces_lead {pre : Path} (h : Lead pre) (q : Path) : pieces (pre ++ q) = leadPieces pre ++ pieces q := by
  rcases h with rfl | ⟨r, rfl⟩
  · rfl
  · rw [List.append_assoc]
    show pieces (r ++ slash :: q) = _
    rw [pieces_sep]
    show _ = (pieces (r ++ slash :: [])).dropLast ++ _
    rw [pieces_sep]; simp [pieces]

theorem join_lead {pre : Path} (h : Lead pre) (n : Name) : joinPieces (leadPieces pre ++ [n]) = pre ++ n := by
  rcases h with rfl | ⟨r, rfl⟩
  · rfl
  · show joinPieces ((pieces (r ++ slash :: [])).dropLast ++ [n]) = _
    rw [pieces_sep, show pieces ([] : Path) = [[]] from rfl, List.dropLast_concat,
      join_append (pieces_ne_nil r) (by simp), join_pieces]
    simp [joinPieces, slash]

theorem name_not_dead {n : Name} (h : IsName n) : dead n = false := by
  simp only [dead, Bool.or_eq_false_iff, beq_eq_false_iff_ne]
  exact ⟨h.1, h.2.2.1⟩

theorem pieces_names {p pre : Path} {n : Name} (h : Names p pre n) :
    ∃ ds, pieces p = leadPieces pre ++ n :: ds ∧ ∀ d ∈ ds, dead d = true := by
  obtain ⟨t, rfl, hl, hn, ht⟩ := h
  obtain ⟨ds, e, hd⟩ := pieces_app_trail hn.2.1 ht
  exact ⟨ds, by rw [List.append_assoc, pieces_lead hl, e], hd⟩

theorem live_names {p pre : Path} {n : Name} (h : Names p pre n) : live p = n :: (leadPieces pre).reverse := by
  obtain ⟨ds, e, hd⟩ := pieces_names h
  obtain ⟨t, -, hl, hn, ht⟩ := h
  unfold live
  rw [e, List.reverse_append, List.reverse_cons, List.append_assoc, dropWhile_append_dead (by simpa using hd)]
  simp only [List.cons_append, List.nil_append]
  rw [List.dropWhile_cons_of_neg (by simp [name_not_dead hn])]

theorem fileName_names {p pre : Path} {n : Name} (h : Names p pre n) : fileName p = some n := by
  have hn : IsName n := by obtain ⟨t, -, -, hn, -⟩ := h; exact hn
  unfold fileName
  rw [live_names h]
  simp only
  rw [if_neg (by simp; exact hn.2.2.2)]

theorem split_dead (ns : List Name) : ∃ ds rest, ns = ds ++ rest ∧ (∀ d ∈ ds, dead d = true) ∧ ns.dropWhile dead = rest := by
  induction ns with
  | nil => exact ⟨[], [], rfl, by simp, rfl⟩
  | cons n ns ih =>
    by_cases h : dead n = true
    · obtain ⟨ds, rest, e, hd, hr⟩ := ih
      refine ⟨n :: ds, rest, by rw [e]; rfl, ?_, by rw [List.dropWhile_cons_of_pos h, hr]⟩
      intro d hm
      rcases List.mem_cons.1 hm with rfl | hm
      · exact h
      · exact hd d hm
    · exact ⟨[], n :: ns, rfl, by simp, by rw [List.dropWhile_cons_of_neg h]⟩

theorem head_dropWhile {ns : List Name} {n : Name} {rest : List Name} (h : ns.dropWhile dead = n :: rest) :
    dead n = false := by
  induction ns with
  | nil => simp at h
  | cons m ms ih =>
    by_cases hm : dead m = true
    · rw [List.dropWhile_cons_of_pos hm] at h; exact ih h
    · rw [List.dropWhile_cons_of_neg hm] at h
      simp only [List.cons.injEq] at h
      rw [← h.1]; simpa using hm

theorem names_of_fileName {p : Path} {n : Name} (h : fileName p = some n) : ∃ pre, Names p pre n := by
  unfold fileName at h
  obtain ⟨ds, rest, e, hd, hr⟩ := split_dead (pieces p).reverse
  unfold live at h
  rw [hr] at h
  cases rest with
  | nil => simp at h
  | cons m ms =>
    simp only at h
    split at h
    · simp at h
    · rename_i hdd
      simp only [Option.some.injEq] at h
      subst h
      have e' : pieces p = ms.reverse ++ m :: ds.reverse := by
        have := congrArg List.reverse e
        simpa using this
      have hm : m ∈ pieces p := by rw [e']; simp
      have hnd := head_dropWhile hr
      simp only [dead, Bool.or_eq_false_iff, beq_eq_false_iff_ne] at hnd
      have hname : IsName m := ⟨hnd.1, pieces_noslash p m hm, hnd.2, fun e => hdd (by rw [e]; rfl)⟩
      have ht := trail_of_dead ds.reverse (by simpa using hd)
      refine ⟨if ms.reverse = [] then [] else joinPieces ms.reverse ++ [slash], _, ?_, ?_, hname, ht⟩
      · conv => lhs; rw [← join_pieces p, e']
        by_cases h1 : ms.reverse = []
        · rw [if_pos h1, h1]
          simp only [List.nil_append]
          by_cases h2 : ds.reverse = []
          · rw [if_pos h2, h2]; simp [joinPieces]
          · rw [if_neg h2, join_cons h2]
        · rw [if_neg h1, join_append h1 (by simp)]
          by_cases h2 : ds.reverse = []
          · rw [if_pos h2, h2]; simp [joinPieces]
          · rw [if_neg h2, join_cons h2]; simp
      · by_cases h1 : ms.reverse = []
        · left; rw [if_pos h1]
        · right; rw [if_neg h1]; exact ⟨_, rfl⟩

/-- `file_name` is the last name of a path. -/
theorem fileName_iff (p : Path) (n : Name) : fileName p = some n ↔ ∃ pre, Names p pre n :=
  ⟨names_of_fileName, fun ⟨_, h⟩ => fileName_names h⟩

theorem names_unique {p pre pre' : Path} {n n' : Name} (h : Names p pre n) (h' : Names p pre' n') : n = n' := by
  have := fileName_names h
  rw [fileName_names h'] at this
  simpa using this.symm

/-! ## Extensions -/

theorem splitDot_none {n : Name} (h : dot ∉ n) : splitDot n = (none, n) := by
  induction n with
  | nil => rfl
  | cons b n ih =>
    simp only [List.mem_cons, not_or] at h
    unfold splitDot
    rw [ih h.2]
    simp only
    rw [if_neg (by simp; exact fun e => h.1 e.symm)]

theorem splitDot_some (stem e : Name) (h : dot ∉ e) : splitDot (stem ++ dot :: e) = (some stem, e) := by
  induction stem with
  | nil =>
    simp only [List.nil_append]
    unfold splitDot
    rw [splitDot_none h]; simp
  | cons b stem ih => simp only [List.cons_append]; unfold splitDot; rw [ih]

theorem splitDot_spec (n : Name) : (dot ∉ n ∧ splitDot n = (none, n)) ∨
    ∃ stem e, n = stem ++ dot :: e ∧ dot ∉ e ∧ splitDot n = (some stem, e) := by
  by_cases h : dot ∈ n
  · right
    induction n with
    | nil => simp at h
    | cons b n ih =>
      by_cases hn : dot ∈ n
      · obtain ⟨stem, e, rfl, he, _⟩ := ih hn
        exact ⟨b :: stem, e, rfl, he, splitDot_some (b :: stem) e he⟩
      · rcases List.mem_cons.1 h with rfl | h
        · exact ⟨[], n, rfl, hn, splitDot_some [] n hn⟩
        · exact absurd h hn
  · exact .inl ⟨h, splitDot_none h⟩

theorem rsplit_ext {n stem e : Name} (h : HasExt n stem e) : rsplitFileAtDot n = (some stem, some e) := by
  obtain ⟨rfl, hs, he⟩ := h
  unfold rsplitFileAtDot
  rw [show (46 : UInt8) = dot from rfl, splitDot_some stem e he]
  cases stem with
  | nil => exact absurd rfl hs
  | cons b s => rfl

theorem rsplit_noExt {n : Name} (h : NoExt n) :
    rsplitFileAtDot n = (none, some n) ∨ rsplitFileAtDot n = (some n, none) := by
  unfold rsplitFileAtDot
  rcases h with h | ⟨m, rfl, h⟩
  · left; rw [splitDot_none h]
  · right; have := splitDot_some [] m h
    rw [List.nil_append] at this
    rw [show (46 : UInt8) = dot from rfl, this]

theorem ext_cases (n : Name) : NoExt n ∨ ∃ stem e, HasExt n stem e := by
  rcases splitDot_spec n with ⟨h, -⟩ | ⟨stem, e, rfl, he, -⟩
  · exact .inl (.inl h)
  · by_cases hs : stem = []
    · subst hs; exact .inl (.inr ⟨e, rfl, he⟩)
    · exact .inr ⟨stem, e, rfl, hs, he⟩

theorem extension_iff (p : Path) (e : Name) : extension p = some e ↔ PathExt p e := by
  unfold extension
  constructor
  · intro h
    cases hf : fileName p with
    | none => rw [hf] at h; simp at h
    | some n =>
      rw [hf] at h
      simp only at h
      obtain ⟨pre, hp⟩ := names_of_fileName hf
      rcases ext_cases n with hn | ⟨stem, e', hn⟩
      · rcases rsplit_noExt hn with h' | h' <;> rw [h'] at h <;> simp at h
      · rw [rsplit_ext hn] at h
        simp only [Option.some.injEq] at h
        subst h
        exact ⟨pre, n, stem, hp, hn⟩
  · rintro ⟨pre, n, stem, hp, hn⟩
    rw [fileName_names hp]
    simp only
    rw [rsplit_ext hn]

theorem fileStem_names {p pre : Path} {n stem : Name} (h : Names p pre n) (hs : Stem n stem) : fileStem p = some stem := by
  unfold fileStem
  rw [fileName_names h]
  simp only
  rcases hs with ⟨hn, rfl⟩ | ⟨e, hn⟩
  · rcases rsplit_noExt hn with h' | h' <;> rw [h']
  · rw [rsplit_ext hn]

theorem stem_exists (n : Name) : ∃ stem, Stem n stem := by
  rcases ext_cases n with h | ⟨stem, e, h⟩
  · exact ⟨n, .inl ⟨h, rfl⟩⟩
  · exact ⟨stem, .inr ⟨e, h⟩⟩

theorem setExtension_names {p pre : Path} {n stem : Name} (h : Names p pre n) (hs : Stem n stem) (ext : Bytes) :
    setExtension p ext = pre ++ stem ++ dot :: ext := by
  unfold setExtension
  rw [fileStem_names h hs, live_names h]
  simp only [List.tail_cons, List.reverse_reverse]
  obtain ⟨t, -, hl, -, -⟩ := h
  rw [join_lead hl]

theorem setExtension_none {p : Path} (h : fileName p = none) (ext : Bytes) : setExtension p ext = p := by
  unfold setExtension fileStem
  rw [h]

/-! ## UTF-8 -/

theorem decodeFuel_utf8 (s : List Char) : ∀ k, (utf8 s).length ≤ k → decodeFuel k (utf8 s) = some s := by
  induction s with
  | nil => intro k _; cases k <;> rfl
  | cons c s ih =>
    intro k hk
    have hu : utf8 (c :: s) = String.utf8EncodeChar c ++ utf8 s := rfl
    obtain ⟨b, bs, he, hw, h1⟩ := width_enc c
    rw [hu, he] at hk ⊢
    simp only [List.cons_append, List.length_cons, List.length_append] at hk
    cases k with
    | zero => omega
    | succ k =>
      simp only [List.cons_append, decodeFuel]
      rw [hw]
      cases bs with
      | nil =>
        simp only [List.length_nil, Nat.zero_add, List.nil_append]
        rw [ih k (by simp at hk; omega), h1 rfl]
        simp
      | cons b2 bs =>
        simp only [List.length_cons]
        have ht : (b :: ((b2 :: bs) ++ utf8 s)).take (bs.length + 1 + 1) = b :: b2 :: bs := by simp
        have hd : (b :: ((b2 :: bs) ++ utf8 s)).drop (bs.length + 1 + 1) = utf8 s := by simp
        rw [ht, hd, (fromUtf8_iff _ c).2 ⟨by simp, he.symm⟩]
        simp only
        rw [ih k (by simp at hk; omega)]
        rfl

theorem utf8_of_decodeFuel : ∀ k (bs : Bytes) (s : List Char), decodeFuel k bs = some s → bs = utf8 s := by
  intro k
  induction k with
  | zero =>
    intro bs s h
    cases bs with
    | nil => simp [decodeFuel] at h; subst h; rfl
    | cons b bs => simp [decodeFuel] at h
  | succ k ih =>
    intro bs s h
    cases bs with
    | nil => simp [decodeFuel] at h; subst h; rfl
    | cons b bs =>
      unfold decodeFuel at h
      split at h
      · simp at h
      · rename_i hw
        simp only [Option.map_eq_some_iff] at h
        obtain ⟨s', h', rfl⟩ := h
        rw [ih _ _ h']
        show _ = String.utf8EncodeChar _ ++ utf8 s'
        rw [width_one hw]; rfl
      · split at h
        · simp at h
        · rename_i w _ _ _ c hc
          simp only [Option.map_eq_some_iff] at h
          obtain ⟨s', h', rfl⟩ := h
          have e := ((fromUtf8_iff _ c).1 hc).2
          show _ = String.utf8EncodeChar _ ++ utf8 s'
          rw [← ih _ _ h', ← e, List.take_append_drop]

/-- `String::from_utf8` accepts exactly what is the encoding of some text. -/
theorem decode_iff (bs : Bytes) (s : List Char) : decode bs = some s ↔ bs = utf8 s := by
  constructor
  · exact utf8_of_decodeFuel _ _ _
  · rintro rfl; exact decodeFuel_utf8 s _ (Nat.le_refl _)

theorem decode_none (bs : Bytes) : decode bs = none ↔ ¬ ∃ s, bs = utf8 s := by
  constructor
  · rintro h ⟨s, hs⟩
    rw [(decode_iff bs s).2 hs] at h; simp at h
  · intro h
    cases hd : decode bs with
    | none => rfl
    | some s => exact absurd ⟨s, (decode_iff bs s).1 hd⟩ h

theorem lowerByte_ascii (b : UInt8) : (0x80 ≤ b.toNat ∧ lowerByte b = b) ∨ (b.toNat < 0x80 ∧ (lowerByte b).toNat < 0x80) := by
  revert b
  have : ∀ n : Fin 256, (0x80 ≤ (UInt8.ofNat n.val).toNat ∧ lowerByte (UInt8.ofNat n.val) = UInt8.ofNat n.val) ∨
      ((UInt8.ofNat n.val).toNat < 0x80 ∧ (lowerByte (UInt8.ofNat n.val)).toNat < 0x80) := by decide +kernel
  intro b
  have h := this ⟨b.toNat, b.toNat_lt⟩
  simpa using h

theorem width_lower (b : UInt8) : utf8CharWidth (lowerByte b) = utf8CharWidth b := by
  rcases lowerByte_ascii b with ⟨-, h⟩ | ⟨h1, h2⟩
  · rw [h]
  · unfold utf8CharWidth; rw [if_pos h1, if_pos h2]

theorem cont_lower (b : UInt8) : IsCont (lowerByte b) ↔ IsCont b := by
  rcases lowerByte_ascii b with ⟨-, h⟩ | ⟨h1, h2⟩
  · rw [h]
  · constructor <;> (rintro ⟨_, _⟩; omega)

theorem fromUtf8_lower (l : Bytes) (hl : ∀ a ∈ l.head?, 2 ≤ utf8CharWidth a) :
    fromUtf8 (l.map lowerByte) = fromUtf8 l := by
  have hd : ∀ a, 2 ≤ utf8CharWidth a → lowerByte a = a := by
    intro a ha
    rcases lowerByte_ascii a with ⟨-, h⟩ | ⟨h1, h2⟩
    · exact h
    · unfold utf8CharWidth at ha; rw [if_pos h1] at ha; omega
  have hc : ∀ b, IsCont b → lowerByte b = b := by
    intro b hb
    rcases lowerByte_ascii b with ⟨-, h⟩ | ⟨h1, h2⟩
    · exact h
    · exact absurd hb.1 (by omega)
  match l with
  | [] => rfl
  | [a] => rfl
  | [a, b] =>
    simp only [List.map, fromUtf8, cont_lower, hd a (hl a (by simp))]
    split
    · rename_i h; rw [hc b h.2.2]
    · rfl
  | [a, b, c] =>
    simp only [List.map, fromUtf8, cont_lower, hd a (hl a (by simp))]
    split
    · rename_i h; rw [hc b h.2.2.1, hc c h.2.2.2]
    · rfl
  | [a, b, c, d] =>
    simp only [List.map, fromUtf8, cont_lower, hd a (hl a (by simp))]
    split
    · rename_i h; rw [hc b h.2.2.1, hc c h.2.2.2.1, hc d h.2.2.2.2]
    · rfl
  | a :: b :: c :: d :: e :: r => rfl

theorem decodeFuel_lower (k : Nat) (bs : Bytes) :
    (decodeFuel k (bs.map lowerByte)).isSome = (decodeFuel k bs).isSome := by
  induction k generalizing bs with
  | zero => cases bs <;> rfl
  | succ k ih =>
    cases bs with
    | nil => rfl
    | cons b bs =>
      simp only [List.map_cons, decodeFuel, width_lower]
      split
      · rfl
      · simp only [Option.isSome_map, ih]
      · rename_i w h0 h1
        rw [← List.map_cons, ← List.map_take, ← List.map_drop, fromUtf8_lower]
        · split
          · rfl
          · simp only [Option.isSome_map, ih]
        · intro a ha
          cases hw : utf8CharWidth b with
          | zero => exact absurd hw h0
          | succ j =>
            rw [hw] at ha
            simp only [List.take_succ_cons, List.head?_cons, Option.mem_some_iff] at ha
            subst ha
            have : utf8CharWidth b ≠ 1 := h1
            omega

/-- Lowering the case does not change whether a text is valid. -/
theorem decode_lower (bs : Bytes) : decode (bs.map lowerByte) = none ↔ decode bs = none := by
  unfold decode
  rw [List.length_map]
  have := decodeFuel_lower bs.length bs
  cases h1 : decodeFuel bs.length (bs.map lowerByte) <;> cases h2 : decodeFuel bs.length bs <;> simp_all

theorem lowerByte_idem_case (b w : UInt8) : lowerByte b = w ↔ (b = w ∧ ¬ (65 ≤ b ∧ b ≤ 90)) ∨ (65 ≤ b ∧ b ≤ 90 ∧ w = b + 32) := by
  unfold lowerByte
  by_cases h : (65 ≤ b && b ≤ 90) = true
  · rw [if_pos h]
    simp only [Bool.and_eq_true, decide_eq_true_eq] at h
    simp only [h, and_self, not_true_eq_false, and_false, true_and, false_or]
    exact eq_comm
  · rw [if_neg h]
    simp only [Bool.and_eq_true, decide_eq_true_eq] at h
    constructor
    · intro e; exact .inl ⟨e, h⟩
    · rintro (⟨e, _⟩ | ⟨h1, h2, _⟩)
      · exact e
      · exact absurd ⟨h1, h2⟩ h

/-- For a word in lower case. -/
theorem map_lower_iff {w : Bytes} (hw : ∀ b ∈ w, lowerByte b = b) (e : Bytes) : e.map lowerByte = w ↔ CaseOf e w := by
  induction w generalizing e with
  | nil =>
    constructor
    · intro h
      have : e = [] := by simpa using h
      subst this; exact .nil
    · intro h; cases h; rfl
  | cons x w ih =>
    have hx := hw x (by simp)
    have ih := ih (fun b hb => hw b (by simp [hb]))
    constructor
    · intro h
      cases e with
      | nil => simp at h
      | cons b e =>
        simp only [List.map_cons, List.cons.injEq] at h
        have ht := (ih e).1 h.2
        rcases (lowerByte_idem_case b x).1 h.1 with ⟨rfl, _⟩ | ⟨h1, h2, rfl⟩
        · exact .same ht
        · exact .upper h1 h2 ht
    · intro h
      cases h with
      | same ht => rw [List.map_cons, (ih _).2 ht, hx]
      | upper h1 h2 ht =>
        rw [List.map_cons, (ih _).2 ht, (lowerByte_idem_case _ _).2 (.inr ⟨h1, h2, rfl⟩)]

end Verif.Cli
