import Verif.Proofs.JsAggShow
import Verif.Spec.JsArrText
/-!
# Reading scripts with strings aggregated into an array
-/
set_option linter.unusedSimpArgs false
namespace Verif.Js
open Spec.Js Spec.JsAgg

theorem solid_quoted {c : List Char} (h : quotable c = true) : Solid (quoted c) := by
  refine ⟨rfl, rfl, [], '"', c ++ ['"'], rfl, .inl ⟨.inl rfl, ?_⟩⟩
  have h : closeString '"' (c ++ ['"']) = some (c ++ ['"'], []) := by simpa [quotable] using h
  exact (closeString_stable '"' _ _ _ _ (Nat.lt_succ_self _) h).2.2

theorem solid_punct {t : List Char} (h : t ∈ puncts) : Solid (.punct t) := ⟨rfl, rfl, [], h⟩

theorem name_identifier {w : List Char} (h : identifier w = true) : Name w := by
  simp only [identifier, Bool.and_eq_true, Bool.not_eq_true', List.all_eq_true, decide_eq_true_eq] at h
  obtain ⟨⟨⟨h1, h2⟩, h3⟩, h4⟩ := h
  have hc : ∀ c ∈ "abcdefghijklmnopqrstuvwxyzABCDEFGHIJKLMNOPQRSTUVWXYZ0123456789_$".toList,
      isBlank c = false ∧ isPunct c = false ∧ c ≠ '.' ∧ (Spec.Js.isDigit c = false → endsNumber c = false) := by decide +kernel
  cases w with
  | nil => cases h1
  | cons c w =>
    refine ⟨wordOk_plain (by simp) fun c hm => ⟨(hc c (h2 c hm)).1, (hc c (h2 c hm)).2.1⟩, h3, ?_, ?_, ?_⟩
    · intro hm
      rw [List.contains_iff_mem.2 hm] at h4; cases h4
    · intro hl
      exact (hc '.' (h2 '.' (List.mem_of_getLast? hl))).2.2.1 rfl
    · have := hc c (h2 c List.mem_cons_self)
      exact ⟨c, rfl, this.2.2.2 (by simpa using h1), this.2.1⟩

/-! ## Groups -/

theorem nextChar_head (a : Lexeme) {b : Lexeme} {r r' : List Lexeme} : nextChar a (b :: r') = nextChar a (b :: r) := rfl

theorem safeHere_head (v : List Lexeme) (a : Lexeme) {b : Lexeme} {r r' : List Lexeme} : safeHere v a (b :: r') = safeHere v a (b :: r) := by
  unfold safeHere
  simp only [nextChar_head a (r := r) (r' := r')]
  cases b <;> rfl

theorem filter_spaced_solid : ∀ ls : List Lexeme, (spaced ls).filter solid = ls.filter solid
  | [] => rfl
  | [_] => rfl
  | a :: b :: ls => by
    have ih := filter_spaced_solid (b :: ls)
    have h2 : solid (.blank ' ') = false := rfl
    rw [spaced]
    split
    · rw [List.filter_cons, List.filter_cons_of_neg (by simp [h2]), ih, List.filter_cons (x := a)]
    · rw [List.filter_cons, ih, List.filter_cons (x := a)]

theorem Padded.plain {pad : Bool} {ls ls' : List Lexeme} (h : Padded pad ls ls') (hs : ∀ l ∈ ls, Solid l) :
    ∀ l ∈ ls', Verif.Js.plain l = true := by
  induction h with
  | nil => intro l hl; cases hl
  | same _ ih =>
    intro l hl
    rcases List.mem_cons.1 hl with rfl | hl
    · exact plain_of ⟨(hs _ List.mem_cons_self).2.1, (hs _ List.mem_cons_self).1⟩
    · exact ih (fun l hl => hs l (List.mem_cons_of_mem _ hl)) l hl
  | blank _ _ ih =>
    intro l hl
    rcases List.mem_cons.1 hl with rfl | hl
    · rfl
    · rcases List.mem_cons.1 hl with rfl | hl
      · rfl
      · exact ih (fun l hl => hs l (List.mem_cons_of_mem _ hl)) l hl

theorem Padded.filter {pad : Bool} {ls ls' : List Lexeme} (h : Padded pad ls ls') : ls'.filter solid = ls.filter solid := by
  induction h with
  | nil => rfl
  | same _ ih => simp only [List.filter_cons, ih]
  | blank _ _ ih =>
    have h1 : solid (.punct [']']) = true := rfl
    have h2 : solid (.blank ' ') = false := rfl
    rw [List.filter_cons_of_pos h1, List.filter_cons_of_neg (by simp [h2]), List.filter_cons_of_pos h1, ih]

theorem Padded.placed {pad : Bool} : ∀ {ls ls' : List Lexeme}, Padded pad ls ls' → ∀ v, Placed v ls → Placed v ls'
  | _, _, .nil, _, _ => trivial
  | _, _, .same h, _, hp => ⟨hp.1, h.placed _ hp.2⟩
  | _, _, .blank (ls' := ls') _ h, v, hp =>
    ⟨hp.1, ⟨by decide, by decide⟩, Placed.mono ls' (.punct [']'] :: v) _ (by simp only [regexPossible]) (h.placed _ hp.2)⟩

theorem nextChar_padded {pad : Bool} {ls ls' : List Lexeme} (h : Padded pad ls ls') (v : List Lexeme) (a : Lexeme) :
    safeHere v a ls' = safeHere v a ls := by
  cases h with
  | nil => rfl
  | same _ => exact safeHere_head v a
  | blank _ _ => exact safeHere_head v a

theorem Padded.safe {pad : Bool} : ∀ {ls ls' : List Lexeme}, Padded pad ls ls' → ∀ v, safeFrom v ls = true → safeFrom v ls' = true
  | _, _, .nil, _, _ => rfl
  | _, _, .same h, v, hs => by
    rw [safeFrom, Bool.and_eq_true] at hs ⊢
    exact ⟨by rw [nextChar_padded h]; exact hs.1, h.safe _ hs.2⟩
  | _, _, .blank (ls' := ls') _ h, v, hs => by
    rw [safeFrom, Bool.and_eq_true] at hs
    rw [safeFrom, safeFrom, Bool.and_eq_true, Bool.and_eq_true]
    refine ⟨safeHere_delim (by simp), rfl, ?_⟩
    exact (safeFrom_congr ls' (.punct [']'] :: v) (.blank ' ' :: .punct [']'] :: v) (by simp only [regexPossible]) rfl).trans (h.safe _ hs.2)

theorem lex_groups {pad : Bool} {G : List Group} (hw : ∀ g ∈ G, Written g) (hl : Linked pad G)
    (hp : Placed [] ((G.flatMap Prod.snd).map shorten)) (hs : ∀ l ∈ (G.flatMap Prod.snd).map shorten, Solid l)
    (h : safeFrom [] ((G.flatMap Prod.snd).map shorten) = true) :
    (lex (display (G.map Prod.fst))).filter solid = (G.flatMap Prod.snd).map shorten := by
  obtain ⟨ls, h1, h2⟩ := display_padded hw hl
  have := relex ls [] [] (h1.placed _ hp) (h1.plain hs) rfl (h1.safe _ h) (by intro t v' hv; cases hv)
  have e : lex (textOf (spaced ls)) = spaced ls := by
    show (L [] [] (textOf (spaced ls))).reverse = _
    rw [this]; simp
  rw [h2, e, filter_spaced_solid, h1.filter, List.filter_eq_self]
  exact fun l hl => (hs l hl).2.1

/-- Nothing needs to be written before this group. -/
def Close (g : Group) : Prop := ∀ h, Joint true h g

theorem close_char {c : RChar} {t : List Char} : Close (.char c, [.punct t]) := by
  intro h a b _ hb
  simp only [List.head?_cons, Option.some.injEq] at hb
  subst hb
  have h1 : spaceAfter h.1 (some (.char c)) = none := by unfold spaceAfter; split <;> rfl
  have h2 : spaceBefore (some h.1) (.char c) = false := by unfold spaceBefore; simp [Token.requiresBefore]
  have h3 : gap a (.punct t) = false := by cases a <;> rfl
  simp only [h1, h2, h3]
  exact .inl rfl

theorem close_str {x s : List Char} : Close (.createdVar x, [.str s]) := by
  intro h a b _ hb
  simp only [List.head?_cons, Option.some.injEq] at hb
  subst hb
  have h3 : gap a (.str s) = false := by cases a <;> rfl
  simp only [spaceAfter_created, spaceBefore_created, h3]
  exact .inl rfl

theorem Linked.append : ∀ {A C : List Group}, Linked true A → Linked true C → (∀ g, C.head? = some g → Close g) → Linked true (A ++ C)
  | [], _, _, hC, _ => hC
  | [_], [], hA, _, _ => hA
  | [a], c :: C, _, hC, h => ⟨h c rfl a, hC⟩
  | _ :: b :: A, _, hA, hC, h => ⟨hA.1, Linked.append (A := b :: A) hA.2 hC h⟩

theorem Linked.left : ∀ {A C : List Group}, Linked true (A ++ C) → Linked true A
  | [], _, _ => trivial
  | [_], _, _ => trivial
  | _ :: b :: A, C, h => ⟨h.1, Linked.left (A := b :: A) (C := C) h.2⟩

theorem Linked.right : ∀ {A C : List Group}, Linked true (A ++ C) → Linked true C
  | [], _, h => h
  | a :: A, C, h => Linked.right (A := A) (C := C) (Linked.tail (g := a) h)

theorem linked_close : ∀ {A : List Group}, (∀ g ∈ A, Close g) → Linked true A
  | [], _ => trivial
  | [_], _ => trivial
  | a :: b :: A, h => ⟨h b (by simp) a, linked_close (A := b :: A) fun g hg => h g (List.mem_cons_of_mem _ hg)⟩

theorem linked_insert {A X C : List Group} (h : Linked true (A ++ C)) (hX : ∀ g ∈ X, Close g) (hC : ∀ g, C.head? = some g → Close g) :
    Linked true (A ++ (X ++ C)) := by
  have hXC : Linked true (X ++ C) := (linked_close hX).append h.right hC
  refine h.left.append hXC fun g hg => ?_
  cases X with
  | nil => exact hC g hg
  | cons x X =>
    simp only [List.cons_append, List.head?_cons, Option.some.injEq] at hg
    subst hg
    exact hX _ List.mem_cons_self

/-! ## Elements -/

def entryGroup (c : List Char) : Group := (entry c, [quoted c])

def entryGroups : List (List Char) → List Group
  | [] => []
  | [c] => [entryGroup c]
  | c :: d :: l => entryGroup c :: commaGroup :: entryGroups (d :: l)

def moreGroups (l : List (List Char)) : List Group := l.flatMap fun c => [commaGroup, entryGroup c]

theorem entryGroups_fst : ∀ l, (entryGroups l).map Prod.fst = entries l
  | [] => rfl
  | [_] => rfl
  | c :: d :: l => by simp only [entryGroups, List.map_cons, entryGroups_fst (d :: l), entries]; rfl

theorem entryGroups_snd : ∀ l, (entryGroups l).flatMap Prod.snd = items l
  | [] => rfl
  | [_] => rfl
  | c :: d :: l => by simp only [entryGroups, List.flatMap_cons, entryGroups_snd (d :: l), items]; rfl

theorem moreGroups_fst (l : List (List Char)) : (moreGroups l).map Prod.fst = entriesAfter l := by
  induction l with
  | nil => rfl
  | cons c l ih =>
    simp only [moreGroups, entriesAfter, List.flatMap_cons, List.map_append] at ih ⊢
    rw [ih]; rfl

theorem moreGroups_snd (l : List (List Char)) : (moreGroups l).flatMap Prod.snd = moreItems l := by
  induction l with
  | nil => rfl
  | cons c l ih =>
    simp only [moreGroups, moreItems, List.flatMap_cons, List.flatMap_append] at ih ⊢
    rw [ih]; rfl

theorem close_comma : Close commaGroup := close_char
theorem close_entry (c : List Char) : Close (entryGroup c) := close_str

theorem written_entry (c : List Char) : Written (entryGroup c) :=
  ⟨by simp [entryGroup], by simp [entryGroup, entry, quoted, Spec.Js.shorten, spaced, textOf, text, Token.display]⟩

theorem entryGroups_ok : ∀ (l : List (List Char)), ∀ g ∈ entryGroups l, Close g ∧ Written g
  | [], g, h => by cases h
  | [c], g, h => by
    simp only [entryGroups, List.mem_cons, List.not_mem_nil, or_false] at h
    subst h; exact ⟨close_entry c, written_entry c⟩
  | c :: d :: l, g, h => by
    simp only [entryGroups, List.mem_cons] at h
    rcases h with rfl | rfl | h
    · exact ⟨close_entry c, written_entry c⟩
    · exact ⟨close_comma, comma_tok ▸ written_tok solid_comma⟩
    · exact entryGroups_ok (d :: l) g h

theorem moreGroups_ok (l : List (List Char)) : ∀ g ∈ moreGroups l, Close g ∧ Written g := by
  intro g h
  obtain ⟨c, -, h⟩ := List.mem_flatMap.1 h
  simp only [List.mem_cons, List.not_mem_nil, or_false] at h
  rcases h with rfl | rfl
  · exact ⟨close_comma, comma_tok ▸ written_tok solid_comma⟩
  · exact ⟨close_entry c, written_entry c⟩

theorem items_shorten : ∀ l, (items l).map shorten = items l
  | [] => rfl
  | [_] => rfl
  | c :: d :: l => by simp only [items, List.map_cons, items_shorten (d :: l)]; rfl

theorem moreItems_shorten (l : List (List Char)) : (moreItems l).map shorten = moreItems l := by
  induction l with
  | nil => rfl
  | cons c l ih =>
    simp only [moreItems, List.flatMap_cons, List.map_append] at ih ⊢
    rw [ih]; rfl

theorem in_puncts : ∀ t ∈ [['='], ['['], [']'], [','], [';']], t ∈ puncts := by decide +kernel

/-- What is needed of what follows. -/
def Follows (C : List Lexeme) : Prop := ∀ v, Placed v C ∧ safeFrom v C = true

theorem follows_close {v C : List Lexeme} (hp : Placed v (.punct [']'] :: C)) (hs : safeFrom v (.punct [']'] :: C) = true) :
    Follows (.punct [']'] :: C) := by
  intro u
  rw [safeFrom, Bool.and_eq_true] at hs
  refine ⟨⟨in_puncts _ (by simp), Placed.mono C (.punct [']'] :: v) _ (by rw [rp_close, rp_close]) hp.2⟩, ?_⟩
  rw [safeFrom, Bool.and_eq_true]
  exact ⟨safeHere_delim (by simp), (safeFrom_congr C (.punct [']'] :: v) (.punct [']'] :: u) (by rw [rp_close, rp_close]) rfl).trans hs.2⟩

theorem Follows.quoted {C : List Lexeme} {c : List Char} (h : Follows C) (hc : quotable c = true) : Follows (quoted c :: C) := by
  intro v
  refine ⟨⟨(solid_quoted hc).2.2.choose_spec, (h _).1⟩, ?_⟩
  rw [safeFrom, Bool.and_eq_true]
  exact ⟨rfl, (h _).2⟩

theorem Follows.delim {C : List Lexeme} {x : Char} (h : Follows C) (hx : x ∈ [',', ';', '[', ']']) : Follows (.punct [x] :: C) := by
  intro v
  have : [x] ∈ puncts := by
    simp only [List.mem_cons, List.not_mem_nil, or_false] at hx
    rcases hx with rfl | rfl | rfl | rfl <;> exact in_puncts _ (by simp)
  refine ⟨⟨this, (h _).1⟩, ?_⟩
  rw [safeFrom, Bool.and_eq_true]
  exact ⟨safeHere_delim hx, (h _).2⟩

theorem Follows.items {C : List Lexeme} (h : Follows C) : ∀ {N : List (List Char)}, (∀ c ∈ N, quotable c = true) → Follows (items N ++ C)
  | [], _ => h
  | [c], hN => h.quoted (hN c List.mem_cons_self)
  | c :: d :: N, hN => by
    have := Follows.items h (N := d :: N) fun c hc => hN c (List.mem_cons_of_mem _ hc)
    exact (this.delim (x := ',') (by simp)).quoted (hN c List.mem_cons_self)

theorem Follows.more {C : List Lexeme} (h : Follows C) : ∀ {N : List (List Char)}, (∀ c ∈ N, quotable c = true) → Follows (moreItems N ++ C)
  | [], _ => h
  | c :: N, hN => by
    have := Follows.more h (N := N) fun c hc => hN c (List.mem_cons_of_mem _ hc)
    exact (this.quoted (hN c List.mem_cons_self)).delim (x := ',') (by simp)

theorem items_solid : ∀ {N : List (List Char)}, (∀ c ∈ N, quotable c = true) → ∀ l ∈ items N, Solid l
  | [], _, l, h => by cases h
  | [c], hN, l, h => by
    simp only [Spec.Js.items, List.mem_cons, List.not_mem_nil, or_false] at h
    subst h; exact solid_quoted (hN c List.mem_cons_self)
  | c :: d :: N, hN, l, h => by
    simp only [Spec.Js.items, List.mem_cons] at h
    rcases h with rfl | rfl | h
    · exact solid_quoted (hN c List.mem_cons_self)
    · exact solid_comma
    · exact items_solid (fun c hc => hN c (List.mem_cons_of_mem _ hc)) l h

theorem more_solid {N : List (List Char)} (hN : ∀ c ∈ N, quotable c = true) : ∀ l ∈ moreItems N, Solid l := by
  intro l h
  obtain ⟨c, hc, h⟩ := List.mem_flatMap.1 h
  simp only [List.mem_cons, List.not_mem_nil, or_false] at h
  rcases h with rfl | rfl
  · exact solid_comma
  · exact solid_quoted (hN c hc)

/-! ## A new array -/

def arrGroup (name : List Char) : Group :=
  (.createdVarDecl ('v' :: 'a' :: 'r' :: ' ' :: (name ++ ['='])), [.word "var".toList, .word name, .punct ['=']])

def openGroup : Group := (.char .openBracket, [.punct ['[']])
def closeGroup : Group := (.char .closeBracket, [.punct [']']])

theorem open_tok : openGroup = (tokOf (.punct ['[']), [.punct ['[']]) := rfl
theorem close_tok : closeGroup = (tokOf (.punct [']']), [.punct [']']]) := rfl

theorem written_arr {name : List Char} (h : Name name) : Written (arrGroup name) := by
  refine ⟨by simp [arrGroup], ?_⟩
  have hv : shorten (.word "var".toList) = .word "var".toList := by decide +kernel
  have h0 : gap (.word "var".toList) (.word name) = true := by
    have : isName "var".toList = true := by decide +kernel
    simp only [gap, this, Bool.true_or]
  have h1 : gap (.word name) (.punct ['=']) = false := rfl
  have e2 : ∀ t, Spec.Js.shorten (.punct t) = .punct t := fun _ => rfl
  simp only [arrGroup, List.map_cons, List.map_nil, hv, h.shorten, e2, spaced, h0, h1, Bool.false_eq_true, if_false, if_true]
  simp [textOf, text, Token.display]

/-- The groups of the declaration. -/
def arrayGroups (name : List Char) (N : List (List Char)) : List Group :=
  arrGroup name :: openGroup :: (entryGroups N ++ [closeGroup, semiGroup])

theorem arrayGroups_snd (name : List Char) (N : List (List Char)) : (arrayGroups name N).flatMap Prod.snd = arrayDecl name N := by
  simp only [arrayGroups, List.flatMap_cons, List.flatMap_append, entryGroups_snd, arrayDecl]
  rfl

theorem arrayDecl_shorten {name : List Char} (h : Name name) (N : List (List Char)) :
    (arrayDecl name N).map shorten = arrayDecl name N := by
  have hv : shorten (.word "var".toList) = .word "var".toList := by decide +kernel
  simp only [arrayDecl, List.map_cons, List.map_append, items_shorten, h.shorten, hv, List.map_nil]
  rfl

theorem arrayGroups_written {name : List Char} (h : Name name) (N : List (List Char)) : ∀ g ∈ arrayGroups name N, Written g := by
  intro g hg
  simp only [arrayGroups, List.mem_cons, List.mem_append, List.not_mem_nil, or_false] at hg
  rcases hg with rfl | rfl | hg | rfl | rfl
  · exact written_arr h
  · exact open_tok ▸ written_tok (solid_punct (in_puncts _ (by simp)))
  · exact (entryGroups_ok N g hg).2
  · exact close_tok ▸ written_tok (solid_punct (in_puncts _ (by simp)))
  · exact semi_tok ▸ written_tok solid_semi

theorem arrayGroups_linked {name : List Char} {N : List (List Char)} {B : List Group} (h : Linked true (semiGroup :: B)) :
    Linked true (arrayGroups name N ++ B) := by
  have e : arrayGroups name N ++ B = (arrGroup name :: openGroup :: (entryGroups N ++ [closeGroup])) ++ semiGroup :: B := by
    simp [arrayGroups]
  rw [e]
  refine Linked.append ?_ h fun g hg => ?_
  · have hc : Linked true (openGroup :: (entryGroups N ++ [closeGroup])) := by
      refine linked_close fun g hg => ?_
      simp only [List.mem_cons, List.mem_append, List.not_mem_nil, or_false] at hg
      rcases hg with rfl | hg | rfl
      · exact close_char
      · exact (entryGroups_ok N g hg).1
      · exact close_char
    exact Linked.append (A := [arrGroup name]) trivial hc fun g hg => by cases hg; exact close_char
  · cases hg; exact close_char

theorem arrayDecl_ok {name : List Char} {N : List (List Char)} {C : List Lexeme} (hn : Name name) (hN : ∀ c ∈ N, quotable c = true)
    (hp : Placed [] C) (hs : safeFrom [] C = true) :
    Placed [] (arrayDecl name N ++ C) ∧ safeFrom [] (arrayDecl name N ++ C) = true ∧ ∀ l ∈ arrayDecl name N, Solid l := by
  have h1 : Follows (.punct [';'] :: C) := by
    intro v
    refine ⟨⟨in_puncts _ (by simp), Placed.mono C [] _ (by rw [rp_semi]; rfl) hp⟩, ?_⟩
    rw [safeFrom, Bool.and_eq_true]
    exact ⟨safeHere_delim (by simp), (safeFrom_congr C [] (.punct [';'] :: v) (by rw [rp_semi]; rfl) rfl).trans hs⟩
  have h2 : Follows (.punct ['['] :: (items N ++ .punct [']'] :: .punct [';'] :: C)) :=
    ((h1.delim (x := ']') (by simp)).items hN).delim (x := '[') (by simp)
  have e : arrayDecl name N ++ C = .word "var".toList :: .word name :: .punct ['='] :: .punct ['['] ::
      (items N ++ .punct [']'] :: .punct [';'] :: C) := by simp [arrayDecl]
  rw [e]
  refine ⟨⟨wordOk_var, hn.ok, in_puncts _ (by simp), (h2 _).1⟩, ?_, ?_⟩
  · rw [safeFrom, safeFrom, safeFrom, safeHere_name hn, (h2 _).2, Bool.and_true, Bool.true_and, Bool.and_eq_true]
    refine ⟨?_, ?_⟩
    · have : isName "var".toList = true := by decide +kernel
      simp only [safeHere, gap, this, Bool.true_or, Bool.and_true, Bool.or_eq_true]
      exact .inl (by decide)
    · have : nextChar (.punct ['=']) (.punct ['['] :: (items N ++ .punct [']'] :: .punct [';'] :: C)) = some '[' := rfl
      have hc : compounds.contains (['='] ++ ['[']) = false := by decide
      simp only [safeHere, this, hc]
      rfl
  · intro l hl
    simp only [arrayDecl, List.mem_cons, List.mem_append, List.not_mem_nil, or_false] at hl
    rcases hl with rfl | rfl | rfl | rfl | hl | rfl | rfl
    · exact ⟨rfl, rfl, [], wordOk_var⟩
    · exact ⟨rfl, rfl, [], hn.ok⟩
    · exact solid_punct (in_puncts _ (by simp))
    · exact solid_punct (in_puncts _ (by simp))
    · exact items_solid hN l hl
    · exact solid_punct (in_puncts _ (by simp))
    · exact solid_punct (in_puncts _ (by simp))

/-! ## More elements -/

/-- A comma is as good as a bracket. -/
theorem safeHere_comma {v : List Lexeme} {a : Lexeme} {r r' : List Lexeme} (h : safeHere v a (.punct [']'] :: r) = true) :
    safeHere v a (.punct [','] :: r') = true := by
  have h1 : nextChar a (.punct [']'] :: r) = some ']' := by cases a <;> rfl
  have h2 : nextChar a (.punct [','] :: r') = some ',' := by cases a <;> rfl
  cases a with
  | word w =>
    simp only [safeHere, h1, h2] at h ⊢
    exact h
  | punct t =>
    simp only [safeHere, h1, h2, Bool.and_eq_true, Bool.or_eq_true] at h ⊢
    obtain ⟨⟨⟨p1, p2⟩, p3⟩, p4⟩ := h
    refine ⟨⟨⟨p1, ?_⟩, ?_⟩, ?_⟩
    · exact .inr ⟨by decide, by decide⟩
    · rcases p3 with p3 | ⟨-, p3⟩
      · exact .inl p3
      · refine .inr ⟨by decide, ?_⟩
        have e1 : endsNumber ']' = true := by decide
        have e2 : endsNumber ',' = true := by decide
        have e3 : Spec.Js.isDigit ']' = false := by decide
        have e4 : Spec.Js.isDigit ',' = false := by decide
        simpa only [Option.toList_some, dotInWord, e1, e2, e3, e4] using p3
    · cases hx : compounds.contains (t ++ [',']) with
      | false => rfl
      | true =>
        have hs : ∀ u ∈ compounds, u.getLast? ≠ some ',' := by decide +kernel
        exact absurd (by simp) (hs _ (List.contains_iff_mem.1 hx))
  | regex b fl =>
    simp only [safeHere, h2]
    decide
  | _ => rfl

theorem insert_ok {X C : List Lexeme} (hX : Follows (.punct [']'] :: C) → Follows (X ++ .punct [']'] :: C))
    : ∀ (A v : List Lexeme), (X = [] ∨ (∃ X', X = .punct [','] :: X') ∨ A.getLast? = some (.punct ['['])) →
      Placed v (A ++ .punct [']'] :: C) → safeFrom v (A ++ .punct [']'] :: C) = true →
      Placed v (A ++ (X ++ .punct [']'] :: C)) ∧ safeFrom v (A ++ (X ++ .punct [']'] :: C)) = true
  | [], v, _, hp, hs => hX (follows_close hp hs) v
  | [a], v, hf, hp, hs => by
    obtain ⟨hp1, hp2⟩ := hp
    rw [List.cons_append, safeFrom, Bool.and_eq_true] at hs
    have ih := hX (follows_close hp2 hs.2) (a :: v)
    refine ⟨⟨hp1, ih.1⟩, ?_⟩
    rw [List.cons_append, safeFrom, Bool.and_eq_true]
    refine ⟨?_, ih.2⟩
    rcases hf with rfl | ⟨X', rfl⟩ | hf
    · exact hs.1
    · exact safeHere_comma hs.1
    · simp only [List.getLast?_singleton, Option.some.injEq] at hf
      subst hf
      exact safeHere_delim (by simp)
  | a :: b :: A, v, hf, hp, hs => by
    obtain ⟨hp1, hp2⟩ := hp
    rw [List.cons_append, safeFrom, Bool.and_eq_true] at hs
    have ih := insert_ok hX (b :: A) (a :: v) (by simpa [List.getLast?_cons_cons] using hf) hp2 hs.2
    refine ⟨⟨hp1, ih.1⟩, ?_⟩
    rw [List.cons_append, safeFrom, Bool.and_eq_true]
    refine ⟨?_, ih.2⟩
    rw [← hs.1]
    exact safeHere_head v a

end Verif.Js
