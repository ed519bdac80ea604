import Verif.Proofs.JsAggText
import Verif.Spec.JsAgg
/-!
# Reading scripts with aggregated strings back: tokens

A token made by the aggregation stands for several lexemes. `display_groups` is the text of a list of tokens, each with the
lexemes it stands for.
-/
set_option linter.unusedSimpArgs false
namespace Verif.Js
open Spec.Js Spec.JsAgg

/-! ## Groups of lexemes -/

theorem textOf_append (a b : List Lexeme) : textOf (a ++ b) = textOf a ++ textOf b := by simp [textOf]

theorem spaced_two (a b : Lexeme) (bs : List Lexeme) :
    textOf (spaced (a :: b :: bs)) = text a ++ (if gap a b then [' '] else []) ++ textOf (spaced (b :: bs)) := by
  have : spaced (a :: b :: bs) = if gap a b then a :: .blank ' ' :: spaced (b :: bs) else a :: spaced (b :: bs) := rfl
  rw [this]
  split <;> simp [textOf_cons, text]

theorem spaced_one (a : Lexeme) : textOf (spaced [a]) = text a := by simp [spaced, textOf]

theorem textOf_spaced_append : ∀ (as : List Lexeme) (a b : Lexeme) (bs : List Lexeme),
    textOf (spaced (as ++ a :: b :: bs)) =
      textOf (spaced (as ++ [a])) ++ (if gap a b then [' '] else []) ++ textOf (spaced (b :: bs))
  | [], a, b, bs => by
    simp only [List.nil_append, spaced_two, spaced_one]
  | [x], a, b, bs => by
    simp only [List.nil_append, List.cons_append, spaced_two, spaced_one, List.append_assoc]
  | x :: y :: as, a, b, bs => by
    have ih := textOf_spaced_append (y :: as) a b bs
    simp only [List.cons_append] at ih ⊢
    rw [spaced_two, spaced_two, ih]
    simp only [List.append_assoc]

/-- A token and the lexemes it stands for. -/
abbrev Group := Token × List Lexeme

/-- The token is written as its lexemes are. -/
def Written (g : Group) : Prop := g.2 ≠ [] ∧ g.1.display = textOf (spaced (g.2.map shorten))

/-- The writer separates two tokens as the lexemes should be separated, or (if `pad`) by a blank after a bracket. -/
def Joint (pad : Bool) (g h : Group) : Prop := ∀ a b, g.2.getLast? = some a → h.2.head? = some b →
  (spaceAfter g.1 (some h.1)).toList ++ (if spaceBefore (some g.1) h.1 then [' '] else []) = (if gap a b then [' '] else []) ∨
  (pad = true ∧ a = .punct [']'] ∧
    (spaceAfter g.1 (some h.1)).toList ++ (if spaceBefore (some g.1) h.1 then [' '] else []) = [' '])

def Linked (pad : Bool) : List Group → Prop
  | [] => True
  | [_] => True
  | g :: h :: G => Joint pad g h ∧ Linked pad (h :: G)

theorem Linked.tail {pad : Bool} {g : Group} {G : List Group} (h : Linked pad (g :: G)) : Linked pad G := by
  cases G with
  | nil => trivial
  | cons x G => exact h.2

/-- Blanks are put after some brackets. -/
inductive Padded (pad : Bool) : List Lexeme → List Lexeme → Prop
  | nil : Padded pad [] []
  | same {l : Lexeme} {ls ls' : List Lexeme} : Padded pad ls ls' → Padded pad (l :: ls) (l :: ls')
  | blank {ls ls' : List Lexeme} : pad = true → Padded pad ls ls' → Padded pad (.punct [']'] :: ls) (.punct [']'] :: .blank ' ' :: ls')

theorem Padded.refl {pad : Bool} : ∀ ls : List Lexeme, Padded pad ls ls
  | [] => .nil
  | _ :: ls => .same (Padded.refl ls)

theorem Padded.append {pad : Bool} {bs bs' : List Lexeme} (h : Padded pad bs bs') : ∀ as : List Lexeme, Padded pad (as ++ bs) (as ++ bs')
  | [] => h
  | _ :: as => .same (Padded.append h as)

theorem Padded.exact {ls ls' : List Lexeme} (h : Padded false ls ls') : ls' = ls := by
  induction h with
  | nil => rfl
  | same _ ih => rw [ih]
  | blank hp _ _ => cases hp

theorem Padded.head {pad : Bool} {b : Lexeme} {ls ls' : List Lexeme} (h : Padded pad (b :: ls) ls') : ∃ bs, ls' = b :: bs := by
  cases h with
  | same _ => exact ⟨_, rfl⟩
  | blank _ _ => exact ⟨_, rfl⟩

theorem displayFrom_groups {pad : Bool} : ∀ (G : List Group) (g : Group) (prev : Option Token), (∀ x ∈ g :: G, Written x) →
    Linked pad (g :: G) → ∃ ls, Padded pad (((g :: G).flatMap Prod.snd).map shorten) ls ∧
      displayFrom prev ((g :: G).map Prod.fst) = (if spaceBefore prev g.1 then [' '] else []) ++ textOf (spaced ls)
  | [], g, prev, hw, _ => by
    have hsa : spaceAfter g.1 none = none := by
      unfold spaceAfter; split <;> rfl
    refine ⟨_, Padded.refl _, ?_⟩
    simp only [List.map_cons, List.map_nil, displayFrom, List.head?_nil, hsa, List.flatMap_cons, List.flatMap_nil, List.append_nil,
      (hw g List.mem_cons_self).2, Option.toList_none]
  | h :: G, g, prev, hw, hl => by
    obtain ⟨hj, hl'⟩ : Joint pad g h ∧ Linked pad (h :: G) := hl
    obtain ⟨ls, hpd, ih⟩ := displayFrom_groups G h (some g.1) (fun x hx => hw x (List.mem_cons_of_mem _ hx)) hl'
    have hun : displayFrom prev ((g :: h :: G).map Prod.fst) =
        (if spaceBefore prev g.1 then [' '] else []) ++ g.1.display ++
          (spaceAfter g.1 (some h.1)).toList ++ displayFrom (some g.1) ((h :: G).map Prod.fst) := rfl
    obtain ⟨hgn, hgd⟩ := hw g List.mem_cons_self
    obtain ⟨hhn, -⟩ := hw h (List.mem_cons_of_mem _ List.mem_cons_self)
    have hg : g.2 = g.2.dropLast ++ [g.2.getLast hgn] := (List.dropLast_concat_getLast hgn).symm
    have hh : h.2 = h.2.head hhn :: h.2.tail := (List.cons_head_tail hhn).symm
    have hj' := hj (g.2.getLast hgn) (h.2.head hhn) (List.getLast?_eq_some_getLast hgn) (List.head?_eq_some_head hhn)
    rw [hun, ih, hgd]
    generalize g.2.dropLast = as at hg
    generalize g.2.getLast hgn = a at hg hj'
    generalize h.2.head hhn = b at hh hj'
    generalize h.2.tail = bs at hh
    obtain ⟨bs', rfl⟩ : ∃ bs', ls = shorten b :: bs' := by
      rw [List.flatMap_cons, hh, List.map_append, List.map_cons, List.cons_append] at hpd
      exact hpd.head
    rcases hj' with hj' | ⟨hp, rfl, hj'⟩
    · refine ⟨(as.map shorten ++ [shorten a]) ++ shorten b :: bs', ?_, ?_⟩
      · have := Padded.append hpd (as.map shorten ++ [shorten a])
        rw [List.flatMap_cons, hg]
        simpa using this
      · have hts := textOf_spaced_append (as.map shorten) (shorten a) (shorten b) bs'
        rw [gap_shorten] at hts
        simp only [hg, List.map_append, List.map_cons, List.map_nil, List.append_assoc, List.cons_append, List.nil_append] at hts ⊢
        rw [hts, ← hj']
        simp only [List.append_assoc]
    · have e : shorten (.punct [']']) = .punct [']'] := rfl
      refine ⟨as.map shorten ++ .punct [']'] :: .blank ' ' :: shorten b :: bs', ?_, ?_⟩
      · have := Padded.append (Padded.blank hp hpd) (as.map shorten)
        rw [List.flatMap_cons, hg]
        simpa [e] using this
      · have hts := textOf_spaced_append (as.map shorten) (.punct [']']) (.blank ' ') (shorten b :: bs')
        have hg1 : gap (.punct [']']) (.blank ' ') = false := rfl
        have hg2 : gap (.blank ' ') (shorten b) = false := rfl
        have ht : text (.blank ' ') = [' '] := rfl
        rw [spaced_two, hg1, hg2, ht] at hts
        simp only [hg, List.map_append, List.map_cons, List.map_nil, e, hts, List.append_assoc, List.cons_append, List.nil_append] at hj' ⊢
        rw [← List.append_assoc (Option.toList _), hj']
        simp

theorem display_padded {pad : Bool} {G : List Group} (hw : ∀ x ∈ G, Written x) (hl : Linked pad G) :
    ∃ ls, Padded pad ((G.flatMap Prod.snd).map shorten) ls ∧ display (G.map Prod.fst) = textOf (spaced ls) := by
  cases G with
  | nil => exact ⟨[], .nil, rfl⟩
  | cons g G =>
    unfold display
    obtain ⟨ls, h1, h2⟩ := displayFrom_groups G g none hw hl
    exact ⟨ls, h1, h2⟩

theorem display_groups {G : List Group} (hw : ∀ x ∈ G, Written x) (hl : Linked false G) :
    display (G.map Prod.fst) = textOf (spaced ((G.flatMap Prod.snd).map shorten)) := by
  obtain ⟨ls, h1, h2⟩ := display_padded hw hl
  rw [h2, h1.exact]

/-! ## The body -/

/-- What a replaced literal becomes. -/
inductive Sub (pad : Bool) (after : Lexeme → Bool) : Group → Prop
  | var {n : List Char} : Name n → (∀ l, after l = true → freeAfter l = true) → Sub pad after (.createdVar n, [.word n])
  | old {n : List Char} : Name n → Sub pad after (.other n, [.word n])
  | elem {n d : List Char} : Name n → Digits d → shortest d = d → pad = true →
      Sub pad after (.createdVar (n ++ '[' :: (d ++ [']'])), [.word n, .punct ['['], .word d, .punct [']']])

inductive Body (pad : Bool) (after : Lexeme → Bool) (rep : List Char → Bool) : List Lexeme → List Group → Prop
  | nil : Body pad after rep [] []
  | keep {l : Lexeme} {ls : List Lexeme} {B : List Group} : Body pad after rep ls B → Body pad after rep (l :: ls) ((tokOf l, [l]) :: B)
  | new {s : List Char} {g : Group} {ls : List Lexeme} {B : List Group} : rep s = true → Sub pad after g → Body pad after rep ls B →
      Body pad after rep (.str s :: ls) (g :: B)

theorem written_tok {l : Lexeme} (h : Solid l) : Written (tokOf l, [l]) := by
  refine ⟨by simp, ?_⟩
  simp only [List.map_cons, List.map_nil, spaced, display_tokOf h]
  simp [textOf]

theorem gap_delim {t : List Char} (h : isDelimiter t = true) (b : Lexeme) : gap (.punct t) b = false := by
  cases b <;> simp [gap, h]

theorem Sub.piece {pad : Bool} {after : Lexeme → Bool} {g : Group} (h : Sub pad after g) : Piece g.2 := by
  cases h with
  | var h _ => exact .name h
  | old h => exact .name h
  | elem h hd _ _ => exact .elem h hd

theorem Sub.written {pad : Bool} {after : Lexeme → Bool} {g : Group} (h : Sub pad after g) : Written g := by
  cases h with
  | var h _ => exact ⟨by simp, by simp [h.shorten, spaced, textOf, text, Token.display]⟩
  | old h => exact ⟨by simp, by simp [h.shorten, spaced, textOf, text, Token.display]⟩
  | @elem n d h hd hc _ =>
    refine ⟨by simp, ?_⟩
    have h1 : gap (.word n) (.punct ['[']) = false := rfl
    have h2 : gap (.punct ['[']) (.word d) = false := gap_delim (by decide) _
    have h3 : gap (.word d) (.punct [']']) = false := rfl
    have e1 : Spec.Js.shorten (.word d) = .word d := by simp [Spec.Js.shorten, hc]
    have e2 : ∀ t, Spec.Js.shorten (.punct t) = .punct t := fun _ => rfl
    simp only [List.map_cons, List.map_nil, h.shorten, e1, e2, spaced, h1, h2, h3, Bool.false_eq_true, if_false]
    simp [textOf, text, Token.display]

theorem joint_tok {pad : Bool} {a b : Lexeme} (ha : Solid a) (hb : Solid b) : Joint pad (tokOf a, [a]) (tokOf b, [b]) := by
  intro x y hx hy
  simp only [List.getLast?_singleton, Option.some.injEq, List.head?_cons] at hx hy
  subst hx; subst hy
  exact .inl (gap_eq ha hb)

theorem spaceAfter_created {t : Token} {x : List Char} : spaceAfter t (some (.createdVar x)) = none := by
  unfold spaceAfter; split <;> rfl

theorem spaceBefore_created {t : Option Token} {x : List Char} : spaceBefore t (.createdVar x) = false := by
  unfold spaceBefore; split <;> rfl

theorem joint_new {pad : Bool} {after : Lexeme → Bool} {a : Lexeme} {g : Group} (ha : Solid a) (hf : freeBefore a = true) (hg : Sub pad after g) :
    Joint pad (tokOf a, [a]) g := by
  cases hg with
  | var hn _ =>
    intro x y hx hy
    simp only [List.getLast?_singleton, Option.some.injEq, List.head?_cons] at hx hy
    subst hx; subst hy
    left
    rw [gap_name hn hf]
    simp only [spaceAfter_created, spaceBefore_created]
    rfl
  | @old n hn =>
    have := joint_tok (pad := pad) ha (b := .word n) ⟨rfl, rfl, [], hn.ok⟩
    rwa [hn.token] at this
  | elem hn _ _ _ =>
    intro x y hx hy
    simp only [List.getLast?_singleton, Option.some.injEq, List.head?_cons] at hx hy
    subst hx; subst hy
    left
    rw [gap_name hn hf]
    simp only [spaceAfter_created, spaceBefore_created]
    rfl

theorem joint_old {pad : Bool} {after : Lexeme → Bool} {b : Lexeme} {g : Group} (hb : Solid b) (hf : after b = true) (hg : Sub pad after g) :
    Joint pad g (tokOf b, [b]) := by
  have hsb : ∀ x, spaceBefore (some (.createdVar x)) (tokOf b) = opWord b := by
    intro x
    unfold spaceBefore
    simp [(required_eq hb).2, Token.isKeyword, Token.isOther, Token.isChar, Token.isStr]
  cases hg with
  | @var n hn ho =>
    intro x y hx hy
    simp only [List.getLast?_singleton, Option.some.injEq, List.head?_cons] at hx hy
    subst hx; subst hy
    have hf := ho b hf
    left
    rw [hsb]
    have : gap (.word n) b = opWord b := by
      cases b with
      | word w =>
        have : wordOperator w = true := hf
        simp [gap, opWord, this]
      | _ => rfl
    rw [this]; rfl
  | @old n hn =>
    have := joint_tok (pad := pad) (a := .word n) ⟨rfl, rfl, [], hn.ok⟩ hb
    rwa [hn.token] at this
  | @elem n d hn _ _ ho =>
    intro x y hx hy
    simp only [List.getLast?_cons_cons, List.getLast?_singleton, Option.some.injEq, List.head?_cons] at hx hy
    subst hx; subst hy
    rw [hsb, gap_delim (by decide)]
    cases hw : opWord b with
    | false => exact .inl rfl
    | true => exact .inr ⟨ho, rfl, rfl⟩

theorem Body.written {pad : Bool} {after : Lexeme → Bool} {rep : List Char → Bool} {ls : List Lexeme} {B : List Group}
    (h : Body pad after rep ls B) (hs : ∀ l ∈ ls, Solid l) : ∀ g ∈ B, Written g := by
  induction h with
  | nil => simp
  | keep _ ih =>
    intro g hg
    rcases List.mem_cons.1 hg with rfl | hg
    · exact written_tok (hs _ List.mem_cons_self)
    · exact ih (fun l hl => hs l (List.mem_cons_of_mem _ hl)) g hg
  | new _ hsub _ ih =>
    intro g hg
    rcases List.mem_cons.1 hg with rfl | hg
    · exact hsub.written
    · exact ih (fun l hl => hs l (List.mem_cons_of_mem _ hl)) g hg

/-- The group before the rest stands for the lexeme `l`. -/
def Before (pad : Bool) (after : Lexeme → Bool) (l : Lexeme) (ls : List Lexeme) (g : Group) : Prop :=
  (g = (tokOf l, [l]) ∧ Solid l) ∨ (freeBefore l = false ∧ ls.head?.all after = true ∧ Sub pad after g)

theorem Body.linked {pad : Bool} {after : Lexeme → Bool} {rep : List Char → Bool} {ls : List Lexeme} {B : List Group}
    (h : Body pad after rep ls B) : (∀ l ∈ ls, Solid l) → ∀ (l0 : Lexeme) (g0 : Group), Before pad after l0 ls g0 →
      looseFrom after rep (some l0) ls = true → Linked pad (g0 :: B) := by
  induction h with
  | nil => intro _ _ _ _ _; trivial
  | @keep l ls B _ ih =>
    intro hs l0 g0 hb hl
    have hsl := hs l List.mem_cons_self
    simp only [looseFrom, Bool.and_eq_true] at hl
    refine ⟨?_, ih (fun l hl => hs l (List.mem_cons_of_mem _ hl)) l _ (.inl ⟨rfl, hsl⟩) hl.2⟩
    rcases hb with ⟨rfl, h0⟩ | ⟨-, h1, h2⟩
    · exact joint_tok h0 hsl
    · exact joint_old hsl (by simpa using h1) h2
  | @new s g ls B hr hsub _ ih =>
    intro hs l0 g0 hb hl
    simp only [looseFrom, hr, Bool.not_true, Bool.false_or, Bool.and_eq_true, Option.all_some] at hl
    refine ⟨?_, ih (fun l hl => hs l (List.mem_cons_of_mem _ hl)) (.str s) _ (.inr ⟨rfl, hl.1.2, hsub⟩) hl.2⟩
    rcases hb with ⟨rfl, h0⟩ | ⟨h0, -, -⟩
    · exact joint_new h0 hl.1.1 hsub
    · rw [hl.1.1] at h0; cases h0

theorem Piece.shorten {p : List Lexeme} (h : Piece p) : Piece (p.map shorten) := by
  cases h with
  | name hn => simpa [hn.shorten] using Piece.name hn
  | @elem n d hn hd =>
    have e2 : ∀ t, Spec.Js.shorten (.punct t) = .punct t := fun _ => rfl
    simp only [List.map_cons, List.map_nil, hn.shorten, e2]
    cases h : isInteger d with
    | false => simpa [Spec.Js.shorten, h] using Piece.elem hn hd
    | true =>
      simp only [Spec.Js.shorten, h, if_true]
      refine .elem hn ?_
      obtain ⟨h1, h2, -⟩ := isInteger_iff.1 (shortest_ok h).1
      exact ⟨h1, h2⟩

theorem Body.swap {pad : Bool} {after : Lexeme → Bool} {rep : List Char → Bool} {ls : List Lexeme} {B : List Group}
    (h : Body pad after rep ls B) : Swap rep (ls.map shorten) ((B.flatMap Prod.snd).map shorten) := by
  induction h with
  | nil => exact .nil
  | keep _ ih => exact .keep ih
  | @new s g ls B hr hsub _ ih =>
    simp only [List.flatMap_cons, List.map_append, List.map_cons]
    exact .new hr hsub.piece.shorten ih

theorem looseFrom_some {after : Lexeme → Bool} {rep : List Char → Bool} {ls : List Lexeme} {a : Lexeme} (ha : freeBefore a = true)
    (h : looseFrom after rep none ls = true) : looseFrom after rep (some a) ls = true := by
  cases ls with
  | nil => rfl
  | cons l ls =>
    simp only [looseFrom, Bool.and_eq_true] at h ⊢
    refine ⟨?_, h.2⟩
    have := h.1
    cases l with
    | str s =>
      simp only [Option.all_none, Option.all_some, ha] at this ⊢
      exact this
    | _ => rfl

theorem looseFrom_shorten {after : Lexeme → Bool} {rep : List Char → Bool} (ha : ∀ l, after (shorten l) = after l) :
    ∀ (ls : List Lexeme) (prev : Option Lexeme), looseFrom after rep prev ls = true →
      looseFrom after rep (prev.map shorten) (ls.map shorten) = true
  | [], _, _ => rfl
  | l :: ls, prev, h => by
    simp only [looseFrom, Bool.and_eq_true, List.map_cons] at h ⊢
    refine ⟨?_, looseFrom_shorten ha ls (some l) h.2⟩
    have hf : ∀ l, freeBefore (shorten l) = freeBefore l := by
      intro l
      cases l with
      | word w => simp only [Spec.Js.shorten]; split <;> rfl
      | _ => rfl
    cases l with
    | str s =>
      have h1 := h.1
      simp only [Spec.Js.shorten, Bool.or_eq_true, Bool.and_eq_true, Bool.not_eq_true'] at h1 ⊢
      rcases h1 with h1 | ⟨h1, h2⟩
      · exact .inl h1
      · refine .inr ⟨?_, ?_⟩
        · cases prev with
          | none => rfl
          | some p => simpa [hf] using h1
        · cases ls with
          | nil => rfl
          | cons x ls => simpa [ha] using h2
    | word w =>
      simp only [Spec.Js.shorten]
      split
      · rename_i heq
        split at heq <;> cases heq
      · rfl
    | _ => rfl

theorem freeAfter_shorten (l : Lexeme) : freeAfter (shorten l) = freeAfter l := by
  cases l with
  | word w =>
    simp only [Spec.Js.shorten]
    split
    · rename_i h
      simp [freeAfter, wordOperator_integer h, wordOperator_integer (shortest_ok h).1]
    · rfl
  | _ => rfl

/-! ## The declaration -/

def declGroup (p : List Char × List Char) : Group := (.createdVarDecl (p.2 ++ ['='] ++ p.1), [.word p.2, .punct ['='], .str p.1])

def commaGroup : Group := (.char .comma, [.punct [',']])

def semiGroup : Group := (.char .semiColon, [.punct [';']])

def varGroup : Group := (.keyword .kVar, [.word "var".toList])

def declGroups : List (List Char × List Char) → List Group
  | [] => []
  | [p] => [declGroup p]
  | p :: q :: D => declGroup p :: commaGroup :: declGroups (q :: D)

/-- The groups of a declaration. -/
def preludeGroups : List (List Char × List Char) → List Group
  | [] => []
  | p :: D => varGroup :: (declGroups (p :: D) ++ [semiGroup])

theorem declGroups_fst : ∀ (p : List Char × List Char) (D : List (List Char × List Char)),
    (declGroups (p :: D)).map Prod.fst =
      .createdVarDecl (p.2 ++ ['='] ++ p.1) :: D.flatMap fun p => [.char .comma, .createdVarDecl (p.2 ++ ['='] ++ p.1)]
  | _, [] => rfl
  | p, q :: D => by
    simp only [declGroups, List.map_cons, declGroups_fst q D, List.flatMap_cons]
    rfl

theorem preludeGroups_fst (D : List (List Char × List Char)) : (preludeGroups D).map Prod.fst = declare D := by
  cases D with
  | nil => rfl
  | cons p D =>
    obtain ⟨s, n⟩ := p
    simp only [preludeGroups, List.map_cons, List.map_append, declGroups_fst, declare, List.map_nil, List.cons_append]
    rfl

theorem declGroups_snd : ∀ D : List (List Char × List Char), (declGroups D).flatMap Prod.snd = assignments D
  | [] => rfl
  | [p] => rfl
  | (s, n) :: q :: D => by
    rw [declGroups, List.flatMap_cons, List.flatMap_cons, declGroups_snd (q :: D)]
    rfl

theorem preludeGroups_snd (D : List (List Char × List Char)) : (preludeGroups D).flatMap Prod.snd = prelude D := by
  cases D with
  | nil => rfl
  | cons p D =>
    rw [preludeGroups, List.flatMap_cons, List.flatMap_append, declGroups_snd]
    rfl

theorem prelude_shorten : ∀ (D : List (List Char × List Char)), DeclOk D → (assignments D).map shorten = assignments D
  | [], _ => rfl
  | [(s, n)], h => by
    have := (h _ List.mem_cons_self).1.shorten
    simp only [assignments, List.map_cons, List.map_nil, this]
    rfl
  | (s, n) :: q :: D, h => by
    have := (h _ List.mem_cons_self).1.shorten
    simp only [assignments, List.map_cons, this, prelude_shorten (q :: D) fun p hp => h p (List.mem_cons_of_mem _ hp)]
    rfl

theorem prelude_map (D : List (List Char × List Char)) (h : DeclOk D) : (prelude D).map shorten = prelude D := by
  cases D with
  | nil => rfl
  | cons p D =>
    rw [prelude, List.map_cons, List.map_append, prelude_shorten _ h]
    have : shorten (.word "var".toList) = .word "var".toList := by decide +kernel
    rw [this]; rfl

theorem comma_tok : commaGroup = (tokOf (.punct [',']), [.punct [',']]) := rfl
theorem semi_tok : semiGroup = (tokOf (.punct [';']), [.punct [';']]) := rfl

theorem solid_comma : Solid (.punct [',']) := ⟨rfl, rfl, [], show [','] ∈ puncts by decide +kernel⟩
theorem solid_semi : Solid (.punct [';']) := ⟨rfl, rfl, [], show [';'] ∈ puncts by decide +kernel⟩

theorem declGroup_written {p : List Char × List Char} (h : Name p.2) : Written (declGroup p) := by
  refine ⟨by simp [declGroup], ?_⟩
  have h1 : gap (.word p.2) (.punct ['=']) = false := rfl
  have h2 : gap (.punct ['=']) (.str p.1) = false := rfl
  have e1 : ∀ t, Spec.Js.shorten (.str t) = .str t := fun _ => rfl
  have e2 : ∀ t, Spec.Js.shorten (.punct t) = .punct t := fun _ => rfl
  simp only [declGroup, List.map_cons, List.map_nil, h.shorten, e1, e2, spaced, h1, h2, Bool.false_eq_true, if_false]
  simp [textOf, text, Token.display]

theorem prelude_written (D : List (List Char × List Char)) (h : DeclOk D) : ∀ g ∈ preludeGroups D, Written g := by
  have hd : ∀ D : List (List Char × List Char), DeclOk D → ∀ g ∈ declGroups D, Written g := by
    intro D
    induction D with
    | nil => intro _ g hg; cases hg
    | cons p D ih =>
      intro h g hg
      cases D with
      | nil =>
        simp only [declGroups, List.mem_cons, List.not_mem_nil, or_false] at hg
        subst hg
        exact declGroup_written (h _ List.mem_cons_self).1
      | cons q D =>
        simp only [declGroups, List.mem_cons] at hg
        rcases hg with rfl | rfl | hg
        · exact declGroup_written (h _ List.mem_cons_self).1
        · exact comma_tok ▸ written_tok solid_comma
        · exact ih (fun p hp => h p (List.mem_cons_of_mem _ hp)) g hg
  intro g hg
  cases D with
  | nil => cases hg
  | cons p D =>
    simp only [preludeGroups, List.mem_cons, List.mem_append, List.not_mem_nil, or_false] at hg
    rcases hg with rfl | hg | rfl
    · refine ⟨by simp [varGroup], by decide +kernel⟩
    · exact hd _ h g hg
    · exact semi_tok ▸ written_tok solid_semi

theorem declGroup_joint {pad : Bool} {p : List Char × List Char} {c : RChar} {t : List Char} : Joint pad (declGroup p) (.char c, [.punct t]) := by
  intro x y hx hy
  simp only [declGroup, List.getLast?_cons_cons, List.getLast?_singleton, Option.some.injEq, List.head?_cons] at hx hy
  subst hx; subst hy
  exact .inl rfl

theorem declGroups_linked {pad : Bool} : ∀ (D : List (List Char × List Char)) (G : List Group), D ≠ [] → DeclOk D → Linked pad (semiGroup :: G) →
    Linked pad (declGroups D ++ semiGroup :: G) ∧ ∃ p X, declGroups D ++ semiGroup :: G = declGroup p :: X ∧ p ∈ D
  | [], _, h, _, _ => absurd rfl h
  | [p], G, _, _, hl => ⟨⟨declGroup_joint, hl⟩, p, _, rfl, List.mem_cons_self⟩
  | p :: q :: D, G, _, hD, hl => by
    obtain ⟨h1, p', X, h2, h3⟩ := declGroups_linked (q :: D) G (by simp) (fun p hp => hD p (List.mem_cons_of_mem _ hp)) hl
    refine ⟨?_, p, _, rfl, List.mem_cons_self⟩
    simp only [declGroups, List.cons_append]
    rw [h2] at h1 ⊢
    refine ⟨declGroup_joint, ?_, h1⟩
    intro x y hx hy
    simp only [declGroup, commaGroup, List.getLast?_singleton, Option.some.injEq, List.head?_cons] at hx hy
    subst hx; subst hy
    left
    rw [gap_name (hD p' (List.mem_cons_of_mem _ h3)).1 rfl]
    rfl

theorem prelude_linked {pad : Bool} {D : List (List Char × List Char)} {G : List Group} (h : DeclOk D) (hG : D = [] → Linked pad G)
    (hl : D ≠ [] → Linked pad (semiGroup :: G)) : Linked pad (preludeGroups D ++ G) := by
  cases D with
  | nil => exact hG rfl
  | cons p D =>
    obtain ⟨h1, p', X, h2, h3⟩ := declGroups_linked (p :: D) G (by simp) h (hl (by simp))
    simp only [preludeGroups, List.cons_append, List.append_assoc, List.nil_append]
    rw [h2] at h1 ⊢
    refine ⟨?_, h1⟩
    intro x y hx hy
    simp only [declGroup, varGroup, List.getLast?_singleton, Option.some.injEq, List.head?_cons] at hx hy
    subst hx; subst hy
    have : gap (.word "var".toList) (.word p'.2) = true := by
      have : isName "var".toList = true := by decide +kernel
      simp only [gap, this, Bool.true_or]
    left
    rw [this]
    rfl

/-! ## Reading the text -/

theorem lex_spaced {ls : List Lexeme} (hp : Placed [] ls) (hs : ∀ l ∈ ls, solid l = true ∧ isOpen l = false)
    (h : safeFrom [] ls = true) : lex (textOf (spaced ls)) = spaced ls := by
  have := relex ls [] [] hp (fun l hl => plain_of (hs l hl)) rfl h (by intro t v' hv; cases hv)
  show (L [] [] (textOf (spaced ls))).reverse = _
  rw [this]
  simp

/-- What is written for the groups. -/
theorem agg_show {after : Lexeme → Bool} {rep : List Char → Bool} {src : List Lexeme} {D : List (List Char × List Char)}
    {B : List Group} (hsol : ∀ l ∈ src, Solid l) (hl : looseFrom after rep none src = true) (hb : Body false after rep src B)
    (hD : DeclOk D) :
    display (declare D ++ B.map Prod.fst) = textOf (spaced (prelude D ++ (B.flatMap Prod.snd).map shorten)) := by
  have hB1 := hb.written hsol
  have hlink : Linked false (preludeGroups D ++ B) := by
    refine prelude_linked hD (fun _ => ?_) fun _ => ?_
    · exact (hb.linked hsol (.punct [';']) _ (.inl ⟨rfl, solid_semi⟩) (looseFrom_some rfl hl)).tail
    · exact hb.linked hsol (.punct [';']) _ (.inl ⟨rfl, solid_semi⟩) (looseFrom_some rfl hl)
  have := display_groups (G := preludeGroups D ++ B) (by
    intro g hg
    rcases List.mem_append.1 hg with hg | hg
    · exact prelude_written D hD g hg
    · exact hB1 g hg) hlink
  rw [List.map_append, preludeGroups_fst, List.flatMap_append, List.map_append, preludeGroups_snd, prelude_map D hD] at this
  exact this

theorem agg_text {after : Lexeme → Bool} {rep : List Char → Bool} {src : List Lexeme} {D : List (List Char × List Char)}
    {B : List Group} (ha : ∀ l, after (shorten l) = after l) (hsol : ∀ l ∈ src, Solid l) (hp : Placed [] src)
    (hs : safeFrom [] (src.map shorten) = true) (hl : looseFrom after rep none src = true) (hb : Body false after rep src B)
    (hD : DeclOk D) :
    lex (display (declare D ++ B.map Prod.fst)) = spaced (prelude D ++ (B.flatMap Prod.snd).map shorten) := by
  have hd := agg_show hsol hl hb hD
  rw [hd]
  have hsw := hb.swap
  have hsol' : ∀ l ∈ src.map shorten, Solid l := by
    intro l hl
    obtain ⟨l', hl', rfl⟩ := List.mem_map.1 hl
    obtain ⟨h1, h2, v, h3⟩ := hsol l' hl'
    exact ⟨by rw [(shorten_class l').2.1, h1], by rw [(shorten_class l').1, h2], v, h3.shorten⟩
  have hp' := hsw.placed (v := []) (v' := []) rfl (Placed.shorten _ [] [] rfl hp)
  have hs' := hsw.safe (after := after) (v := []) (v' := []) ⟨rfl, .inl rfl⟩ (looseFrom_shorten ha _ none hl) hs
  obtain ⟨h1, h2, h3⟩ := prelude_ok D ((B.flatMap Prod.snd).map shorten) hD
  refine lex_spaced (h1 hp') ?_ (h2 hs')
  intro l hl
  rcases List.mem_append.1 hl with hl | hl
  · exact ⟨(h3 l hl).2.1, (h3 l hl).1⟩
  · have := hsw.solid hsol' l hl
    exact ⟨this.2.1, this.1⟩

end Verif.Js
