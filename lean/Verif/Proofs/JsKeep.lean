import Verif.Spec.JsKeep
import Verif.Proofs.JsRead
import Verif.Props.JsTokens
/-!
# Scripts that keep some of their blanks: tokens, lexemes and text
-/
set_option linter.unusedSimpArgs false
namespace Verif.Js
open Spec.Js

/-! ## Semicolons -/

theorem trimmed_refl : ∀ (ls : List Lexeme) (z : Bool), Trimmed z ls ls
  | [], _ => .nil
  | _ :: ls, _ => .keep (trimmed_refl ls false)

theorem trimmed_pairs (ls : List Lexeme) : ∀ z, Trimmed z ls (trimPairs ls) := by
  induction ls using trimPairs.induct with
  | case1 => intro z; exact .nil
  | case2 => intro z; exact .last
  | case3 r ih => intro z; rw [trimPairs, if_pos rfl]; exact .brace (ih false)
  | case4 n r h ih => intro z; rw [trimPairs, if_neg h]; exact .keep (.keep (ih false))
  | case5 l r h1 h2 ih =>
    intro z
    rw [trimPairs]
    · exact .keep (ih false)
    · exact h1
    · exact h2

theorem trimmed_trim (ls : List Lexeme) : Trimmed true ls (trim ls) := by
  unfold trim
  induction ls with
  | nil => exact .nil
  | cons l ls ih =>
    rw [List.dropWhile_cons]
    split
    · rename_i h
      rw [beq_iff_eq] at h
      rw [h]
      exact .first ih
    · exact trimmed_pairs _ _

theorem trimmed_kept (keep : Char → Bool) (semis : Bool) (ls : List Lexeme) :
    Trimmed true (layout keep ls) (keptLayout keep semis ls) := by
  unfold keptLayout
  split
  · exact trimmed_refl _ _
  · exact trimmed_trim _

private theorem layout_cons (keep : Char → Bool) (l : Lexeme) (r : List Lexeme) :
    layout keep (l :: r) = if wanted keep l then l :: layout keep r else layout keep r := List.filter_cons

/-- What is left of the second lexeme of a pair, and what follows. -/
private def keepFirst : List Lexeme → List Lexeme
  | [] => []
  | l :: r => l :: trimPairs r

theorem layout_prunePairs (keep : Char → Bool) : ∀ (ls : List Lexeme),
    layout keep (prunePairs keep false ls) = trimPairs (layout keep ls) ∧ layout keep (prunePairs keep true ls) = keepFirst (layout keep ls) := by
  intro ls
  induction ls with
  | nil => exact ⟨rfl, rfl⟩
  | cons l r ih =>
    cases hw : wanted keep l with
    | false =>
      rw [layout_cons, hw]
      simp only [prunePairs, hw, if_pos, layout_cons, Bool.false_eq_true, if_false]
      exact ih
    | true =>
      have e : layout keep (l :: r) = l :: layout keep r := by rw [layout_cons, hw, if_pos rfl]
      have hk : layout keep (prunePairs keep true (l :: r)) = keepFirst (layout keep (l :: r)) := by
        rw [e, prunePairs, if_neg (by simp [hw]), if_neg (by simp), layout_cons, hw, if_pos rfl, ih.1]
        rfl
      refine ⟨?_, hk⟩
      rw [e]
      by_cases hs : l = .punct [';']
      · subst hs
        rw [prunePairs, if_neg (by simp [hw]), if_pos ⟨rfl, rfl⟩]
        cases hl : layout keep r with
        | nil =>
          simp only [List.head?_nil]
          rw [ih.1, hl]
          rfl
        | cons n q =>
          simp only [List.head?_cons]
          by_cases hn : n = .punct ['}']
          · subst hn
            rw [if_pos rfl, ih.1, hl, trimPairs, if_pos rfl, trimPairs] <;> simp
          · rw [if_neg hn, layout_cons, hw, if_pos rfl, ih.2, hl, trimPairs, if_neg hn]
            rfl
      · rw [prunePairs, if_neg (by simp [hw]), if_neg (fun h => hs h.1), layout_cons, hw, if_pos rfl, ih.1, trimPairs]
        · intro h _; exact hs h
        · intro _ _ h _; exact hs h

theorem layout_pruned (keep : Char → Bool) (semis : Bool) (ls : List Lexeme) : layout keep (pruned keep semis ls) = keptLayout keep semis ls := by
  unfold pruned keptLayout
  cases semis with
  | true => rfl
  | false =>
    simp only [Bool.false_eq_true, if_false, trim]
    induction ls with
    | nil => rfl
    | cons l r ih =>
      cases hw : wanted keep l with
      | false =>
        rw [layout_cons, hw]
        simp only [prune, hw, if_pos, layout_cons, Bool.false_eq_true, if_false]
        exact ih
      | true =>
        have e : layout keep (l :: r) = l :: layout keep r := by rw [layout_cons, hw, if_pos rfl]
        rw [e]
        by_cases hs : l = .punct [';']
        · subst hs
          rw [prune, if_neg (by simp [hw]), if_pos rfl, List.dropWhile_cons_of_pos (by simp), ih]
        · rw [prune, if_neg (by simp [hw]), if_neg hs, List.dropWhile_cons_of_neg (by simpa using hs), (layout_prunePairs keep _).1, e]

theorem pruned_mem {keep : Char → Bool} {semis : Bool} {ls : List Lexeme} : ∀ l ∈ pruned keep semis ls, l ∈ ls := by
  have h1 : ∀ (ls : List Lexeme) (p : Bool), ∀ l ∈ prunePairs keep p ls, l ∈ ls := by
    intro ls
    induction ls with
    | nil => intro p l h; exact h
    | cons a r ih =>
      intro p l h
      rw [prunePairs] at h
      have hc : ∀ {q}, l ∈ a :: prunePairs keep q r → l ∈ a :: r := by
        intro q h
        rcases List.mem_cons.1 h with rfl | h
        · exact List.mem_cons_self
        · exact List.mem_cons_of_mem _ (ih _ l h)
      split at h
      · exact hc h
      · split at h
        · split at h
          · exact List.mem_cons_of_mem _ (ih _ l h)
          · split at h
            · exact List.mem_cons_of_mem _ (ih _ l h)
            · exact hc h
        · exact hc h
  have h2 : ∀ (ls : List Lexeme), ∀ l ∈ prune keep ls, l ∈ ls := by
    intro ls
    induction ls with
    | nil => intro l h; exact h
    | cons a r ih =>
      intro l h
      rw [prune] at h
      split at h
      · rcases List.mem_cons.1 h with rfl | h
        · exact List.mem_cons_self
        · exact List.mem_cons_of_mem _ (ih l h)
      · split at h
        · exact List.mem_cons_of_mem _ (ih l h)
        · exact h1 _ _ l h
  intro l h
  unfold pruned at h
  split at h
  · exact h
  · exact h2 _ l h

theorem trimmed_mem {z : Bool} {a b : List Lexeme} (h : Trimmed z a b) : ∀ l ∈ b, l ∈ a := by
  induction h with
  | nil => simp
  | keep _ ih =>
    intro l hl
    rcases List.mem_cons.1 hl with rfl | hl
    · exact List.mem_cons_self
    · exact List.mem_cons_of_mem _ (ih l hl)
  | first _ ih => exact fun l hl => List.mem_cons_of_mem _ (ih l hl)
  | brace _ ih =>
    intro l hl
    rcases List.mem_cons.1 hl with rfl | hl
    · simp
    · exact List.mem_cons_of_mem _ (List.mem_cons_of_mem _ (ih l hl))
  | last => simp

theorem trimmed_placed {z : Bool} {a b : List Lexeme} (h : Trimmed z a b) : ∀ (v : List Lexeme), (z = true → regexPossible v = true) →
    Placed v a → Placed v b := by
  induction h with
  | nil => intro v _ h; exact h
  | keep _ ih => intro v _ h; exact ⟨h.1, ih _ (by simp) h.2⟩
  | first _ ih =>
    intro v hr h
    refine ih v hr (Placed.mono _ _ _ ?_ h.2)
    rw [hr rfl]
    show true = beforeOperand.contains [';']
    decide
  | brace _ ih =>
    intro v _ h
    exact ⟨h.2.1, ih _ (by simp) (Placed.mono _ (.punct ['}'] :: .punct [';'] :: _) _ rfl h.2.2)⟩
  | last => intro v _ _; trivial

theorem placed_layout (keep : Char → Bool) : ∀ (ls v v' : List Lexeme), regexPossible v' = regexPossible v → Placed v ls →
    Placed v' (layout keep ls)
  | [], _, _, _, _ => trivial
  | a :: ls, v, v', hr, h => by
    unfold layout
    cases hs : wanted keep a with
    | true =>
      rw [List.filter_cons_of_pos hs]
      refine ⟨h.1.congr hr, placed_layout keep ls (a :: v) (a :: v') ?_ h.2⟩
      cases a <;> simp only [regexPossible] <;> exact hr
    | false =>
      rw [List.filter_cons_of_neg (by simp [hs])]
      refine placed_layout keep ls (a :: v) v' ?_ h.2
      cases a <;> simp [wanted, solid] at hs <;> simpa [regexPossible] using hr

/-! ## Lexemes that are written -/

/-- Solid lexemes and blanks of a reading without open ones. -/
def Shown (l : Lexeme) : Prop := isOpen l = false ∧ plain l = true ∧ ∃ v, LexOk v l

theorem Shown.cases {l : Lexeme} (h : Shown l) : Solid l ∨ ∃ c, l = .blank c ∧ c ∈ [' ', '\t', '\n'] := by
  obtain ⟨ho, hp, v, hl⟩ := h
  cases l with
  | blank c =>
    refine .inr ⟨c, rfl, ?_⟩
    obtain ⟨h1, h2⟩ := hl
    simp only [isBlank, Bool.or_eq_true, beq_iff_eq] at h1
    rcases h1 with ((h | h) | h) | h <;> first | exact absurd h h2 | simp [h]
  | comment b => cases hp
  | _ => first | cases ho; done | exact .inl ⟨ho, rfl, v, hl⟩

theorem blank_token {c : Char} (h : c ∈ [' ', '\t', '\n']) : ∃ r : RChar, tokOf (.blank c) = .char r ∧
    (r = .space ∨ r = .tab ∨ r = .backline) := by
  simp only [List.mem_cons, List.not_mem_nil, or_false] at h
  rcases h with rfl | rfl | rfl
  · exact ⟨.space, by decide +kernel⟩
  · exact ⟨.tab, by decide +kernel⟩
  · exact ⟨.backline, by decide +kernel⟩

theorem display_shown {l : Lexeme} (h : Shown l) : (tokOf l).display = text (shorten l) := by
  rcases h.cases with h | ⟨c, rfl, hc⟩
  · exact display_tokOf h
  · have : ∀ c ∈ [' ', '\t', '\n'], (tokOf (.blank c)).display = text (shorten (.blank c)) := by decide +kernel
    exact this c hc

theorem gap_shown {a b : Lexeme} (ha : Shown a) (hb : Shown b) :
    (spaceAfter (tokOf a) (some (tokOf b))).toList ++ (if spaceBefore (some (tokOf a)) (tokOf b) then [' '] else []) =
      if gap a b then [' '] else [] := by
  rcases hb.cases with hb | ⟨d, rfl, hd⟩
  · rcases ha.cases with ha | ⟨c, rfl, hc⟩
    · exact gap_eq ha hb
    · obtain ⟨r, hr, -⟩ := blank_token hc
      have hg : gap (.blank c) b = false := by cases b <;> rfl
      rw [hr, hg]
      simp [spaceAfter, spaceBefore, Token.isChar]
  · obtain ⟨r, hr, -⟩ := blank_token hd
    have hg : gap a (.blank d) = false := by cases a <;> rfl
    rw [hr, hg]
    have : spaceAfter (tokOf a) (some (.char r)) = none := by unfold spaceAfter; split <;> rfl
    rw [this]
    simp [spaceBefore, Token.requiresBefore]

theorem displayFrom_shown : ∀ (ls : List Lexeme) (a : Lexeme) (prev : Option Token), Shown a → (∀ l ∈ ls, Shown l) →
    displayFrom prev ((a :: ls).map tokOf) =
      (if spaceBefore prev (tokOf a) then [' '] else []) ++ textOf (spaced ((a :: ls).map shorten))
  | [], a, prev, ha, _ => by
    have hsa : spaceAfter (tokOf a) none = none := by
      unfold spaceAfter; split <;> rfl
    simp only [List.map_cons, List.map_nil, displayFrom, List.head?_nil, hsa, spaced, textOf_cons, display_shown ha]
    simp [textOf]
  | b :: ls, a, prev, ha, h => by
    have hb := h b List.mem_cons_self
    have ih := displayFrom_shown ls b (some (tokOf a)) hb (fun l hl => h l (List.mem_cons_of_mem _ hl))
    have hun : displayFrom prev ((a :: b :: ls).map tokOf) =
        (if spaceBefore prev (tokOf a) then [' '] else []) ++ (tokOf a).display ++
          (spaceAfter (tokOf a) (some (tokOf b))).toList ++ displayFrom (some (tokOf a)) ((b :: ls).map tokOf) := rfl
    rw [hun, ih, display_shown ha]
    simp only [List.map_cons, spaced, gap_shorten]
    have hg := gap_shown ha hb
    simp only [List.append_assoc]
    congr 1
    rw [← List.append_assoc (spaceAfter _ _).toList, hg]
    split
    · simp [textOf_cons, text]
    · simp [textOf_cons]

theorem display_layout {ls : List Lexeme} (h : ∀ l ∈ ls, Shown l) :
    display (ls.map tokOf) = textOf (spaced (ls.map shorten)) := by
  cases ls with
  | nil => rfl
  | cons a ls =>
    unfold display
    rw [displayFrom_shown ls a none (h a List.mem_cons_self) fun l hl => h l (List.mem_cons_of_mem _ hl)]
    rfl

/-! ## The tokens that are kept -/

theorem shown_token {l : Lexeme} (h : Shown l) (c : RChar) (t : List Char) (ht : tokOf (.punct t) = .char c) (htp : t ∈ puncts)
    (hc : c = .semiColon ∨ c = .closeCurly) : tokOf l = .char c ↔ l = .punct t := by
  have hp : ∀ t ∈ puncts, ∀ t' ∈ puncts, tokOf (.punct t) = tokOf (.punct t') → t = t' := by decide +kernel
  constructor
  · intro e
    rcases h.cases with ⟨ho, hs, v, hl⟩ | ⟨d, rfl, hd⟩
    · cases l with
      | punct u => rw [hp u hl t htp (e.trans ht.symm)]
      | word w =>
        have := word_shape hl
        have h4 : (wordToken w).isChar = false := this.2.2.2.1
        have e' : wordToken w = .char c := e
        rw [e'] at h4; cases h4
      | str _ => cases e
      | regex _ _ => cases e
      | license _ => cases e
      | blank _ => cases hs
      | comment _ => cases hs
      | _ => cases ho
    · obtain ⟨r, hr, hr'⟩ := blank_token hd
      rw [hr] at e
      cases e
      rcases hc with rfl | rfl <;> simp at hr'
  · rintro rfl; exact ht

theorem shown_semi {l : Lexeme} (h : Shown l) : tokOf l = .char .semiColon ↔ l = .punct [';'] :=
  shown_token h _ _ (by decide +kernel) (by decide +kernel) (.inl rfl)

theorem shown_brace {l : Lexeme} (h : Shown l) : tokOf l = .char .closeCurly ↔ l = .punct ['}'] :=
  shown_token h _ _ (by decide +kernel) (by decide +kernel) (.inr rfl)

theorem pairs_map (ls : List Lexeme) (h : ∀ l ∈ ls, Shown l) : pairs (ls.map tokOf) = (trimPairs ls).map tokOf := by
  have hsemi : tokOf (.punct [';']) = .char .semiColon := by decide +kernel
  induction ls using trimPairs.induct with
  | case1 => rfl
  | case2 => simp only [List.map_cons, List.map_nil, hsemi]; rfl
  | case3 r ih =>
    have hb : tokOf (.punct ['}']) = .char .closeCurly := by decide +kernel
    simp only [List.map_cons, hsemi, hb, pairs, trimPairs, if_true, beq_self_eq_true,
      ih fun l hl => h l (List.mem_cons_of_mem _ (List.mem_cons_of_mem _ hl))]
  | case4 n r hn ih =>
    have h2 : (tokOf n == Token.char .closeCurly) = false := by
      rw [beq_eq_false_iff_ne]
      exact fun e => hn ((shown_brace (h n (by simp))).1 e)
    simp only [List.map_cons, hsemi, pairs, trimPairs, if_neg hn, h2, Bool.false_eq_true, if_false,
      ih fun l hl => h l (List.mem_cons_of_mem _ (List.mem_cons_of_mem _ hl))]
  | case5 l r h1 h2 ih =>
    rw [trimPairs, List.map_cons, List.map_cons, ← ih fun l hl => h l (List.mem_cons_of_mem _ hl)]
    · have hl := h l List.mem_cons_self
      have hne : tokOf l ≠ .char .semiColon := by
        intro e
        have := (shown_semi hl).1 e
        subst this
        cases r with
        | nil => exact h1 rfl rfl
        | cons n r => exact h2 n r rfl rfl
      rw [pairs]
      · rintro e; exact absurd e hne
      · intro n r' e; exact absurd e hne
    · exact h1
    · exact h2

/-- The white character that stands for a blank. -/
def whiteChar (c : Char) : RChar := if c = ' ' then .space else if c = '\t' then .tab else .backline

/-- The blanks that a callback keeps. -/
def keepOf (f : Token → Bool) (c : Char) : Bool := !f (.char (whiteChar c))

theorem wanted_token {f : Token → Bool} (hf : ∀ b, f (.comment b) = true) {v : List Lexeme} {l : Lexeme} (hl : LexOk v l) (ho : isOpen l = false) :
    (!(useless (tokOf l) && f (tokOf l))) = wanted (keepOf f) l := by
  cases l with
  | blank c =>
    obtain ⟨h1, h2⟩ := hl
    simp only [isBlank, Bool.or_eq_true, beq_iff_eq] at h1
    have hs : ∀ c ∈ [' ', '\t', '\n'], tokOf (.blank c) = .char (whiteChar c) ∧ useless (.char (whiteChar c)) = true := by decide +kernel
    obtain ⟨h3, h4⟩ := hs c (by rcases h1 with ((h | h) | h) | h <;> first | exact absurd h h2 | simp [h])
    rw [h3, h4]
    rfl
  | comment b => show (!(true && f (.comment b))) = false; rw [hf]; rfl
  | _ =>
    have h1 := keepTok_tokOf hl ho
    rw [keepTok_useless] at h1
    rw [Bool.not_and, h1]
    simp_all [wanted, solid, isOpen]

theorem cleanExcept_lex {f : Token → Bool} (hf : ∀ b, f (.comment b) = true) {ls : List Lexeme}
    (h : ∀ l ∈ ls, isOpen l = false ∧ ∃ v, LexOk v l) :
    cleanTokensExcept f (ls.map tokOf) = (keptLayout (keepOf f) (!f (.char .semiColon)) ls).map tokOf := by
  rw [C29_exact]
  have h1 : (ls.map tokOf).filter (fun t => !(useless t && f t)) = (layout (keepOf f) ls).map tokOf := by
    unfold layout
    rw [List.filter_map]
    congr 1
    apply List.filter_congr
    intro l hl
    obtain ⟨ho, v, hv⟩ := h l hl
    exact wanted_token hf hv ho
  have h2 : ∀ l ∈ layout (keepOf f) ls, Shown l := by
    intro l hl
    obtain ⟨hl, hs⟩ := List.mem_filter.1 hl
    refine ⟨(h l hl).1, ?_, (h l hl).2⟩
    have := (h l hl).1
    cases l <;> simp_all [plain, wanted, solid, isOpen]
  simp only [h1]
  unfold keptLayout
  cases hs : f (.char .semiColon) with
  | false => simp
  | true =>
    simp only [Bool.not_true, Bool.false_eq_true, if_false, if_true]
    unfold trim
    generalize layout (keepOf f) ls = us at h2
    have : (us.map tokOf).dropWhile (· == .char .semiColon) = (us.dropWhile (· == .punct [';'])).map tokOf := by
      induction us with
      | nil => rfl
      | cons l us ih =>
        have he : (tokOf l == Token.char .semiColon) = (l == .punct [';']) := by
          rw [Bool.eq_iff_iff, beq_iff_eq, beq_iff_eq]
          exact shown_semi (h2 l List.mem_cons_self)
        rw [List.map_cons, List.dropWhile_cons, List.dropWhile_cons, he]
        split
        · exact ih fun x hx => h2 x (List.mem_cons_of_mem _ hx)
        · rfl
    rw [this, pairs_map]
    exact fun l hl => h2 l ((List.dropWhile_suffix _).subset hl)

theorem kept_shown {keep : Char → Bool} {semis : Bool} {ls : List Lexeme} (h : ∀ l ∈ ls, isOpen l = false ∧ ∃ v, LexOk v l) :
    ∀ l ∈ keptLayout keep semis ls, Shown l := by
  intro l hl
  obtain ⟨hl, hs⟩ := List.mem_filter.1 (trimmed_mem (trimmed_kept keep semis ls) l hl)
  refine ⟨(h l hl).1, ?_, (h l hl).2⟩
  have := (h l hl).1
  cases l <;> simp_all [plain, wanted, solid, isOpen]

/-- The text that is written. -/
theorem cleanExcept_text {f : Token → Bool} (hf : ∀ b, f (.comment b) = true) {s : List Char} (h : Closed s) :
    ∃ ts, tokenize s = .ok ts ∧
      display (cleanTokensExcept f ts) = textOf (spaced ((keptLayout (keepOf f) (!f (.char .semiColon)) (lex s)).map shorten)) := by
  refine ⟨_, tokenize_closed h, ?_⟩
  rw [cleanExcept_lex hf (closed_lex h), display_layout (kept_shown (closed_lex h))]

private theorem kept_placed (keep : Char → Bool) (semis : Bool) (s : List Char) : Placed [] ((keptLayout keep semis (lex s)).map shorten) := by
  have hwf : Placed [] (lex s) := Placed.of_wf _ _ (by simpa [lex] using lexRev_wf s)
  exact Placed.shorten _ [] [] rfl (trimmed_placed (trimmed_kept keep semis (lex s)) [] (fun _ => rfl) (placed_layout keep _ [] [] rfl hwf))

private theorem kept_written {keep : Char → Bool} {semis : Bool} {s : List Char} (h : Closed s) :
    ∀ l ∈ (keptLayout keep semis (lex s)).map shorten, Inked l := by
  intro l hl
  obtain ⟨l', hl', rfl⟩ := List.mem_map.1 hl
  have := kept_shown (closed_lex h) l' hl'
  refine ⟨?_, by rw [(shorten_class l').2.1, this.1]⟩
  have h2 := this.2.1
  cases l' with
  | word w => simp only [shorten]; split <;> rfl
  | _ => exact h2

/-- How it is read. -/
theorem lex_kept {keep : Char → Bool} {semis : Bool} {s : List Char} (h : Closed s)
    (hs : readFrom [] ((keptLayout keep semis (lex s)).map shorten) = true) :
    lex (textOf (spaced ((keptLayout keep semis (lex s)).map shorten))) = spaced ((keptLayout keep semis (lex s)).map shorten) :=
  lex_written (kept_placed keep semis s) (kept_written h) hs

/-- Otherwise it is not read like this. -/
theorem kept_lex {keep : Char → Bool} {semis : Bool} {s : List Char} (h : Closed s)
    (hs : (lex (textOf (spaced ((keptLayout keep semis (lex s)).map shorten)))).filter (· != .blank ' ') =
      ((keptLayout keep semis (lex s)).map shorten).filter (· != .blank ' ')) :
    readFrom [] ((keptLayout keep semis (lex s)).map shorten) = true :=
  written_lex (kept_placed keep semis s) (kept_written h) (lex_blanks (kept_written h) hs)

theorem padded_blanks {a b : List Lexeme} (h : Padded a b) : b.filter (· != .blank ' ') = a.filter (· != .blank ' ') := by
  induction h with
  | nil => rfl
  | same _ ih => rw [List.filter_cons, List.filter_cons, ih]
  | blank _ ih => rw [List.filter_cons_of_neg (by simp), ih]

theorem padded_spaced : ∀ ls : List Lexeme, Padded ls (spaced ls)
  | [] => .nil
  | [a] => .same .nil
  | a :: b :: ls => by
    rw [spaced]
    split
    · exact .same (.blank (padded_spaced (b :: ls)))
    · exact .same (padded_spaced (b :: ls))

end Verif.Js
