import Verif.Proofs.CssContent
/-!
# Reading the printed tokens again

`items_display`: the items of the output are the items of the tokens.
-/
set_option linter.unusedSimpArgs false

namespace Verif.Css
open Spec.Css

theorem items_words {w : List Char} (hw : Word w) (r : List Char) : items (w ++ r) = w.map .chr ++ items r := by
  induction w with
  | nil => rfl
  | cons c w ih =>
    rw [List.cons_append, items_word _ (hw c List.mem_cons_self), ih (fun d hd => hw d (List.mem_cons_of_mem _ hd))]
    rfl

theorem takeStr_append_right {q : RChar} {b : List Char} (r : List Char) (h : takeStr q b = some (b, [])) :
    takeStr q (b ++ r) = some (b, r) := by
  suffices ∀ cs x y, takeStr q cs = some (x, y) → takeStr q (cs ++ r) = some (x, y ++ r) by
    simpa using this b b [] h
  intro cs
  induction cs using takeStr.induct q with
  | case1 => intro x y h; simp [takeStr] at h
  | case2 c h1 => intro x y h; simp [takeStr, h1] at h
  | case3 c h1 h2 =>
    intro x y h
    simp only [takeStr, h1, h2, if_true, Bool.false_eq_true, if_false, Option.some.injEq, Prod.mk.injEq] at h
    obtain ⟨rfl, rfl⟩ := h
    cases r <;> simp [takeStr, h1, h2]
  | case4 c h1 h2 => intro x y h; simp [takeStr, h1, h2] at h
  | case5 c d cs hc ih =>
    intro x y h
    simp only [takeStr, hc, if_true, Option.map_eq_some_iff] at h
    obtain ⟨⟨b', r'⟩, h1, h2⟩ := h
    simp only [Prod.mk.injEq] at h2
    rw [← h2.1, ← h2.2]
    simp [takeStr, hc, ih _ _ h1]
  | case6 c d cs hc hq =>
    intro x y h
    simp only [takeStr, hc, hq, if_true, Bool.false_eq_true, if_false, Option.some.injEq, Prod.mk.injEq] at h
    obtain ⟨rfl, rfl⟩ := h
    simp [takeStr, hc, hq]
  | case7 c d cs hc hq ih =>
    intro x y h
    simp only [takeStr, hc, hq, Option.map_eq_some_iff, Bool.false_eq_true, if_false] at h
    obtain ⟨⟨b', r'⟩, h1, h2⟩ := h
    simp only [Prod.mk.injEq] at h2
    rw [← h2.1, ← h2.2]
    have := ih _ _ h1
    rw [List.cons_append] at this
    simp [takeStr, hc, hq, this]

theorem takeCom_append_right {star : Bool} {cs x y : List Char} (r : List Char) (h : takeCom star cs = some (x, y)) :
    takeCom star (cs ++ r) = some (x, y ++ r) := by
  induction cs generalizing star x y with
  | nil => simp [takeCom] at h
  | cons c cs ih =>
    rw [List.cons_append, takeCom] at *
    split at h
    · rename_i hc
      simp only [Option.some.injEq, Prod.mk.injEq] at h
      rw [if_pos hc, ← h.1, ← h.2]
    · rename_i hc
      simp only [Option.map_eq_some_iff] at h
      obtain ⟨⟨b', r'⟩, h1, h2⟩ := h
      simp only [Prod.mk.injEq] at h2
      rw [if_neg hc, ih h1, ← h2.1, ← h2.2]; rfl

theorem items_license {b : List Char} (hb : LicOk b) (r : List Char) :
    items ('/' :: '*' :: '!' :: b ++ ['*', '/', '\n'] ++ r) = .license b :: .blank :: items r := by
  have h := takeCom_append_right ('\n' :: r) hb
  have e : '/' :: '*' :: '!' :: b ++ ['*', '/', '\n'] ++ r = '/' :: '*' :: '!' :: ((b ++ ['*', '/']) ++ '\n' :: r) := by simp
  rw [e, items_comment, acomment]
  simp only [beq_self_eq_true, Bool.true_or, if_true, h, Option.map_some, comItem, List.nil_append]
  rw [items_blank (rc := .backline) r rfl rfl]
  simp [List.dropLast_append_of_ne_nil]

theorem items_str_ok {t : List Char} (ht : StrOk t) (r : List Char) : items (t ++ r) = .str t :: items r := by
  obtain ⟨q, b, hq, rfl, hb⟩ := ht
  rw [List.cons_append, items_str (toChar_ofChar q) hq, takeStr_append_right r hb]

theorem display_cons (t : Token) (ts : List Token) : display (t :: ts) = t.display ++ display ts := by
  simp [display]

theorem Sel.display_chars (s : Sel) : s.display = s.chars ++ (if (Token.sel s).isMedia then [' '] else []) := by
  cases s <;> simp [Sel.display, Sel.chars, Token.isMedia]

theorem word_not_star {c : Char} (h : RChar.ofChar c = none) : c ≠ '*' := by rintro rfl; simp [RChar.ofChar] at h

/-- What is printed after a slash does not start with a star. -/
theorem display_head {ts : List Token} (h : FOk (some (.char .slash)) ts) : (display ts).head? ≠ some '*' := by
  cases ts with
  | nil => simp [display]
  | cons t ts =>
    rw [display_cons]
    have hok := h.1
    have words : ∀ w : List Char, Word w → w ≠ [] → ∀ r, (w ++ r).head? ≠ some '*' := by
      intro w hw hn r
      cases w with
      | nil => exact absurd rfl hn
      | cons c w => simpa using word_not_star (hw c List.mem_cons_self)
    cases t with
    | comment b => have := h.2.1; simp [Token.isComment] at this
    | license b => simp [Token.display]
    | char c =>
      have := hok.2.2.2.2.2
      cases c <;> simp [Token.display, RChar.toChar]
      exact this rfl rfl
    | other w =>
      have hb : isBs (some (.char .slash)) = false := rfl
      have := hok.2
      rw [hb] at this
      exact words w this hok.1 _
    | sel s =>
      have := hok.2
      rw [Token.display, Sel.display_chars]
      cases s <;> simp [Sel.chars, SelOk] at this ⊢
      exact ⟨by simpa using words _ this.1 this.2 [], fun h => absurd h this.2⟩
    | str b =>
      obtain ⟨q, b, hq, rfl, hb⟩ := hok.2
      rcases hq with rfl | rfl <;> simp [Token.display, RChar.toChar]
    | selOp o =>
      have := hok.2
      cases o <;> simp [Token.display, SelOp.display] at this ⊢
    | operator o => exact hok.elim

theorem items_punct {c : RChar} (hp : c.plain = true) (r : List Char) : items (c.toChar :: r) = .chr c.toChar :: items r :=
  items_plain r (toChar_ofChar c) hp

theorem items_display {p : Option Token} {ts : List Token} (h : FOk p ts) :
    (isBs p = false → items (display ts) = titems true p ts) ∧
    (isBs p = true → items ('\\' :: display ts) = .chr '\\' :: titems true p ts) := by
  induction ts generalizing p with
  | nil => exact ⟨fun _ => rfl, fun _ => rfl⟩
  | cons t ts ih =>
    obtain ⟨hok, hc, hts⟩ := h
    obtain ⟨ih1, ih2⟩ := ih hts
    rw [display_cons, titems]
    constructor
    · intro hb
      rw [hb]
      cases t with
      | comment b => simp [Token.isComment] at hc
      | license b =>
        rw [Token.display, items_license hok.2, ih1 rfl]; rfl
      | char c =>
        obtain ⟨_, h2, h3, h4, h5, h6⟩ := hok
        rw [Token.display, List.singleton_append]
        by_cases hp : c.plain = true
        · rw [items_punct hp, ih1 (by rw [Bool.eq_false_iff]; intro e; simp [isBs] at e; subst e; cases hp)]
          have : c.isUseless = false := by revert hp; cases c <;> decide
          simp [tokItems, this]
        · cases c <;> first | (exact absurd rfl hp) | (exact absurd rfl h2) | (exact absurd rfl h3) | (exact absurd rfl h4) | (exact absurd rfl h5) | skip
          · -- slash
            rw [show RChar.slash.toChar = '/' from rfl, items_slash (display_head hts), ih1 rfl]; rfl
          · -- space
            rw [show RChar.space.toChar = ' ' from rfl, items_blank (rc := .space) _ rfl rfl, ih1 rfl]; rfl
          · -- backslash
            rw [show RChar.backslash.toChar = '\\' from rfl, ih2 rfl]; rfl
      | other w =>
        have := hok.2
        rw [hb] at this
        rw [Token.display, items_words this, ih1 rfl]; rfl
      | sel s =>
        have hs := hok.2
        have hw : ∀ r, items (s.chars ++ r) = s.chars.map .chr ++ items r := by
          intro r
          have hp : ∀ (c : Char) (w : List Char), Word w → RChar.ofChar c = none →
              items (c :: w ++ r) = (c :: w).map .chr ++ items r := fun c w hw hc =>
            items_words (w := c :: w) (by
              intro d hd
              rcases List.mem_cons.1 hd with e | e
              · rw [e]; exact hc
              · exact hw d e) r
          cases s with
          | cls w => exact hp '.' w hs rfl
          | id w => exact hp '#' w hs rfl
          | tag w => exact items_words hs.1 r
          | media w => exact hp '@' w hs.1 rfl
          | pseudoClass w =>
            show items (':' :: (w ++ r)) = _
            rw [items_plain (rc := .colon) _ rfl rfl, items_words hs.1]; rfl
        rw [Token.display, Sel.display_chars, List.append_assoc, hw]
        cases hm : (Token.sel s).isMedia with
        | true =>
          simp only [if_true, List.singleton_append]
          rw [items_blank (rc := .space) _ rfl rfl, ih1 rfl]
          simp [tokItems, hm]
        | false =>
          simp only [Bool.false_eq_true, if_false, List.nil_append]
          rw [ih1 rfl]
          simp [tokItems, hm]
      | str b => rw [Token.display, items_str_ok hok.2, ih1 rfl]; rfl
      | selOp o =>
        rw [Token.display]
        have e := items_plain (c := '=') (rc := .equalSign) (display ts) rfl rfl
        cases o
        · show items ('~' :: '=' :: display ts) = _
          rw [items_plain (rc := .tilde) _ rfl rfl, e, ih1 rfl]; rfl
        · show items ('|' :: '=' :: display ts) = _
          rw [items_plain (rc := .pipe) _ rfl rfl, e, ih1 rfl]; rfl
        · show items ('$' :: '=' :: display ts) = _
          rw [items_plain (rc := .dollar) _ rfl rfl, e, ih1 rfl]; rfl
        · show items ('^' :: '=' :: display ts) = _
          rw [items_plain (rc := .circumflex) _ rfl rfl, e, ih1 rfl]; rfl
        · show items ('*' :: '=' :: display ts) = _
          rw [items_plain (rc := .star) _ rfl rfl, e, ih1 rfl]; rfl
      | operator o => exact hok.elim
    · intro hb
      rw [hb]
      cases t with
      | other w =>
        have := hok.2
        rw [hb] at this
        obtain ⟨c, rfl⟩ := this
        show items ('\\' :: c :: display ts) = _
        rw [items_esc, ih1 rfl]; rfl
      | comment b => simp [Token.isComment] at hc
      | operator o => exact hok.elim
      | _ => have := hok.1; rw [hb] at this; cases this

/-! ## The two halves together -/

theorem rel_trans {xs ys zs : List (Bool × Item)} (h1 : Rel P1 xs ys) (h2 : Rel P2 ys zs) :
    Keeps xs zs ∧ atWord xs = atWord ys ∧ endsWord xs = endsWord ys := by
  induction xs generalizing ys zs with
  | nil =>
    cases ys with
    | nil => cases zs with
      | nil => exact ⟨trivial, rfl, rfl⟩
      | cons z zs => exact h2.elim
    | cons y ys => exact h1.elim
  | cons x xs ih =>
    obtain ⟨g, x⟩ := x
    cases ys with
    | nil => exact h1.elim
    | cons y ys =>
      obtain ⟨g1, y⟩ := y
      cases zs with
      | nil => exact h2.elim
      | cons z zs =>
        obtain ⟨g2, z⟩ := z
        obtain ⟨rfl, ⟨h1a, h1b⟩, h1c⟩ := h1
        obtain ⟨rfl, ⟨h2a, h2b⟩, h2c⟩ := h2
        obtain ⟨k, hat, hend⟩ := ih h1c h2c
        have hhead : xs.head?.map Prod.snd = ys.head?.map Prod.snd := by
          revert h1c
          cases xs <;> cases ys <;> simp [Rel]
          rename_i a _ b _
          obtain ⟨a1, a2⟩ := a; obtain ⟨b1, b2⟩ := b
          intro h _ _; exact h
        have heads : ∀ h p, xs.head? = some (h, p) → ∃ h', ys.head? = some (h', p) := by
          intro h p e
          rw [e] at hhead
          simp only [Option.map_some] at hhead
          cases hy : ys.head? with
          | none => rw [hy] at hhead; cases hhead
          | some b => rw [hy] at hhead; simp at hhead; exact ⟨b.1, by rw [hhead]⟩
        refine ⟨⟨rfl, ?_, ?_, k⟩, ?_, ?_⟩
        · intro hg
          rcases h2a hg with h | h | ⟨h, b, hb⟩
          · exact .inl (h1a h)
          · exact .inr (.inl (by rw [hat]; exact h))
          · right; right
            rw [hb] at hhead
            cases hx : xs.head? with
            | none => rw [hx] at hhead; cases hhead
            | some a => rw [hx] at hhead; simp at hhead; exact ⟨a.1, b, by rw [← hhead]⟩
        · rintro hg ⟨h, p, hp, hcl⟩ hop
          obtain ⟨h', hp'⟩ := heads h p hp
          refine h2b (h1b hg ?_) ⟨⟨h', p, hp', hcl⟩, hop⟩
          cases xs with
          | nil => simp at hp
          | cons a xs =>
            simp only [List.head?_cons, Option.some.injEq] at hp
            subst hp
            cases p <;> simp_all [lastKeeps, keepLeft, closes]
        · cases x with
          | chr c =>
            cases xs with
            | nil =>
              cases ys with
              | nil => cases g <;> cases g1 <;> rfl
              | cons b ys => exact h1c.elim
            | cons a xs =>
              cases ys with
              | nil => exact h1c.elim
              | cons b ys =>
                obtain ⟨ga, a⟩ := a; obtain ⟨gb, b⟩ := b
                obtain ⟨rfl, ⟨h3a, h3b⟩, h3c⟩ := h1c
                cases a with
                | chr d =>
                  cases hd : isPunct d with
                  | true => cases g <;> cases g1 <;> simp [atWord, hd]
                  | false =>
                    have hgg : g = g1 := by
                      cases g <;> cases g1 <;> simp_all [lastKeeps, keepLeft]
                    subst hgg
                    cases g with
                    | true => simp [atWord]
                    | false =>
                      have hee : endsWord xs = endsWord ys := by
                        cases xs with
                        | nil => cases ys <;> first | rfl | exact h3c.elim
                        | cons e xs =>
                          cases ys with
                          | nil => exact h3c.elim
                          | cons f ys =>
                            obtain ⟨ge, e⟩ := e; obtain ⟨gf, f⟩ := f
                            obtain ⟨rfl, _, _⟩ := h3c
                            cases e <;> rfl
                      have hkey : (ga || !endsWord xs) = (gb || !endsWord ys) := by
                        rw [hee]
                        cases he : endsWord ys with
                        | false => simp
                        | true =>
                          simp only [Bool.not_true, Bool.or_false]
                          rw [← hee] at he
                          have : lastKeeps xs = true := by
                            cases xs with
                            | nil => simp [endsWord] at he
                            | cons e xs =>
                              obtain ⟨ge, e⟩ := e
                              cases e <;> simp [endsWord] at he
                              simp [lastKeeps, keepLeft, he]
                          cases ga <;> cases gb <;> simp_all
                      rw [atWord, atWord, hat, hkey]
                | _ => cases g <;> cases g1 <;> rfl
          | _ => cases g <;> cases g1 <;> rfl
        · cases x <;> rfl

theorem slashStarEq_rel {xs ys : List (Bool × Item)} (h : Rel P1 xs ys) (hs : slashStarEq xs = false) :
    slashStarEq ys = false := by
  induction xs generalizing ys with
  | nil => cases ys with
    | nil => rfl
    | cons y ys => exact h.elim
  | cons x xs ih =>
    obtain ⟨g, x⟩ := x
    cases ys with
    | nil => exact h.elim
    | cons y ys =>
      obtain ⟨g1, y⟩ := y
      obtain ⟨rfl, ⟨h1, h2⟩, h3⟩ := h
      simp only [slashStarEq, Bool.or_eq_false_iff] at hs ⊢
      refine ⟨?_, ih h3 hs.2⟩
      have hs := hs.1
      match xs, ys, h3 with
      | [], [], _ => simp
      | [_], [_], _ => simp
      | (ga, a) :: (gb, b) :: xs, (ga', a') :: (gb', b') :: ys, h3 =>
        obtain ⟨rfl, ⟨_, h4⟩, h5⟩ := h3
        obtain ⟨rfl, _⟩ := h5
        simp only at hs ⊢
        by_cases ha : a = .chr '*'
        · subst ha
          have : g = g1 := by cases g <;> cases g1 <;> simp_all [lastKeeps, keepLeft]
          rw [← this]; exact hs
        · have : (a == Item.chr '*') = false := by simpa using ha
          simp [this]
      | [], _ :: _, h3 => exact h3.elim
      | _ :: _, [], h3 => exact h3.elim
      | [(_, _)], (_, _) :: _ :: _, h3 => exact h3.2.2.elim
      | (_, _) :: _ :: _, [(_, _)], h3 => exact h3.2.2.elim

/-- Everything together: the items of the output. -/
theorem minify_spec {alpha : Char → Bool} (hA : AlphaOk alpha) {s : List Char} {ts : List Token}
    (h : rawTokens alpha s = .ok ts) (hs : slashStarEq (segs (items s)).acc = false) :
    items (display (cleanTokens ts)) = titems true none (cleanTokens ts) ∧ FOk none (cleanTokens ts) ∧
      Keeps (segs (items s)).acc (segs (items (display (cleanTokens ts)))).acc := by
  obtain ⟨h1, h2⟩ := raw_keeps hA h
  have hinv : CInv false none [] {} ts.head? :=
    ⟨trivial, by simp, by simp [rsegs], fun _ => rfl, by simp, by simp, rfl, fun _ => rfl⟩
  have := clean_inv ts (ic := false) (paren := 0) (prev := none) (pr := []) (T := {}) hinv (by simpa using h2)
    (by simpa using slashStarEq_rel h1.acc hs)
  simp only [List.append_nil] at this
  have hd := (items_display this.2).1 rfl
  refine ⟨hd, this.2, ?_⟩
  unfold cleanTokens at hd ⊢
  rw [hd]
  exact (rel_trans h1.acc this.1).1

end Verif.Css
