import Verif.Proofs.CssClean
/-!
# The text of a minified style sheet

The marks and the text of the output, from the marks of the source and the gaps that are kept (`minify_marks`).
-/
set_option linter.unusedSimpArgs false

namespace Verif.Css
open Spec.Css

/-- Does `Display` print something after this token? -/
def autoTok : Option Token → Bool
  | some t => t.isLicense || t.isMedia
  | none => false

theorem auto_first {alpha : Char → Bool} {es : List Ent} {e : Ent} (h : EsOk alpha (e :: es)) :
    lastLicense (emarks es) = (match lastTok es with | some p => p.isLicense | none => false) ∧
    mediaWord (emarks es) = (match lastTok es with | some p => p.isMedia | none => false) := by
  cases es with
  | nil => exact ⟨rfl, rfl⟩
  | cons e' es => exact ⟨(prof h.2.1).lic, (prof h.2.1).media⟩

theorem media_cont {alpha : Char → Bool} {es : List Ent} {e : Ent} (h : EsOk alpha (e :: es))
    (hw : (e.g == .none && isWordChr (tokFirst (isBs (lastTok es)) e.t)) = true) : mediaWord (emarks es) = false := by
  simp only [Bool.and_eq_true, beq_iff_eq] at hw
  exact mediaWord_not ((right_ok h.1 []).1 hw.2 hw.1).1

theorem autoGap_first {alpha : Char → Bool} {es : List Ent} {e : Ent} (h : EsOk alpha (e :: es)) :
    autoGap (emarks es) e.g (tokFirst (isBs (lastTok es)) e.t) = autoTok (lastTok es) := by
  unfold autoGap
  obtain ⟨h1, h2⟩ := auto_first h
  have : (mediaWord (emarks es) && !(e.g == .none && isWordChr (tokFirst (isBs (lastTok es)) e.t))) = mediaWord (emarks es) := by
    cases hw : (e.g == .none && isWordChr (tokFirst (isBs (lastTok es)) e.t)) with
    | true => rw [media_cont h hw]; rfl
    | false => simp
  rw [this, h1, h2]
  cases lastTok es <;> rfl

theorem autoText_first {alpha : Char → Bool} {es : List Ent} {e : Ent} (h : EsOk alpha (e :: es)) :
    autoText (emarks es) (e.g == .none && isWordChr (tokFirst (isBs (lastTok es)) e.t)) = autoText (emarks es) false := by
  unfold autoText
  cases hw : (e.g == .none && isWordChr (tokFirst (isBs (lastTok es)) e.t)) with
  | true => rw [media_cont h hw]; simp
  | false => rfl

/-- The marks after the first one of a token are left as they are. -/
def Plain (m xs : List Mark) : Prop :=
  (∀ a ∈ m, a.1 = .none ∧ isWordChr a.2 = true) ∧ lastLicense xs = false

theorem plain_last {l xs : List Mark} (h : Plain l xs) : lastLicense (l ++ xs) = false := by
  cases l with
  | nil => exact h.2
  | cons a l => exact lastLicense_word (h.1 a (by simp)).2

theorem outMarks_rest {l xs : List Mark} {ks : List Bool} (h : Plain l xs) :
    outMarks (l ++ xs) (l.map (fun _ => false) ++ ks) = l ++ outMarks xs ks := by
  induction l with
  | nil => rfl
  | cons a l ih =>
    have hl : Plain l xs := ⟨fun b hb => h.1 b (by simp [hb]), h.2⟩
    obtain ⟨g, x⟩ := a
    have ha := h.1 (g, x) (by simp)
    simp only at ha
    simp only [List.cons_append, List.map_cons, outMarks, ih hl]
    simp [autoGap, plain_last hl, ha.1, ha.2]

theorem text_rest {l xs : List Mark} {ks : List Bool} (h : Plain l xs) :
    text (l ++ xs) (l.map (fun _ => false) ++ ks) = text xs ks ++ l.reverse.flatMap fun a => itemText a.2 := by
  induction l with
  | nil => simp
  | cons a l ih =>
    have hl : Plain l xs := ⟨fun b hb => h.1 b (by simp [hb]), h.2⟩
    obtain ⟨g, x⟩ := a
    have ha := h.1 (g, x) (by simp)
    simp only at ha
    simp only [List.cons_append, List.map_cons, text, ih hl]
    simp [autoText, plain_last hl, ha.1, ha.2]

theorem plain_word {w : List Char} (hw : Word w) (g : Gap) (c : Char) (xs : List Mark) :
    Plain (w.map fun c => (Gap.none, Item.chr c)).reverse ((g, .chr c) :: xs) := by
  refine ⟨?_, rfl⟩
  intro a ha
  simp only [List.mem_reverse, List.mem_map] at ha
  obtain ⟨d, hd, rfl⟩ := ha
  exact ⟨rfl, word_isWordChr (hw d hd)⟩

/-- Adding a token to the output. -/
theorem out_step {alpha : Char → Bool} {es : List Ent} {e : Ent} (h : EsOk alpha (e :: es)) (k : Bool) (ks : List Bool) :
    outMarks (emarks (e :: es)) (markKs (e :: es) (k :: ks)) =
      (tokRest .none (isBs (lastTok es)) e.t).reverse ++
        (if k || autoTok (lastTok es) then .blank else .none, tokFirst (isBs (lastTok es)) e.t) :: outMarks (emarks es) (markKs es ks) ∧
    text (emarks (e :: es)) (markKs (e :: es) (k :: ks)) ++ autoText (emarks (e :: es)) false =
      text (emarks es) (markKs es ks) ++ autoText (emarks es) false ++ (if k then [' '] else []) ++ e.t.display := by
  have hk := h.1.2
  have hp := prof h.1
  have hauto : autoText (emarks (e :: es)) false = if e.t.isLicense then ['\n'] else if e.t.isMedia then [' '] else [] := by
    unfold autoText; rw [hp.lic, hp.media]; simp
  rw [hauto, emarks, tokMarks_first hk, markKs]
  have hfirst : outMarks ((e.g, tokFirst (isBs (lastTok es)) e.t) :: emarks es) (k :: markKs es ks) =
      (if k || autoTok (lastTok es) then .blank else .none, tokFirst (isBs (lastTok es)) e.t) :: outMarks (emarks es) (markKs es ks) := by
    rw [outMarks, autoGap_first h]
  have htext : text ((e.g, tokFirst (isBs (lastTok es)) e.t) :: emarks es) (k :: markKs es ks) =
      text (emarks es) (markKs es ks) ++ autoText (emarks es) false ++ (if k then [' '] else []) ++
        itemText (tokFirst (isBs (lastTok es)) e.t) := by
    rw [text, autoText_first h]
  have hmap : ∀ l : List Mark, l.map (fun _ => false) = l.reverse.map (fun _ => false) := by
    intro l
    rw [List.map_const', List.map_const', List.length_reverse]
  have word : ∀ w : List Char, w ≠ [] → Word w.tail → ∀ b,
      outMarks ((w.tail.map fun c => (Gap.none, Item.chr c)).reverse ++ (e.g, .chr (w.headD ' ')) :: b)
        ((w.tail.map fun c => (Gap.none, Item.chr c)).map (fun _ => false) ++ k :: markKs es ks) =
        (w.tail.map fun c => (Gap.none, Item.chr c)).reverse ++ outMarks ((e.g, .chr (w.headD ' ')) :: b) (k :: markKs es ks) ∧
      text ((w.tail.map fun c => (Gap.none, Item.chr c)).reverse ++ (e.g, .chr (w.headD ' ')) :: b)
        ((w.tail.map fun c => (Gap.none, Item.chr c)).map (fun _ => false) ++ k :: markKs es ks) =
        text ((e.g, .chr (w.headD ' ')) :: b) (k :: markKs es ks) ++ w.tail := by
    intro w hn hw b
    rw [hmap]
    have hpl := plain_word hw e.g (w.headD ' ') b
    refine ⟨outMarks_rest hpl, ?_⟩
    rw [text_rest hpl]
    rw [List.reverse_reverse]
    congr 1
    generalize w.tail = t
    induction t with
    | nil => rfl
    | cons c t ih => simp only [List.map_cons, List.flatMap_cons, ih]; rfl
  have wordSplit : ∀ w : List Char, w ≠ [] → [w.headD ' '] ++ w.tail = w := by
    intro w hn; cases w <;> first | exact absurd rfl hn | rfl
  cases ht : e.t with
  | char c =>
    rw [ht] at hfirst htext hk
    refine ⟨hfirst, ?_⟩
    simp only [tokRest, List.reverse_nil, List.nil_append, List.map_nil] at htext ⊢
    rw [htext]
    simp [Token.isLicense, Token.isMedia, tokFirst, itemText, Token.display]
  | other w =>
    rw [ht] at hfirst htext hk
    cases hb : isBs (lastTok es) with
    | true =>
      rw [hb] at hfirst htext hk
      obtain ⟨_, c, rfl⟩ := hk
      refine ⟨hfirst, ?_⟩
      simp only [tokRest, if_true, List.reverse_nil, List.nil_append, List.map_nil] at htext ⊢
      rw [htext]
      simp [Token.isLicense, Token.isMedia, tokFirst, itemText, Token.display]
    | false =>
      rw [hb] at hfirst htext hk
      obtain ⟨hn, hw, _, _⟩ := hk
      have hwt : Word w.tail := fun c hc => hw c (List.mem_of_mem_tail hc)
      obtain ⟨w1, w2⟩ := word w hn hwt (emarks es)
      simp only [tokRest, tokFirst, Bool.false_eq_true, if_false] at hfirst htext ⊢
      rw [w1, w2, hfirst, htext]
      refine ⟨rfl, ?_⟩
      simp only [Token.isLicense, Token.isMedia, itemText, Token.display, Bool.false_eq_true, if_false, List.append_nil, List.append_assoc]
      rw [wordSplit w hn]
  | sel s =>
    rw [ht] at hfirst htext hk
    have hn : s.chars ≠ [] := by
      cases s with
      | pseudoClass p => simp [Sel.chars]
      | _ => exact hk.2.1
    have hwt : Word s.chars.tail := by
      cases s with
      | pseudoClass p => exact hk.2.1
      | _ => exact fun c hc => hk.2.2.1 c (List.mem_of_mem_tail hc)
    obtain ⟨w1, w2⟩ := word s.chars hn hwt (emarks es)
    simp only [tokRest, tokFirst] at hfirst htext ⊢
    rw [w1, w2, hfirst, htext]
    refine ⟨rfl, ?_⟩
    simp only [Token.isLicense, itemText, Token.display, Bool.false_eq_true, if_false, List.append_assoc]
    rw [Sel.display_chars, ← List.append_assoc [s.chars.headD ' '], wordSplit s.chars hn]
  | str b =>
    rw [ht] at hfirst htext
    refine ⟨hfirst, ?_⟩
    simp only [tokRest, List.reverse_nil, List.nil_append, List.map_nil] at htext ⊢
    rw [htext]
    simp [Token.isLicense, Token.isMedia, tokFirst, itemText, Token.display]
  | license b =>
    rw [ht] at hfirst htext
    refine ⟨hfirst, ?_⟩
    simp only [tokRest, List.reverse_nil, List.nil_append, List.map_nil] at htext ⊢
    rw [htext]
    simp [Token.isLicense, Token.isMedia, tokFirst, itemText, Token.display]
  | selOp o =>
    rw [ht] at hfirst htext
    have hwe : wordEnd ((e.g, .chr (o.display.headD '=')) :: emarks es) = false := by cases o <;> rfl
    simp only [tokRest, tokFirst, List.reverse_cons, List.reverse_nil, List.nil_append, List.map_cons, List.map_nil, List.singleton_append]
      at hfirst htext ⊢
    rw [outMarks, hfirst, text, htext]
    have hag : autoGap ((e.g, .chr (o.display.headD '=')) :: emarks es) e.i (.chr '=') = false := by
      unfold autoGap; rw [mediaWord_not hwe]; rfl
    have hat : ∀ b, autoText ((e.g, .chr (o.display.headD '=')) :: emarks es) b = [] := by
      intro b; unfold autoText; rw [mediaWord_not hwe]; rfl
    rw [hag, hat]
    refine ⟨rfl, ?_⟩
    cases o <;> simp [Token.isLicense, Token.isMedia, itemText, Token.display, SelOp.display]
  | comment b => rw [ht] at hk; exact hk.elim
  | operator o => rw [ht] at hk; exact hk.elim

theorem titems_append (auto : Bool) (p : Option Token) (a b : List Token) :
    titems auto p (a ++ b) = titems auto p a ++ titems auto (if a = [] then p else a.getLast?) b := by
  induction a generalizing p with
  | nil => rfl
  | cons t a ih =>
    simp only [List.cons_append, titems, ih, List.append_assoc, reduceCtorEq, if_false]
    cases a with
    | nil => rfl
    | cons u a => simp [List.getLast?_cons]

/-- The items of a token, from the items it prints in any case. -/
theorem mark_tok {alpha : Char → Bool} {acc : List Mark} {g i : Gap} {bs : Bool} {t : Token} (h : KindOk alpha acc g i bs t)
    (A : List Mark) (G : Gap) :
    (tokItems true bs t).foldl mark ⟨A, G⟩ =
      ⟨(tokRest .none bs t).reverse ++ (G, tokFirst bs t) :: A, if autoTok (some t) then .blank else .none⟩ := by
  have chars : ∀ (w : List Char) (A : List Mark), (w.map Item.chr).foldl mark ⟨A, .none⟩ =
      ⟨(w.map fun c => (Gap.none, Item.chr c)).reverse ++ A, .none⟩ := by
    intro w
    induction w with
    | nil => intro A; rfl
    | cons c w ih =>
      intro A
      simp only [List.map_cons, List.foldl_cons, List.reverse_cons, List.append_assoc, List.singleton_append]
      exact ih _
  have word : ∀ w : List Char, w ≠ [] → (w.map Item.chr).foldl mark ⟨A, G⟩ =
      ⟨(w.tail.map fun c => (Gap.none, Item.chr c)).reverse ++ (G, .chr (w.headD ' ')) :: A, .none⟩ := by
    intro w hn
    cases w with
    | nil => exact absurd rfl hn
    | cons c w => exact chars w _
  cases t with
  | char c => simp [tokItems, h.2.1, mark, tokRest, tokFirst, autoTok, Token.isLicense, Token.isMedia]
  | other w =>
    cases bs with
    | true => obtain ⟨_, c, rfl⟩ := h; rfl
    | false => exact word w h.1
  | sel s =>
    have hn : s.chars ≠ [] := by
      cases s with
      | pseudoClass p => simp [Sel.chars]
      | _ => exact h.2.1
    simp only [tokItems, List.foldl_append, word s.chars hn, tokRest, tokFirst, autoTok, Token.isLicense, Bool.true_and, Bool.false_or]
    cases (Token.sel s).isMedia <;> rfl
  | str b => rfl
  | license b => rfl
  | selOp o => cases o <;> rfl
  | comment b => exact h.elim
  | operator o => exact h.elim

theorem outToks_last {es : List Ent} {ks : List Bool} (hk : Ks es ks) : (outToks es ks).reverse.getLast? = lastTok es := by
  cases es with
  | nil => cases ks <;> rfl
  | cons e es =>
    cases ks with
    | nil => exact hk.elim
    | cons k ks => simp [outToks, lastTok]

/-- The marks of the tokens that are left. -/
theorem out_marks {alpha : Char → Bool} : ∀ {es : List Ent} {ks : List Bool}, EsOk alpha es → Ks es ks →
    marks (titems true none (outToks es ks).reverse) =
      ⟨outMarks (emarks es) (markKs es ks), if autoTok (lastTok es) then .blank else .none⟩ := by
  intro es
  induction es with
  | nil => intro ks _ hk; cases ks <;> first | rfl | exact hk.elim
  | cons e es ih =>
    intro ks h hk
    cases ks with
    | nil => exact hk.elim
    | cons k ks =>
      obtain ⟨hk1, hk2⟩ := hk
      have hrev : (outToks (e :: es) (k :: ks)).reverse = (outToks es ks).reverse ++ ((if k then [.char .space] else []) ++ [e.t]) := by
        cases k <;> simp [outToks]
      have hlast : (if (outToks es ks).reverse = [] then none else (outToks es ks).reverse.getLast?) = lastTok es := by
        rw [outToks_last hk2]
        split
        · cases es with
          | nil => rfl
          | cons e' es' =>
            cases ks with
            | nil => exact hk2.elim
            | cons k' ks' => simp [outToks] at *
        · rfl
      have hkbs : k = true → isBs (lastTok es) = false := by
        intro hkt
        rw [Bool.eq_false_iff]
        intro hb
        have hkind := h.1.2
        rw [hb] at hkind
        have hL : e.L = [] := by
          have hgap := h.1.1
          cases ht : e.t with
          | other w => rw [ht] at hkind; have := hkind.1; rw [this] at hgap; exact hgap
          | sel s => rw [ht] at hkind; cases s <;> exact absurd hkind.1 (by simp)
          | comment b => rw [ht] at hkind; exact hkind.elim
          | operator b => rw [ht] at hkind; exact hkind.elim
          | str b => rw [ht] at hkind; exact absurd hkind (by simp [KindOk])
          | license b => rw [ht] at hkind; exact absurd hkind (by simp [KindOk])
          | char c => rw [ht] at hkind; exact absurd hkind.1 (by simp)
          | selOp c => rw [ht] at hkind; exact absurd hkind.1 (by simp)
        have := hk1.1 hL
        rw [hkt] at this; cases this
      have hfold : ∀ A G, (titems true (lastTok es) ((if k then [.char .space] else []) ++ [e.t])).foldl mark ⟨A, G⟩ =
          (tokItems true (isBs (lastTok es)) e.t).foldl mark ⟨A, if k then (if G = .comment then .comment else .blank) else G⟩ := by
        intro A G
        cases hkt : k with
        | false => simp [titems]
        | true =>
          rw [hkbs hkt]
          simp [titems, tokItems, RChar.isUseless, mark, isBs]
      rw [hrev, titems_append, hlast, marks, List.foldl_append]
      have := ih h.2 hk2
      rw [marks] at this
      rw [this, hfold, mark_tok h.1.2, (out_step h k ks).1]
      have hG : (if k then (if (if autoTok (lastTok es) then Gap.blank else Gap.none) = .comment then Gap.comment else .blank) else
          (if autoTok (lastTok es) then Gap.blank else Gap.none)) = if k || autoTok (lastTok es) then .blank else .none := by
        cases k <;> cases autoTok (lastTok es) <;> rfl
      rw [hG]
      rfl

theorem out_text {alpha : Char → Bool} : ∀ {es : List Ent} {ks : List Bool}, EsOk alpha es → Ks es ks →
    display (outToks es ks).reverse = text (emarks es) (markKs es ks) ++ autoText (emarks es) false := by
  intro es
  induction es with
  | nil => intro ks _ hk; cases ks <;> first | rfl | exact hk.elim
  | cons e es ih =>
    intro ks h hk
    cases ks with
    | nil => exact hk.elim
    | cons k ks =>
      rw [(out_step h k ks).2, ← ih h.2 hk.2]
      cases k <;> simp [outToks, display, Token.display, RChar.toChar]

/-- What `css::minify` does, mark by mark. -/
theorem minify_marks {alpha : Char → Bool} (hA : AlphaOk alpha) {s : List Char} {ts : List Token} (h : rawTokens alpha s = .ok ts) :
    ∃ ks k, Cleaned alpha [] (marks (items s)).acc ks ∧ CleanedTail alpha (marks (items s)) k ∧
      display (cleanTokens ts) =
        text (marks (items s)).acc ks ++ autoText (marks (items s)).acc false ++ (if k then [' '] else []) ∧
      (slashStarEq (segs (items s)).acc = false →
        marks (items (display (cleanTokens ts))) = ⟨outMarks (marks (items s)).acc ks,
          if k || lastLicense (marks (items s)).acc || mediaWord (marks (items s)).acc then .blank else .none⟩) := by
  obtain ⟨es, L, hts, hacc, hes, hL⟩ := raw_ents hA h
  obtain ⟨ks, k, hk, hk0, hc⟩ := clean_toks hes hL.gapTok
  have hts' : ts = (L ++ toks es).reverse := by rw [← hts]; simp
  refine ⟨markKs es ks, k, ?_, cleaned_tail hes hacc hL hk0, ?_, ?_⟩
  · rw [hacc]; exact cleaned hes hk trivial
  · rw [hacc, hts', hc, ← out_text hes hk]
    cases k <;> simp [display, Token.display, RChar.toChar]
  · intro hs
    have hm := (minify_spec hA h hs).1
    rw [hm, hacc, hts', hc, titems_append, marks, List.foldl_append]
    have := out_marks hes hk
    rw [marks] at this
    rw [this]
    have hauto : (lastLicense (emarks es) || mediaWord (emarks es)) = autoTok (lastTok es) := by
      cases es with
      | nil => rfl
      | cons e es => rw [(prof hes.1).lic, (prof hes.1).media]; rfl
    rw [Bool.or_assoc, hauto]
    cases k with
    | false => simp [titems]
    | true => cases autoTok (lastTok es) <;> simp [titems, tokItems, RChar.isUseless, mark]

end Verif.Css
