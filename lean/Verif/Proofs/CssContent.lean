import Verif.Proofs.CssItems
/-!
# What the CSS tokenizer keeps

Tokens are read as items (`tokItems`), and the solid items with their gaps (`Spec.Css.segs`) are followed through the
tokenizer (`raw_keeps`), through `clean_tokens` (`clean_keeps`) and through printing and reading again (`items_display`).
-/
set_option linter.unusedSimpArgs false

namespace Verif.Css
open Spec.Css

theorem ofChar_punct (c : Char) : isPunct c = true ↔ RChar.ofChar c ≠ none := by
  constructor
  · intro h
    simp only [isPunct, decide_eq_true_eq] at h
    have : ∀ d ∈ "'\",(){}[]:;/*+= \t\n\r>|~$^\\".toList, RChar.ofChar d ≠ none := by decide +kernel
    exact this c h
  · intro h
    unfold RChar.ofChar at h
    split at h <;> first | rfl | (decide +kernel) | (exact absurd rfl h)

theorem ofChar_none_punct {c : Char} (h : RChar.ofChar c = none) : isPunct c = false := by
  rw [Bool.eq_false_iff]; intro h'; exact (ofChar_punct c).1 h' h

theorem toChar_punct (rc : RChar) : isPunct rc.toChar = true := by
  rw [ofChar_punct, toChar_ofChar]; simp

/-! ## The items of a text are well formed -/

/-- What came before: a backslash, a slash, or neither. -/
inductive Flag where
  | none | bs | sl
  deriving DecidableEq

def Item.flag : Item → Flag
  | .chr c => if c = '\\' then .bs else if c = '/' then .sl else .none
  | _ => .none

/-- A string literal as a text. -/
def StrOk (t : List Char) : Prop :=
  ∃ q b, (q = RChar.quote ∨ q = RChar.doubleQuote) ∧ t = q.toChar :: b ∧ takeStr q b = some (b, [])

/-- The text of a licence. -/
def LicOk (b : List Char) : Prop := takeCom false (b ++ ['*', '/']) = some (b ++ ['*', '/'], [])

def ItemOk (f : Flag) : Item → Prop
  | .lit _ => f = .bs
  | .chr c => f ≠ .bs ∧ (f = .sl → c ≠ '*') ∧ isBlank c = false ∧ c ≠ '"' ∧ c ≠ '\''
  | .str t => f ≠ .bs ∧ StrOk t
  | .license b => f ≠ .bs ∧ LicOk b
  | _ => f ≠ .bs

def ItemsOk : Flag → List Item → Prop
  | _, [] => True
  | f, i :: is => ItemOk f i ∧ ItemsOk (Item.flag i) is

theorem takeStr_self {q : RChar} {cs b r : List Char} (h : takeStr q cs = some (b, r)) : takeStr q b = some (b, []) := by
  induction cs using takeStr.induct q generalizing b r with
  | case1 => simp [takeStr] at h
  | case2 c h1 => simp [takeStr, h1] at h
  | case3 c h1 h2 =>
    simp only [takeStr, h1, h2, if_true, Bool.false_eq_true, if_false, Option.some.injEq, Prod.mk.injEq] at h
    obtain ⟨rfl, rfl⟩ := h
    simp [takeStr, h1, h2]
  | case4 c h1 h2 => simp [takeStr, h1, h2] at h
  | case5 c d cs hc ih =>
    simp only [takeStr, hc, if_true, Option.map_eq_some_iff] at h
    obtain ⟨⟨b', r'⟩, h1, h2⟩ := h
    simp only [Prod.mk.injEq] at h2
    rw [← h2.1]
    simp [takeStr, hc, ih h1]
  | case6 c d cs hc hq =>
    simp only [takeStr, hc, hq, if_true, Bool.false_eq_true, if_false, Option.some.injEq, Prod.mk.injEq] at h
    obtain ⟨rfl, rfl⟩ := h
    simp [takeStr, hc, hq]
  | case7 c d cs hc hq ih =>
    simp only [takeStr, hc, hq, Option.map_eq_some_iff, Bool.false_eq_true, if_false] at h
    obtain ⟨⟨b', r'⟩, h1, h2⟩ := h
    simp only [Prod.mk.injEq] at h2
    rw [← h2.1]
    cases b' with
    | nil => have := ih h1; simp [takeStr] at this
    | cons x b' =>
      have := ih h1
      simp [takeStr, hc, hq, this]

theorem takeCom_self {star : Bool} {cs b r : List Char} (h : takeCom star cs = some (b, r)) :
    takeCom star b = some (b, []) := by
  induction cs generalizing star b r with
  | nil => simp [takeCom] at h
  | cons c cs ih =>
    rw [takeCom] at h
    split at h
    · rename_i hc
      simp only [Option.some.injEq, Prod.mk.injEq] at h
      rw [← h.1]; simp [takeCom, hc]
    · rename_i hc
      simp only [Option.map_eq_some_iff] at h
      obtain ⟨⟨b', r'⟩, h1, h2⟩ := h
      simp only [Prod.mk.injEq] at h2
      rw [← h2.1, takeCom, if_neg hc, ih h1]; rfl

theorem takeCom_ends {star : Bool} {cs b r : List Char} (h : takeCom star cs = some (b, r)) :
    (∃ b', b = b' ++ ['*', '/']) ∨ (star = true ∧ b = ['/']) := by
  induction cs generalizing star b r with
  | nil => simp [takeCom] at h
  | cons c cs ih =>
    rw [takeCom] at h
    split at h
    · rename_i hc
      simp only [Option.some.injEq, Prod.mk.injEq] at h
      right; exact ⟨hc.2, by rw [← h.1, hc.1]⟩
    · simp only [Option.map_eq_some_iff] at h
      obtain ⟨⟨b', r'⟩, h1, h2⟩ := h
      simp only [Prod.mk.injEq] at h2
      left
      rw [← h2.1]
      rcases ih h1 with ⟨x, rfl⟩ | ⟨hc, rfl⟩
      · exact ⟨c :: x, rfl⟩
      · have : c = '*' := by simpa using hc
        exact ⟨[], by rw [this]; rfl⟩

theorem licOk_of {cs b r : List Char} (h : takeCom false cs = some (b, r)) : LicOk b.dropLast.dropLast := by
  rcases takeCom_ends h with ⟨b', rfl⟩ | ⟨h, _⟩
  · have := takeCom_self h
    unfold LicOk
    simpa [List.dropLast_append_of_ne_nil] using this
  · cases h

theorem items_ok (n : Nat) (s : List Char) (hn : s.length < n) (f : Flag) (hf : f = .none ∨ f = .sl ∧ s.head? ≠ some '*') :
    ItemsOk f (items s) := by
  have hfb : f ≠ .bs := by rcases hf with h | ⟨h, _⟩ <;> rw [h] <;> simp
  induction n generalizing s f with
  | zero => omega
  | succ n ih =>
    cases s with
    | nil => trivial
    | cons c cs =>
      simp only [List.length_cons] at hn
      have hstar : f = .sl → c ≠ '*' := by
        intro h; rcases hf with h' | ⟨_, h'⟩
        · rw [h] at h'; cases h'
        · simpa using h'
      have chr : isBlank c = false → c ≠ '"' → c ≠ '\'' → c ≠ '\\' → c ≠ '/' → items (c :: cs) = .chr c :: items cs →
          ItemsOk f (items (c :: cs)) := by
        intro h1 h2 h3 h4 h5 h6
        rw [h6]
        refine ⟨⟨hfb, hstar, h1, h2, h3⟩, ?_⟩
        have : Item.flag (.chr c) = .none := by simp [Item.flag, h4, h5]
        rw [this]
        exact ih cs (by omega) _ (.inl rfl) (by simp)
      cases hc : RChar.ofChar c with
      | none =>
        have hb : isBlank c = false := by
          rw [Bool.eq_false_iff]; intro hb
          obtain ⟨rc, h1, _⟩ := (ofChar_blank c).1 hb
          rw [hc] at h1; simp at h1
        have h1 : c ≠ '\\' := fun e => ofChar_special (.inl e) hc
        have h2 : c ≠ '"' := fun e => ofChar_special (.inr (.inl e)) hc
        have h3 : c ≠ '\'' := fun e => ofChar_special (.inr (.inr (.inl e))) hc
        have h4 : c ≠ '/' := fun e => ofChar_special (.inr (.inr (.inr e))) hc
        exact chr hb h2 h3 h1 h4 (items_word cs hc)
      | some rc =>
        by_cases hp : rc.plain = true
        · have hb : isBlank c = false := by
            rw [Bool.eq_false_iff]; intro hb
            obtain ⟨rc', h1, h2⟩ := (ofChar_blank c).1 hb
            rw [hc] at h1; simp at h1; subst h1
            simp [RChar.plain, h2] at hp
          refine chr hb ?_ ?_ ?_ ?_ (items_plain cs hc hp) <;>
            (intro e; subst e; simp [RChar.ofChar] at hc; subst hc; revert hp; decide)
        · by_cases hu : rc.isUseless = true
          · rw [items_blank cs hc hu]
            exact ⟨hfb, ih cs (by omega) _ (.inl rfl) (by simp [Item.flag])⟩
          · have str : (rc = .quote ∨ rc = .doubleQuote) → ItemsOk f (items (c :: cs)) := by
              intro hq
              rw [items_str hc hq]
              cases ht : takeStr rc cs with
              | none => exact ⟨hfb, trivial⟩
              | some p =>
                obtain ⟨b, r⟩ := p
                have hl := congrArg List.length (takeStr_append ht)
                simp only [List.length_append] at hl
                refine ⟨⟨hfb, rc, b, hq, ?_, takeStr_self ht⟩, ih r (by omega) _ (.inl rfl) (by simp [Item.flag])⟩
                rcases ofChar_toChar hc with h | ⟨_, h⟩
                · rw [h]
                · rcases hq with h' | h' <;> rw [h'] at h <;> cases h
            have hchar : (rc = .backslash ∨ rc = .slash) → c = rc.toChar := by
              intro h
              rcases ofChar_toChar hc with h' | ⟨_, h'⟩
              · exact h'.symm
              · rcases h with e | e <;> rw [e] at h' <;> cases h'
            have hcase : rc = .slash ∨ rc = .backslash ∨ rc = .quote ∨ rc = .doubleQuote := by
              revert hp hu; cases rc <;> decide
            rcases hcase with h | h | h | h
            · have hch := hchar (.inr h)
              subst h; simp only [RChar.toChar] at hch; subst hch
              by_cases hs : cs.head? = some '*'
              · obtain ⟨d, rfl⟩ : ∃ d, cs = '*' :: d := by
                  cases cs with
                  | nil => simp at hs
                  | cons x y => exact ⟨y, by simpa using hs⟩
                rw [items_comment]
                simp only [List.length_cons] at hn
                cases ht : acomment d with
                | none => exact ⟨hfb, trivial⟩
                | some p =>
                  obtain ⟨t, r⟩ := p
                  cases d with
                  | nil => simp [acomment] at ht
                  | cons x y =>
                    rw [acomment] at ht
                    simp only [List.length_cons] at hn
                    split at ht <;> simp only [Option.map_eq_some_iff, Prod.mk.injEq] at ht <;>
                      obtain ⟨⟨b, r'⟩, h1, h2, h3⟩ := ht <;>
                      have hl := congrArg List.length (takeCom_append h1) <;>
                      simp only [List.length_append] at hl <;> simp only at h3 <;> subst h3 <;> subst h2 <;>
                      simp only [comItem] <;>
                      first
                      | exact ⟨⟨hfb, licOk_of h1⟩, ih r' (by omega) _ (.inl rfl) (by simp [Item.flag])⟩
                      | exact ⟨hfb, ih r' (by omega) _ (.inl rfl) (by simp [Item.flag])⟩
              · rw [items_slash hs]
                exact ⟨⟨hfb, hstar, by decide, by decide, by decide⟩,
                  ih cs (by omega) _ (.inr ⟨rfl, hs⟩) (by simp [Item.flag])⟩
            · have hch := hchar (.inl h)
              subst h; simp only [RChar.toChar] at hch; subst hch
              cases cs with
              | nil => exact ⟨⟨hfb, hstar, by decide, by decide, by decide⟩, trivial⟩
              | cons d cs =>
                simp only [List.length_cons] at hn
                rw [items_esc]
                exact ⟨⟨hfb, hstar, by decide, by decide, by decide⟩, rfl,
                  ih cs (by omega) _ (.inl rfl) (by simp [Item.flag])⟩
            · exact str (.inl h)
            · exact str (.inr h)

theorem itemsOk_items (s : List Char) : ItemsOk .none (items s) :=
  items_ok _ s (Nat.lt_succ_self _) .none (.inl rfl)

/-! ## Tokens as items -/

/-- The characters of a selector element. -/
def Sel.chars : Sel → List Char
  | .cls c => '.' :: c
  | .id i => '#' :: i
  | .tag t => t
  | .media m => '@' :: m
  | .pseudoClass p => ':' :: p

/-- A token as items; `auto`: with the blank that `Display` adds; `bs`: after a backslash. -/
def tokItems (auto bs : Bool) : Token → List Item
  | .comment b => [.comment b]
  | .license b => .license b :: (if auto then [.blank] else [])
  | .char c => [if c.isUseless then .blank else .chr c.toChar]
  | .other w => w.map (if bs then .lit else .chr)
  | .sel s => s.chars.map .chr ++ (if auto && (Token.sel s).isMedia then [.blank] else [])
  | .str s => [.str s]
  | .selOp o => o.display.map .chr
  | .operator o => [.chr o.toChar]

/-- Is this the token of a backslash? -/
def isBs (t : Option Token) : Bool := t == some (.char .backslash)

/-- A list of tokens, last one first. -/
def rsegs : List Token → Segs
  | [] => {}
  | t :: v => (tokItems false (isBs v.head?) t).foldl push (rsegs v)

def Word (w : List Char) : Prop := ∀ c ∈ w, RChar.ofChar c = none

def SelOk : Sel → Prop
  | .cls w => Word w
  | .id w => Word w
  | .tag w => Word w ∧ w ≠ []
  | .media w => Word w ∧ w ≠ []
  | .pseudoClass w => Word w ∧ w ≠ []

/-- A token that can follow `prev`. -/
def TokOk (prev : Option Token) : Token → Prop
  | .comment _ => isBs prev = false
  | .license b => isBs prev = false ∧ LicOk b
  | .char c => isBs prev = false ∧ c ≠ .quote ∧ c ≠ .doubleQuote ∧ c ≠ .tab ∧ c ≠ .backline ∧
      (c = .star → prev ≠ some (.char .slash))
  | .other w => w ≠ [] ∧ if isBs prev then ∃ c, w = [c] else Word w
  | .sel s => isBs prev = false ∧ SelOk s
  | .str t => isBs prev = false ∧ StrOk t
  | .selOp o => isBs prev = false ∧ (o = .contains → prev ≠ some (.char .slash))
  | .operator _ => False

/-- Not directly after a word. -/
def Apart (S : Segs) : Prop := endsWord S.acc = true → S.gap = true

/-- The token list, last one first. -/
def ROk : List Token → Prop
  | [] => True
  | t :: v => TokOk v.head? t ∧ (t.isMedia = true → Apart (rsegs v)) ∧ ROk v

theorem ROk.tail {v : List Token} (h : ROk v) : ROk v.tail := by
  cases v with
  | nil => trivial
  | cons t v => exact h.2.2

/-! ## Comparing segments -/

def Rel (P : List (Bool × Item) → Bool → Item → Bool → Prop) : List (Bool × Item) → List (Bool × Item) → Prop
  | [], [] => True
  | (g, x) :: xs, (g', x') :: ys => x = x' ∧ P xs g x g' ∧ Rel P xs ys
  | _, _ => False

/-- After these the tokenizer records blanks. -/
def keepLeft : Item → Bool
  | .chr c => !isPunct c || c == ')' || c == ']' || c == '*'
  | .lit _ => true
  | .str _ => true
  | _ => false

def lastKeeps (xs : List (Bool × Item)) : Bool :=
  match xs with
  | (_, x) :: _ => keepLeft x
  | [] => false

def P1 (xs : List (Bool × Item)) (g : Bool) (_ : Item) (g' : Bool) : Prop :=
  (g' = true → g = true) ∧ (g = true → lastKeeps xs = true → g' = true)

/-- The source and the tokens so far. -/
structure SegRel (S T : Segs) : Prop where
  acc : Rel P1 S.acc T.acc
  sub : T.gap = true → S.gap = true
  keep : S.gap = true → lastKeeps S.acc = true → T.gap = true

def solid : Item → Bool
  | .blank => false
  | .comment _ => false
  | _ => true

theorem push_solid {i : Item} (h : solid i = true) (S : Segs) : push S i = { acc := (S.gap, i) :: S.acc, gap := false } := by
  cases i <;> first | rfl | simp [solid] at h

theorem SegRel.solid {S T : Segs} {i : Item} (h : SegRel S T) (hi : solid i = true) : SegRel (push S i) (push T i) := by
  rw [push_solid hi, push_solid hi]
  exact ⟨⟨rfl, ⟨h.sub, h.keep⟩, h.acc⟩, by simp, by simp⟩

theorem SegRel.gap {S T : Segs} (h : SegRel S T) (b b' : Item) (hb : Css.solid b = false) (hb' : Css.solid b' = false) :
    SegRel (push S b) (push T b') := by
  have e : ∀ i S, Css.solid i = false → push S i = { S with gap := true } := by
    intro i S hi; cases i <;> first | rfl | simp [Css.solid] at hi
  rw [e b S hb, e b' T hb']
  exact ⟨h.acc, by simp, by simp⟩

theorem SegRel.head {S T : Segs} (h : SegRel S T) : S.acc.head?.map Prod.snd = T.acc.head?.map Prod.snd := by
  have := h.acc
  revert this
  cases S.acc <;> cases T.acc <;> simp [Rel]
  rename_i a _ b _
  obtain ⟨g, x⟩ := a; obtain ⟨g', x'⟩ := b
  intro h _ _; exact h

theorem lastKeeps_head {xs ys : List (Bool × Item)} (h : xs.head?.map Prod.snd = ys.head?.map Prod.snd) :
    lastKeeps xs = lastKeeps ys := by
  cases xs <;> cases ys <;> simp_all [lastKeeps]

/-- Words, pushed character by character. -/
def pushChrs (S : Segs) (w : List Char) : Segs := (w.map Item.chr).foldl push S

theorem pushChrs_snoc (S : Segs) (w : List Char) (c : Char) : pushChrs S (w ++ [c]) = push (pushChrs S w) (.chr c) := by
  simp [pushChrs]

/-- The tokens of a machine state, with the current word. -/
def isegs (st : IS) : Segs := pushChrs (rsegs st.v) st.w

/-- The invariant of the machine. -/
structure Inv (S : Segs) (f : Flag) (st : IS) : Prop where
  rel : SegRel S (isegs st)
  ok : ROk st.v
  word : Word st.w
  bs : f = .bs ↔ isBs st.v.head? = true
  bsw : f = .bs → st.w = []
  sl : st.v.head? = some (.char .slash) → st.w = [] → f = .sl
  apart : Apart (rsegs st.v)

theorem Sel.ofStr_chars {alpha : Char → Bool} {w : List Char} {s : Sel} (h : Sel.ofStr alpha w = some s) : s.chars = w := by
  unfold Sel.ofStr at h
  split at h
  all_goals (try split at h) <;> simp at h
  all_goals (subst h; simp [Sel.chars])

theorem Sel.ofStr_ok {alpha : Char → Bool} {w : List Char} {s : Sel} (h : Sel.ofStr alpha w = some s) (hw : Word w) :
    SelOk s := by
  unfold Sel.ofStr at h
  have htail : ∀ c v, w = c :: v → Word v := fun c v e d hd => hw d (by rw [e]; exact List.mem_cons_of_mem _ hd)
  split at h
  all_goals (try split at h) <;> simp at h
  all_goals (subst h)
  all_goals (try exact htail _ _ rfl)
  all_goals (try (rename_i hv; exact ⟨htail _ _ rfl, by simpa using hv⟩))
  all_goals exact ⟨hw, by simp⟩

theorem wordTok_items {alpha : Char → Bool} {sel : Bool} {w : List Char} :
    tokItems false false (wordTok alpha sel w) = w.map Item.chr := by
  unfold wordTok
  cases sel
  · simp [tokItems]
  · simp only [if_true]
    cases h : Sel.ofStr alpha w with
    | none => simp [tokItems]
    | some s => simp [tokItems, Sel.ofStr_chars h]

theorem wordTok_ok {alpha : Char → Bool} {sel : Bool} {w : List Char} {prev : Option Token} (hw : Word w) (hn : w ≠ [])
    (hb : isBs prev = false) : TokOk prev (wordTok alpha sel w) := by
  unfold wordTok
  cases sel
  · simp [TokOk, hn, hb, hw]
  · simp only [if_true]
    cases h : Sel.ofStr alpha w with
    | none => simp [TokOk, hn, hb, hw]
    | some s => exact ⟨hb, Sel.ofStr_ok h hw⟩

theorem wordTok_notChar {alpha : Char → Bool} {sel : Bool} {w : List Char} (c : RChar) :
    wordTok alpha sel w ≠ .char c := by
  unfold wordTok
  cases sel
  · simp
  · simp only [if_true]
    cases h : Sel.ofStr alpha w <;> simp

theorem ifill_inv {alpha : Char → Bool} {S : Segs} {f : Flag} {st : IS} (h : Inv S f st) :
    rsegs (ifill alpha st) = isegs st ∧ ROk (ifill alpha st) ∧
      (st.w ≠ [] → ∀ c, (ifill alpha st).head? ≠ some (.char c)) := by
  unfold ifill
  by_cases hw : st.w = []
  · rw [if_pos hw]
    exact ⟨by simp [isegs, hw, pushChrs], h.ok, fun hn => absurd hw hn⟩
  · rw [if_neg hw]
    have hb : isBs st.v.head? = false := by
      rw [Bool.eq_false_iff]; intro hb; exact hw (h.bsw (h.bs.2 hb))
    split
    · rename_i hs
      split
      · refine ⟨?_, ⟨?_, by simp [Token.isMedia], h.ok⟩, by simp⟩
        · rw [rsegs, hb]; rfl
        · simp [TokOk, hw, hb, h.word]
      · obtain ⟨v', hv⟩ : ∃ v', st.v = .char .colon :: v' := by
          cases hv : st.v with
          | nil => rw [hv] at hs; simp at hs
          | cons t v' => rw [hv] at hs; simp at hs; exact ⟨v', by rw [hs.2]⟩
        have hok := h.ok
        rw [hv] at hok
        refine ⟨?_, ⟨?_, by simp [Token.isMedia], ?_⟩, by simp⟩
        · simp only [rsegs, hv, List.tail_cons, isegs, tokItems, Sel.chars, List.map_cons, Bool.false_and, Bool.false_eq_true,
            if_false, List.append_nil, List.foldl_cons, pushChrs, List.foldl_nil]
          rfl
        · rw [hv]; exact ⟨hok.1.1, h.word, hw⟩
        · rw [hv]; exact hok.2.2
    · refine ⟨?_, ⟨wordTok_ok h.word hw hb, fun _ => h.apart, h.ok⟩, fun _ c => by simpa using wordTok_notChar c⟩
      rw [rsegs, hb, wordTok_items]; rfl

/-- After `iclose` there is no word, and the tokens are as before. -/
theorem iclose_inv {alpha : Char → Bool} {S : Segs} {f : Flag} {st : IS} (h : Inv S f st) (hf : f ≠ .bs) :
    SegRel S (rsegs (iclose alpha st).v) ∧ ROk (iclose alpha st).v ∧ isBs (iclose alpha st).v.head? = false ∧
      ((iclose alpha st).v.head? = some (.char .slash) → f = .sl) := by
  obtain ⟨h1, h2, h3⟩ := ifill_inv (alpha := alpha) h
  refine ⟨?_, h2, ?_, ?_⟩
  · show SegRel S (rsegs (ifill alpha st))
    rw [h1]; exact h.rel
  · show isBs (ifill alpha st).head? = false
    by_cases hw : st.w = []
    · have : ifill alpha st = st.v := by simp [ifill, hw]
      rw [this, Bool.eq_false_iff]; intro hb; exact hf (h.bs.2 hb)
    · rw [Bool.eq_false_iff]; intro hb; exact h3 hw .backslash (by simpa [isBs] using hb)
  · intro hs
    have hs : (ifill alpha st).head? = some (.char .slash) := hs
    by_cases hw : st.w = []
    · have e : ifill alpha st = st.v := by simp [ifill, hw]
      rw [e] at hs
      exact h.sl hs hw
    · exact absurd hs (h3 hw _)

/-- Pushing a solid token after `iclose`. -/
theorem Inv.push {S : Segs} {t : Token} {i : Item} {v : List Token} {st : IS} (h : SegRel S (rsegs v)) (hok : ROk v)
    (hb : isBs v.head? = false) (hv : st.v = t :: v) (hw : st.w = []) (ht : tokItems false false t = [i])
    (hi : Css.solid i = true) (htok : TokOk v.head? t) (hf : Item.flag i = .bs ↔ isBs (some t) = true)
    (hsl : t = .char .slash → Item.flag i = .sl) (hm : t.isMedia = false) (he : ∀ g xs, endsWord ((g, i) :: xs) = false) :
    Inv (Spec.Css.push S i) (Item.flag i) st := by
  refine ⟨?_, ?_, by simp [hw, Word], by rw [hv]; exact hf, fun _ => hw, ?_, ?_⟩
  · unfold isegs
    rw [hv, hw, rsegs, hb, ht]
    exact h.solid hi
  · rw [hv]; exact ⟨htok, by simp [hm], hok⟩
  · rw [hv]; intro h _; exact hsl (by simpa using h)
  · rw [hv, rsegs, hb, ht, List.foldl_cons, List.foldl_nil, push_solid hi]
    intro h; rw [he] at h; cases h

theorem ichar_inv {S : Segs} {f : Flag} {c : Char} {rc : RChar} {st st' : IS} (h : SegRel S (rsegs st.v))
    (hok : ROk st.v) (hb : isBs st.v.head? = false) (hw : st.w = []) (hsl : st.v.head? = some (.char .slash) → f = .sl)
    (hc : RChar.ofChar c = some rc) (hi : ItemOk f (.chr c)) (hs : ichar st rc = .ok st') :
    Inv (push S (.chr c)) (Item.flag (.chr c)) st' := by
  obtain ⟨hi1, hi2, hi3, hi4, hi5⟩ := hi
  have hu : rc.isUseless = false := by
    rw [Bool.eq_false_iff]; intro hu
    have := (ofChar_blank c).2 ⟨rc, hc, hu⟩
    rw [hi3] at this; cases this
  have hcc : rc.toChar = c := by
    rcases ofChar_toChar hc with h | ⟨_, h⟩
    · exact h
    · rw [h] at hu; cases hu
  have hq1 : rc ≠ .quote := by intro e; subst e; exact hi5 hcc.symm
  have hq2 : rc ≠ .doubleQuote := by intro e; subst e; exact hi4 hcc.symm
  have hq3 : rc ≠ .tab := by intro e; subst e; cases hu
  have hq4 : rc ≠ .backline := by intro e; subst e; cases hu
  have hstar : rc = .star → st.v.head? ≠ some (.char .slash) := by
    intro e h'; subst e; exact hi2 (hsl h') hcc.symm
  have push : ∀ st' : IS, st'.v = .char rc :: st.v → st'.w = [] → Inv (push S (.chr c)) (Item.flag (.chr c)) st' := by
    intro st' hv hw'
    refine Inv.push h hok hb hv hw' (by simp [tokItems, hu, hcc]) rfl ⟨hb, hq1, hq2, hq3, hq4, hstar⟩ ?_ ?_ rfl
      (fun _ _ => by simp [endsWord, ← hcc, toChar_punct])
    · rw [← hcc]; simp only [isBs]
      cases rc <;> simp [Item.flag, RChar.toChar]
    · intro e; simp only [Token.char.injEq] at e; subst e; rw [← hcc]; rfl
  unfold ichar at hs
  split at hs
  case h_1 => split at hs <;> simp at hs; exact push _ (by rw [← hs]) (by rw [← hs]; exact hw)
  case h_2 => split at hs <;> simp at hs; exact push _ (by rw [← hs]) (by rw [← hs]; exact hw)
  case h_3 => simp at hs; exact push _ (by rw [← hs]) (by rw [← hs]; exact hw)
  case h_4 => split at hs <;> simp at hs; exact push _ (by rw [← hs]) (by rw [← hs]; exact hw)
  case h_5 => simp at hs; exact push _ (by rw [← hs]) (by rw [← hs]; exact hw)
  case h_7 => simp at hs; exact push _ (by rw [← hs]) (by rw [← hs]; exact hw)
  case h_6 =>
    split at hs
    · rename_i r hr
      simp only [Out.ok.injEq] at hs
      have hc' : c = '=' := hcc.symm
      -- the popped operator character
      obtain ⟨rc', v', hv, ho⟩ : ∃ rc' v', st.v = .char rc' :: v' ∧
          r.display = [rc'.toChar, '='] ∧ rc'.isUseless = false ∧ (r = .contains → rc' = .star) := by
        cases hv : st.v with
        | nil => rw [hv] at hr; simp [selOpOf, Token.getChar] at hr
        | cons t v' =>
          rw [hv] at hr
          cases t with
          | char x =>
            cases x <;> simp [selOpOf, Token.getChar] at hr <;> subst hr <;> exact ⟨_, v', rfl, by decide⟩
          | _ => simp [selOpOf, Token.getChar] at hr
      rw [hv] at hok h
      have hf : Item.flag (.chr c) = .none := by rw [hc']; rfl
      rw [← hs, hv, hf]
      refine ⟨?_, ⟨⟨hok.1.1, ?_⟩, by simp [Token.isMedia], hok.2.2⟩, by simp [hw, Word], by simp [isBs], by simp, by simp,
        ?_⟩
      · simp only [isegs, hw, List.tail_cons, pushChrs, List.map_nil, List.foldl_nil, rsegs, tokItems, ho.1, List.map_cons,
          List.foldl_cons, ← hc']
        have h' := h.solid (i := .chr c) rfl
        simp only [rsegs, tokItems, ho.2.1, Bool.false_eq_true, if_false, List.foldl_cons, List.foldl_nil] at h'
        exact h'
      · intro hr'
        have := ho.2.2 hr'
        subst this
        exact hok.1.2.2.2.2.2 rfl
      · simp only [List.tail_cons, rsegs, tokItems, ho.1, List.map_cons, List.map_nil, List.foldl_cons, List.foldl_nil]
        intro h; simp [Spec.Css.push, endsWord, isPunct] at h
    · simp at hs; exact push _ (by rw [← hs]) (by rw [← hs]; exact hw)

/-- If no blank is recorded then one is there already or none is needed. -/
theorem wantsSpace_false {v : List Token} (hok : ROk v) (h : wantsSpace v.head? = false) :
    lastKeeps (rsegs v).acc = true → (rsegs v).gap = true := by
  cases v with
  | nil => intro h; simp [rsegs, lastKeeps] at h
  | cons t v =>
    simp only [List.head?_cons, wantsSpace] at h
    cases t with
    | char c =>
      obtain ⟨hb, hq1, hq2, hq3, hq4, _⟩ := hok.1
      cases c <;> simp_all [rsegs, tokItems, Token.isUseless, Token.isChar, Token.isOperator, Token.getChar,
        RChar.isUseless, RChar.isOperator, Operator.ofRChar, push, lastKeeps, keepLeft, RChar.toChar, isPunct]
    | _ => simp [Token.isUseless, Token.isChar] at h

theorem istep_inv {alpha : Char → Bool} {S : Segs} {f : Flag} {st st' : IS} {i : Item} (h : Inv S f st)
    (hi : ItemOk f i) (hs : istep alpha st i = .ok st') : Inv (push S i) (Item.flag i) st' := by
  cases i with
  | chr c =>
    rw [istep] at hs
    cases hc : RChar.ofChar c with
    | none =>
      rw [hc] at hs
      simp only [Out.ok.injEq] at hs
      have hfl : Item.flag (.chr c) = .none := by
        have h1 : c ≠ '\\' := fun e => ofChar_special (.inl e) hc
        have h4 : c ≠ '/' := fun e => ofChar_special (.inr (.inr (.inr e))) hc
        simp [Item.flag, h1, h4]
      rw [← hs, hfl]
      refine ⟨?_, h.ok, ?_, ?_, by simp, by simp, h.apart⟩
      · simp only [isegs, pushChrs_snoc]
        exact h.rel.solid rfl
      · intro d hd
        rcases List.mem_append.1 hd with hd | hd
        · exact h.word d hd
        · rw [List.mem_singleton.1 hd]; exact hc
      · simp only [reduceCtorEq, false_iff]
        intro hb; exact hi.1 (h.bs.2 hb)
    | some rc =>
      rw [hc] at hs
      obtain ⟨h1, h2, h3, h4⟩ := iclose_inv (alpha := alpha) h hi.1
      exact ichar_inv h1 h2 h3 rfl h4 hc hi hs
  | lit c =>
    rw [istep] at hs
    simp only [Out.ok.injEq] at hs
    have hf : f = .bs := hi
    have hb := h.bs.1 hf
    have hw := h.bsw hf
    rw [← hs]
    refine ⟨?_, ⟨?_, by simp [Token.isMedia], h.ok⟩, h.word, by simp [Item.flag, isBs], by simp [Item.flag], by simp, ?_⟩
    · have := h.rel.solid (i := .lit c) rfl
      simp only [isegs, hw, pushChrs, List.map_nil, List.foldl_nil] at this ⊢
      simpa [rsegs, hb, tokItems] using this
    · simp [TokOk, hb]
    · simp [rsegs, tokItems, hb, Apart, push, endsWord]
  | blank =>
    rw [istep] at hs
    simp only [Out.ok.injEq] at hs
    obtain ⟨h1, h2, h3, h4⟩ := iclose_inv (alpha := alpha) h hi
    rw [← hs]
    have hp : push S .blank = { S with gap := true } := rfl
    cases hw : wantsSpace (iclose alpha st).v.head? with
    | true =>
      simp only [if_true]
      refine ⟨?_, ⟨?_, by simp [Token.isMedia], h2⟩, by simp [iclose, Word], by simp [Item.flag, isBs], by simp [Item.flag],
        by simp, fun _ => rfl⟩
      · simp only [isegs, show (iclose alpha st).w = [] from rfl, pushChrs, List.map_nil, List.foldl_nil, rsegs, h3]
        exact h1.gap .blank .blank rfl rfl
      · simp [TokOk, h3]
    | false =>
      simp only [Bool.false_eq_true, if_false]
      refine ⟨?_, h2, by simp [iclose, Word], by simp [Item.flag, h3], by simp [Item.flag], ?_, ?_⟩
      · simp only [isegs, show (iclose alpha st).w = [] from rfl, pushChrs, List.map_nil, List.foldl_nil]
        rw [hp]
        refine ⟨h1.acc, by simp, ?_⟩
        intro _ hk
        refine wantsSpace_false h2 hw ?_
        rw [← lastKeeps_head h1.head]; exact hk
      · intro hsl
        simp only at hsl
        rw [hsl] at hw; cases hw
      · intro he
        refine wantsSpace_false h2 hw ?_
        simp only at he
        revert he
        cases (rsegs (iclose alpha st).v).acc with
        | nil => simp [endsWord]
        | cons a as =>
          obtain ⟨g, x⟩ := a
          cases x <;> simp [endsWord, lastKeeps, keepLeft]
          intro h; simp [h]
  | comment b =>
    rw [istep] at hs
    simp only [Out.ok.injEq] at hs
    obtain ⟨h1, h2, h3, h4⟩ := iclose_inv (alpha := alpha) h hi
    rw [← hs]
    refine ⟨?_, ⟨h3, by simp [Token.isMedia], h2⟩, by simp [iclose, Word], by simp [Item.flag, isBs], by simp [Item.flag],
      by simp, fun _ => rfl⟩
    simp only [isegs, show (iclose alpha st).w = [] from rfl, pushChrs, List.map_nil, List.foldl_nil, rsegs, h3]
    exact h1.gap (.comment b) (.comment b) rfl rfl
  | license b =>
    rw [istep] at hs
    simp only [Out.ok.injEq] at hs
    obtain ⟨h1, h2, h3, h4⟩ := iclose_inv (alpha := alpha) h hi.1
    rw [← hs]
    exact Inv.push h1 h2 h3 rfl rfl rfl rfl ⟨h3, hi.2⟩ (by simp [Item.flag, isBs]) (by simp) rfl (fun _ _ => rfl)
  | str b =>
    rw [istep] at hs
    simp only [Out.ok.injEq] at hs
    obtain ⟨h1, h2, h3, h4⟩ := iclose_inv (alpha := alpha) h hi.1
    rw [← hs]
    exact Inv.push h1 h2 h3 rfl rfl rfl rfl ⟨h3, hi.2⟩ (by simp [Item.flag, isBs]) (by simp) rfl (fun _ _ => rfl)
  | openStr => simp [istep] at hs
  | openComment => simp [istep] at hs

theorem irun_inv {alpha : Char → Bool} {S : Segs} {f : Flag} {st : IS} {is : List Item} {v : List Token} (h : Inv S f st)
    (hi : ItemsOk f is) (hs : irun alpha st is = .ok v) : SegRel (is.foldl push S) (rsegs v) ∧ ROk v := by
  induction is generalizing S f st with
  | nil =>
    simp only [irun, Out.ok.injEq] at hs
    obtain ⟨h1, h2, _⟩ := ifill_inv (alpha := alpha) h
    rw [← hs, h1]
    exact ⟨h.rel, h2⟩
  | cons i is ih =>
    rw [irun] at hs
    cases he : istep alpha st i with
    | ok st' =>
      rw [he] at hs
      exact ih (istep_inv h hi.1 he) hi.2 hs
    | err e => rw [he] at hs; simp [Bind.bind, Out.bind] at hs
    | panic e => rw [he] at hs; simp [Bind.bind, Out.bind] at hs

/-- The tokenizer keeps the solid items and the gaps it needs. -/
theorem raw_keeps {alpha : Char → Bool} (hA : AlphaOk alpha) {s : List Char} {ts : List Token}
    (h : rawTokens alpha s = .ok ts) : SegRel (segs (items s)) (rsegs ts.reverse) ∧ ROk ts.reverse := by
  rw [rawTokens_items hA] at h
  cases hr : irun alpha {} (items s) with
  | ok v =>
    rw [hr] at h
    simp only [Out.bind_ok, Out.ok.injEq] at h
    rw [← h, List.reverse_reverse]
    refine irun_inv (S := {}) (st := {}) (f := .none) ⟨⟨trivial, by simp [isegs, pushChrs, rsegs], by simp [lastKeeps]⟩, trivial,
      by simp [Word], by simp [isBs], by simp, by simp, by simp [Apart, rsegs, endsWord]⟩ (itemsOk_items s) hr
  | err e => rw [hr] at h; simp [Bind.bind, Out.bind] at h
  | panic e => rw [hr] at h; simp [Bind.bind, Out.bind] at h

/-! ## `clean_tokens` -/

/-- A list of tokens in order, after `p`. -/
def titems (auto : Bool) : Option Token → List Token → List Item
  | _, [] => []
  | p, t :: ts => tokItems auto (isBs p) t ++ titems auto (some t) ts

/-- `TokOk` for a list of tokens in order, without comments. -/
def FOk : Option Token → List Token → Prop
  | _, [] => True
  | p, t :: ts => TokOk p t ∧ t.isComment = false ∧ FOk (some t) ts

def mayAdd (xs : List (Bool × Item)) : Prop := atWord xs = true ∨ ∃ g b, xs.head? = some (g, .license b)

def mustKeep (xs : List (Bool × Item)) (x : Item) : Prop := (∃ h p, xs.head? = some (h, p) ∧ closes p = true) ∧ opens x = true

def P2 (xs : List (Bool × Item)) (g : Bool) (x : Item) (g' : Bool) : Prop :=
  (g' = true → g = true ∨ mayAdd xs) ∧ (g = true → mustKeep xs x → g' = true)

theorem ROk.suffix {a b : List Token} (h : ROk (a ++ b)) : ROk b := by
  induction a with
  | nil => exact h
  | cons t a ih => exact ih h.2.2

theorem slashStarEq_suffix {xs ys : List (Bool × Item)} (h : slashStarEq (xs ++ ys) = false) : slashStarEq ys = false := by
  induction xs with
  | nil => exact h
  | cons a xs ih =>
    simp only [List.cons_append, slashStarEq, Bool.or_eq_false_iff] at h
    exact ih h.2

theorem push_acc (S : Segs) (i : Item) : ∃ xs, (push S i).acc = xs ++ S.acc := by
  cases i <;> first | exact ⟨[], rfl⟩ | exact ⟨[_], rfl⟩

theorem foldl_push_acc (is : List Item) (S : Segs) : ∃ xs, (is.foldl push S).acc = xs ++ S.acc := by
  induction is generalizing S with
  | nil => exact ⟨[], rfl⟩
  | cons i is ih =>
    obtain ⟨xs, h⟩ := ih (push S i)
    obtain ⟨ys, h'⟩ := push_acc S i
    exact ⟨xs ++ ys, by rw [List.foldl_cons, h, h', List.append_assoc]⟩

/-- Items pushed after the first one have no gap. -/
theorem pushSolids {P : List (Bool × Item) → Bool → Item → Bool → Prop} (hP : ∀ xs x, P xs false x false) {S T : Segs}
    (is : List Item) (hs : ∀ i ∈ is, solid i = true) (h : Rel P S.acc T.acc) (hS : S.gap = false) (hT : T.gap = false) :
    Rel P (is.foldl push S).acc (is.foldl push T).acc ∧ (is.foldl push S).gap = false ∧ (is.foldl push T).gap = false := by
  induction is generalizing S T with
  | nil => exact ⟨h, hS, hT⟩
  | cons i is ih =>
    have hi := hs i List.mem_cons_self
    rw [List.foldl_cons, List.foldl_cons]
    refine ih (fun j hj => hs j (List.mem_cons_of_mem _ hj)) ?_ ?_ ?_
    · rw [push_solid hi, push_solid hi]
      exact ⟨rfl, by rw [hS, hT]; exact hP _ _, h⟩
    · rw [push_solid hi]
    · rw [push_solid hi]

theorem P2_false (xs : List (Bool × Item)) (x : Item) : P2 xs false x false := ⟨by simp, by simp⟩

theorem pushSolidsCons {P : List (Bool × Item) → Bool → Item → Bool → Prop} (hP : ∀ xs x, P xs false x false) {S T : Segs}
    (i : Item) (is : List Item) (hi : solid i = true) (hs : ∀ i ∈ is, solid i = true) (h : Rel P S.acc T.acc)
    (hp : P S.acc S.gap i T.gap) :
    Rel P ((i :: is).foldl push S).acc ((i :: is).foldl push T).acc ∧ ((i :: is).foldl push S).gap = false ∧
      ((i :: is).foldl push T).gap = false := by
  rw [List.foldl_cons, List.foldl_cons]
  exact pushSolids hP is hs (by rw [push_solid hi, push_solid hi]; exact ⟨rfl, hp, h⟩) (by rw [push_solid hi])
    (by rw [push_solid hi])

/-- The items of a solid token, without what `Display` adds. -/
theorem tokItems_solid {prev : Option Token} {t : Token} (h : TokOk prev t) (hu : t.isUseless = false)
    (hc : t.isComment = false) : ∃ i is, tokItems false (isBs prev) t = i :: is ∧ solid i = true ∧ (∀ j ∈ is, solid j = true) := by
  have words : ∀ (w : List Char) (f : Char → Item), (∀ c, solid (f c) = true) → w ≠ [] →
      ∃ i is, w.map f = i :: is ∧ solid i = true ∧ (∀ j ∈ is, solid j = true) := by
    intro w f hf hw
    cases w with
    | nil => exact absurd rfl hw
    | cons c w => exact ⟨_, _, rfl, hf c, by simp; intro a _; exact hf a⟩
  cases t with
  | comment b => simp [Token.isComment] at hc
  | license b => exact ⟨_, _, rfl, rfl, by simp⟩
  | char c =>
    have hu : c.isUseless = false := hu
    exact ⟨.chr c.toChar, [], by simp [tokItems, hu], rfl, by simp⟩
  | other w =>
    simp only [tokItems]
    cases isBs prev
    · exact words w _ (fun _ => rfl) h.1
    · exact words w _ (fun _ => rfl) h.1
  | sel s =>
    simp only [tokItems, Bool.false_and, Bool.false_eq_true, if_false, List.append_nil]
    refine words _ _ (fun _ => rfl) ?_
    have := h.2
    cases s <;> simp_all [Sel.chars, SelOk]
  | str b => exact ⟨_, _, rfl, rfl, by simp⟩
  | selOp o => cases o <;> exact ⟨_, _, rfl, rfl, by simp [solid]⟩
  | operator o => exact h.elim

theorem tokItems_auto (bs : Bool) (t : Token) (hc : t.isComment = false) :
    tokItems true bs t = tokItems false bs t ++ (if t.isMedia || t.isLicense then [.blank] else []) := by
  cases t with
  | sel s => cases s <;> simp [tokItems, Token.isMedia, Token.isLicense]
  | comment b => simp [Token.isComment] at hc
  | _ => simp [tokItems, Token.isMedia, Token.isLicense]

/-- The last item of a token that is not followed by a blank. -/
theorem closes_tok {prev : Option Token} {t : Token} {S : Segs} {h : Bool} {p : Item} (hok : TokOk prev t)
    (hu : t.isUseless = false) (hc : t.isComment = false)
    (hp : ((tokItems false (isBs prev) t).foldl push S).acc.head? = some (h, p)) (hcl : closes p = true) :
    (∃ w, t = .other w) ∨ t.isSel = true ∨ (∃ b, t = .str b) ∨ t = .char .closeParen ∨ t = .char .closeBracket := by
  cases t with
  | other w => exact .inl ⟨w, rfl⟩
  | sel s => exact .inr (.inl rfl)
  | str b => exact .inr (.inr (.inl ⟨b, rfl⟩))
  | char c =>
    have hu : c.isUseless = false := hu
    simp only [tokItems, hu, Bool.false_eq_true, if_false, List.foldl_cons, List.foldl_nil] at hp
    rw [push_solid rfl] at hp
    simp only [List.head?_cons, Option.some.injEq, Prod.mk.injEq] at hp
    rw [← hp.2] at hcl
    simp only [closes, toChar_punct, Bool.not_true, Bool.false_or, Bool.or_eq_true, beq_iff_eq] at hcl
    cases c <;> simp [RChar.toChar] at hcl ⊢
  | comment b => simp [Token.isComment] at hc
  | license b =>
    simp [tokItems, push] at hp
    rw [← hp.2] at hcl; simp [closes] at hcl
  | selOp o =>
    cases o <;> simp [tokItems, SelOp.display, push] at hp <;> rw [← hp.2] at hcl <;> simp [closes, isPunct] at hcl
  | operator o => exact hok.elim

/-- The first item of a token before which a blank matters. -/
theorem opens_tok {prev : Option Token} {t : Token} {i : Item} {is : List Item} (hok : TokOk prev t)
    (hi : tokItems false (isBs prev) t = i :: is) (hop : opens i = true) :
    t.isComment = false ∧ (t.isChar = false ∨ t = .char .openBracket) := by
  cases t with
  | char c =>
    refine ⟨rfl, .inr ?_⟩
    simp only [tokItems, List.cons.injEq] at hi
    rw [← hi.1] at hop
    cases hu : c.isUseless
    · simp only [hu, Bool.false_eq_true, if_false, opens, toChar_punct, Bool.not_true, Bool.false_or, beq_iff_eq] at hop
      cases c <;> simp [RChar.toChar] at hop ⊢
    · simp [hu, opens] at hop
  | comment b =>
    simp only [tokItems, List.cons.injEq] at hi
    rw [← hi.1] at hop; simp [opens] at hop
  | _ => exact ⟨rfl, .inl rfl⟩

/-- `clean_tokens` keeps a blank that separates. -/
theorem keepBlank_of {c : Bool} {p n : Token}
    (hp : (∃ w, p = .other w) ∨ (p.isSel = true ∧ p.isMedia = false) ∨ (∃ b, p = .str b) ∨ p = .char .closeParen ∨ p = .char .closeBracket)
    (hn : n.isChar = false ∨ n = .char .openBracket) : keepBlank c (some p) (some n) = true := by
  have hnu : n.isUseless = false := by
    rcases hn with h | h
    · cases n <;> simp_all [Token.isUseless, Token.isChar]
    · subst h; rfl
  have hnc : n ≠ .char .openCurly := by
    rcases hn with h | h
    · intro e; subst e; simp [Token.isChar] at h
    · subst h; simp
  have hnf : (n.isChar && n != .char .openBracket) = false := by
    rcases hn with h | h
    · simp [h]
    · simp [h]
  unfold keepBlank
  simp only
  split
  · simp [hnu, hnc]
  · rename_i hcb
    have hpu : p.isUseless = false := by
      rcases hp with ⟨w, rfl⟩ | ⟨h, _⟩ | ⟨b, rfl⟩ | rfl | rfl
      · rfl
      · cases p <;> simp_all [Token.isSel, Token.isUseless]
      · rfl
      · rfl
      · rfl
    have hpf : ((p.isChar && p != .char .closeParen) || p.isMedia || p.isLicense) = false := by
      rcases hp with ⟨w, rfl⟩ | ⟨h, h'⟩ | ⟨b, rfl⟩ | rfl | rfl
      · rfl
      · cases p <;> simp_all [Token.isSel, Token.isChar, Token.isLicense]
      · rfl
      · rfl
      · simp at hcb
    simp only [hpf, hnf, hpu, Bool.and_false, Bool.or_self, Bool.false_eq_true, if_false]
    repeat' split
    all_goals rfl

theorem atWord_push {S : Segs} {m : List Char} (hm : Word m) (hn : m ≠ []) (ha : Apart S) :
    atWord (pushChrs S ('@' :: m)).acc = true := by
  have h0 : (pushChrs S ['@']).acc = (S.gap, .chr '@') :: S.acc ∧ (pushChrs S ['@']).gap = false := ⟨rfl, rfl⟩
  have hp : ∀ c, c ∈ m → isPunct c = false := fun c hc => ofChar_none_punct (hm c hc)
  have gen : ∀ (w : List Char), w ≠ [] → (∀ c ∈ w, isPunct c = false) →
      ∃ c xs, (pushChrs S ('@' :: w)).acc = (false, .chr c) :: xs ∧ isPunct c = false ∧
        atWord (pushChrs S ('@' :: w)).acc = true ∧ (pushChrs S ('@' :: w)).gap = false := by
    intro w
    rw [← List.reverse_reverse w]
    generalize w.reverse = r
    induction r with
    | nil => intro h; exact absurd rfl h
    | cons c r ih =>
      rw [List.reverse_cons]
      generalize r.reverse = w at ih ⊢
      intro _ hw
      have hc : isPunct c = false := hw c (by simp)
      by_cases hw0 : w = []
      · subst hw0
        refine ⟨c, (S.gap, .chr '@') :: S.acc, rfl, hc, ?_, rfl⟩
        show atWord ((false, .chr c) :: (S.gap, .chr '@') :: S.acc) = true
        have h1 : isPunct '@' = false := by decide
        have h2 : (S.gap || !endsWord S.acc) = true := by
          cases he : endsWord S.acc
          · simp
          · simp [ha he]
        simp [atWord, hc, h1, h2]
      · obtain ⟨d, xs, h1, h2, h3, h4⟩ := ih hw0 (fun c hc => hw c (by simp [hc]))
        have e : pushChrs S ('@' :: (w ++ [c])) = push (pushChrs S ('@' :: w)) (.chr c) := by
          rw [← List.cons_append, pushChrs_snoc]
        rw [e, push_solid rfl, h4, h1]
        refine ⟨c, _, rfl, hc, ?_, rfl⟩
        simp only [atWord, hc, h2, Bool.not_false, Bool.true_and]
        rw [h1] at h3
        rw [h3]; simp
  obtain ⟨_, _, _, _, h, _⟩ := gen m hn hp
  exact h

/-- How far `clean_tokens` is: `pr` has been read (last token first), `prev` was retained last, `T` has been written. -/
structure CInv (ic : Bool) (prev : Option Token) (pr : List Token) (T : Segs) (next : Option Token) : Prop where
  rel : Rel P2 (rsegs pr).acc T.acc
  sub : T.gap = true → (rsegs pr).gap = true ∨ mayAdd (rsegs pr).acc
  drop : (rsegs pr).gap = true → T.gap = false → keepBlank ic prev next = false
  first : prev = none → (rsegs pr).acc = []
  blank : ∀ t, prev = some t → t.isUseless = true → T.gap = true
  tok : ∀ t, prev = some t → t.isUseless = false → t.isComment = false ∧ T.gap = (t.isMedia || t.isLicense) ∧
    ∃ v, TokOk v.head? t ∧ (rsegs pr).acc = ((tokItems false (isBs v.head?) t).foldl push (rsegs v)).acc
  bs : isBs pr.head? = isBs prev
  same : (rsegs pr).gap = false → prev = pr.head?

theorem calcStep_blank {ic : Bool} {paren : Int} {t : Token} (h : t.isUseless = true ∨ t.isComment = true) :
    calcStep ic paren t = (ic, paren) := by
  unfold calcStep
  cases t with
  | char c => cases ic <;> cases c <;> simp_all [Token.isUseless, Token.isComment, RChar.isUseless]
  | comment b => cases ic <;> simp
  | _ => simp [Token.isUseless, Token.isComment] at h

theorem clean_inv (rest : List Token) : ∀ {ic : Bool} {paren : Int} {prev : Option Token} {pr : List Token} {T : Segs},
    CInv ic prev pr T rest.head? → ROk (rest.reverse ++ pr) → slashStarEq (rsegs (rest.reverse ++ pr)).acc = false →
    Rel P2 (rsegs (rest.reverse ++ pr)).acc ((titems true prev (cleanFrom ic paren prev rest)).foldl push T).acc ∧
      FOk prev (cleanFrom ic paren prev rest) := by
  induction rest with
  | nil => intro ic paren prev pr T h _ _; exact ⟨h.rel, trivial⟩
  | cons t rest ih =>
    intro ic paren prev pr T h hok hsse
    have happ : (t :: rest).reverse ++ pr = rest.reverse ++ (t :: pr) := by simp
    rw [happ] at hok hsse ⊢
    have htok : TokOk pr.head? t := hok.suffix.1
    rw [cleanFrom]
    by_cases hbl : t.isUseless = true ∨ t.isComment = true
    · -- a blank or a comment
      have hbl' : (t.isUseless || t.isComment) = true := by rcases hbl with h | h <;> simp [h]
      simp only [hbl', if_true, calcStep_blank hbl]
      have hbs : isBs pr.head? = false := by
        rcases hbl with h' | h'
        · cases t <;> first | exact htok.1 | simp [Token.isUseless] at h'
        · cases t <;> first | exact htok | simp [Token.isComment] at h'
      have hseg : rsegs (t :: pr) = { rsegs pr with gap := true } := by
        rw [rsegs, hbs]
        rcases hbl with h' | h'
        · cases t <;> simp [Token.isUseless] at h'
          simp [tokItems, h', push]
        · cases t <;> simp [Token.isComment] at h'
          simp [tokItems, push]
      have hbs' : isBs (some t) = false := by
        cases t with
        | char c => cases c <;> simp_all [Token.isUseless, Token.isComment, isBs, RChar.isUseless]
        | _ => rfl
      cases hk : keepBlank ic prev rest.head? with
      | true =>
        simp only [if_true]
        -- the retained blank
        obtain ⟨t', ht', htu, htok', htc, htbs⟩ : ∃ t', (if t.isComment = true then Token.char .space else t) = t' ∧
            t'.isUseless = true ∧ TokOk prev t' ∧ t'.isComment = false ∧ isBs (some t') = false := by
          have hpbs : isBs prev = false := by rw [← h.bs]; exact hbs
          refine ⟨_, rfl, ?_⟩
          split
          · refine ⟨rfl, ⟨hpbs, by simp⟩, rfl, rfl⟩
          · rename_i hc
            have hu : t.isUseless = true := by rcases hbl with h' | h'; exact h'; exact absurd h' hc
            refine ⟨hu, ?_, by simpa using hc, hbs'⟩
            cases t with
            | char c =>
              obtain ⟨_, h2, h3, h4, h5, h6⟩ := htok
              refine ⟨hpbs, h2, h3, h4, h5, ?_⟩
              rintro rfl; cases hu
            | _ => simp [Token.isUseless] at hu
        rw [ht', titems, List.foldl_append]
        have hT : (tokItems true (isBs prev) t').foldl push T = { T with gap := true } := by
          cases t' <;> simp [Token.isUseless] at htu
          simp [tokItems, htu, push]
        rw [hT]
        have := ih (ic := ic) (paren := paren) (prev := some t') (pr := t :: pr) (T := { T with gap := true }) ?_ hok hsse
        · exact ⟨this.1, htok', htc, this.2⟩
        · refine ⟨by rw [hseg]; exact h.rel, fun _ => .inl (by rw [hseg]), by simp, by simp, fun _ _ _ => rfl, ?_, ?_, ?_⟩
          · intro x hx hxu
            simp only [Option.some.injEq] at hx
            rw [← hx, htu] at hxu; cases hxu
          · rw [List.head?_cons, hbs', htbs]
          · rw [hseg]; simp
      | false =>
        simp only [Bool.false_eq_true, if_false]
        refine ih (pr := t :: pr) ⟨?_, ?_, ?_, ?_, h.blank, ?_, ?_, ?_⟩ hok hsse
        · rw [hseg]; exact h.rel
        · intro hg; rw [hseg]; exact .inl rfl
        · intro _ _; exact hk
        · intro hp; rw [hseg]; exact h.first hp
        · intro x hx hxu; rw [hseg]; exact h.tok x hx hxu
        · rw [List.head?_cons, hbs', ← h.bs, hbs]
        · rw [hseg]; simp
    · -- a solid token
      have hu : t.isUseless = false := by simpa using fun h' => hbl (.inl h')
      have hc : t.isComment = false := by simpa using fun h' => hbl (.inr h')
      simp only [hu, hc, Bool.or_self, Bool.false_eq_true, if_false]
      rw [titems, List.foldl_append, ← h.bs, tokItems_auto _ _ hc, List.foldl_append]
      obtain ⟨i, is, hi, hsi, hsis⟩ := tokItems_solid htok hu hc
      have hP : P2 (rsegs pr).acc (rsegs pr).gap i T.gap := by
        refine ⟨h.sub, ?_⟩
        rintro hg ⟨⟨hh, p, hp, hcl⟩, hop⟩
        cases hT : T.gap with
        | true => rfl
        | false =>
          exfalso
          have hdrop := h.drop hg hT
          obtain ⟨_, hnx⟩ := opens_tok htok hi hop
          cases hpv : prev with
          | none => rw [h.first hpv] at hp; simp at hp
          | some q =>
            cases hqu : q.isUseless with
            | true => rw [h.blank q hpv hqu] at hT; cases hT
            | false =>
              obtain ⟨hqc, hqg, v, hqok, hqa⟩ := h.tok q hpv hqu
              rw [hqa] at hp
              have hcases := closes_tok hqok hqu hqc hp hcl
              have hqm : q.isMedia = false := by
                rw [hT] at hqg; simp at hqg; exact hqg.1
              rw [hpv, List.head?_cons] at hdrop
              rw [keepBlank_of (by
                rcases hcases with h1 | h1 | h1
                · exact .inl h1
                · exact .inr (.inl ⟨h1, hqm⟩)
                · exact .inr (.inr h1)) hnx] at hdrop
              cases hdrop
      obtain ⟨r1, r2, r3⟩ := pushSolidsCons P2_false i is hsi hsis h.rel hP
      have hseg : rsegs (t :: pr) = (i :: is).foldl push (rsegs pr) := by rw [rsegs, hi]
      -- the tokens written are fine
      have hprevok : TokOk prev t := by
        have hbs := h.bs
        have key : (t = .char .star ∨ t = .selOp .contains) → prev = some (.char .slash) → False := by
          intro ht hpv
          obtain ⟨_, hTg, v, hvok, hva⟩ := h.tok _ hpv rfl
          have hTg : T.gap = false := hTg
          cases hg : (rsegs pr).gap with
          | false =>
            have := h.same hg
            rw [hpv] at this
            rcases ht with ht | ht
            · subst ht; exact htok.2.2.2.2.2 rfl this.symm
            · subst ht; exact htok.2 rfl this.symm
          | true =>
            have hd := h.drop hg hTg
            rw [hpv, List.head?_cons] at hd
            rcases ht with ht | ht
            · subst ht; cases ic <;> revert hd <;> decide
            · subst ht
              have hh : (rsegs pr).acc = ((rsegs v).gap, .chr '/') :: (rsegs v).acc := hva
              have : slashStarEq (rsegs (Token.selOp SelOp.contains :: pr)).acc = false := by
                have hsuf : ∀ (a b : List Token), ∃ xs, (rsegs (a ++ b)).acc = xs ++ (rsegs b).acc := by
                  intro a b
                  induction a with
                  | nil => exact ⟨[], rfl⟩
                  | cons y a ih =>
                    obtain ⟨xs, hx⟩ := ih
                    obtain ⟨ys, hy⟩ := foldl_push_acc (tokItems false (isBs (a ++ b).head?) y) (rsegs (a ++ b))
                    exact ⟨ys ++ xs, by rw [List.cons_append, rsegs, hy, hx, List.append_assoc]⟩
                obtain ⟨xs, hx⟩ := hsuf rest.reverse (Token.selOp SelOp.contains :: pr)
                rw [hx] at hsse
                exact slashStarEq_suffix hsse
              rw [rsegs] at this
              simp [tokItems, SelOp.display, push, hh, slashStarEq] at this
        cases t with
        | comment b => simp [Token.isComment] at hc
        | license b => exact ⟨by rw [← hbs]; exact htok.1, htok.2⟩
        | char c =>
          obtain ⟨h1, h2, h3, h4, h5, h6⟩ := htok
          exact ⟨by rw [← hbs]; exact h1, h2, h3, h4, h5, fun e hp => key (.inl (by rw [e])) hp⟩
        | other w => exact ⟨htok.1, by rw [← hbs]; exact htok.2⟩
        | sel s => exact ⟨by rw [← hbs]; exact htok.1, htok.2⟩
        | str b => exact ⟨by rw [← hbs]; exact htok.1, htok.2⟩
        | selOp o => exact ⟨by rw [← hbs]; exact htok.1, fun e hp => key (.inr (by rw [e])) hp⟩
        | operator o => exact htok.elim
      rw [hi]
      have hfin : ∀ T' : Segs, T'.acc = ((i :: is).foldl push T).acc → T'.gap = (t.isMedia || t.isLicense) →
          Rel P2 (rsegs (rest.reverse ++ t :: pr)).acc
            ((titems true (some t) (cleanFrom (calcStep ic paren t).1 (calcStep ic paren t).2 (some t) rest)).foldl push T').acc ∧
          FOk (some t) (cleanFrom (calcStep ic paren t).1 (calcStep ic paren t).2 (some t) rest) := by
        intro T' hT1 hT2
        refine ih (pr := t :: pr) ⟨?_, ?_, ?_, by simp, ?_, ?_, rfl, ?_⟩ hok hsse
        · rw [hseg, hT1]; exact r1
        · intro hg
          rw [hT2, Bool.or_eq_true] at hg
          right
          rcases hg with hg | hg
          · left
            cases t with
            | sel s =>
              cases s with
              | media m =>
                have := atWord_push (S := rsegs pr) htok.2.1 htok.2.2 (hok.suffix.2.1 rfl)
                rw [hseg, ← hi]
                simpa [tokItems, Sel.chars, pushChrs] using this
              | _ => simp [Token.isMedia] at hg
            | _ => simp [Token.isMedia] at hg
          · right
            cases t with
            | license b =>
              refine ⟨(rsegs pr).gap, b, ?_⟩
              rw [hseg, ← hi]; rfl
            | _ => simp [Token.isLicense] at hg
        · rw [hseg, r2]; simp
        · intro x hx hxu
          simp only [Option.some.injEq] at hx
          rw [← hx, hu] at hxu; cases hxu
        · intro x hx hxu
          simp only [Option.some.injEq] at hx
          subst hx
          exact ⟨hc, hT2, pr, htok, by rw [hseg, hi]⟩
        · intro _; rfl
      cases hm : (t.isMedia || t.isLicense) with
      | true =>
        simp only [if_true, List.foldl_cons, List.foldl_nil]
        have := hfin { (is.foldl push (push T i)) with gap := true } rfl hm.symm
        exact ⟨this.1, hprevok, hc, this.2⟩
      | false =>
        simp only [Bool.false_eq_true, if_false, List.foldl_nil]
        have := hfin ((i :: is).foldl push T) rfl (by rw [r3, hm])
        exact ⟨this.1, hprevok, hc, this.2⟩

end Verif.Css
