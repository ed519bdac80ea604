import Verif.Props.JsEcma
/-!
# C71: js::minify keeps the line breaks that matter
-/
set_option linter.unusedSimpArgs false
namespace Verif.Js
open Spec.Js Spec.Ecma

/-- C71 as stated: if a script keeps its ECMAScript tokens, then line breaks before which a statement may end and after which another one
may begin are kept as well, and no others appear. -/
def C71_full : Prop := ∀ (goal : List Spec.Ecma.Tok → Bool) (s : List Char), Closed s → (∀ t ∈ toks goal s, good t = true) →
  ∃ out, minify s = .ok out ∧ (toks goal out = toks goal s → lines usualRule goal out = lines usualRule goal s)

private theorem broken {s o : String} (hc : ∀ l ∈ lex s.toList, isOpen l = false) (hg : (toks usual s.toList).all good = true)
    (hm : minify s.toList = .ok o.toList) (ht : toks usual o.toList = toks usual s.toList)
    (hn : lines usualRule usual o.toList ≠ lines usualRule usual s.toList) : ¬C71_full := by
  intro h
  obtain ⟨out, h1, h2⟩ := h usual s.toList hc (List.all_eq_true.1 hg)
  rw [hm] at h1
  cases h1
  exact hn (h2 ht)

/-- Two statements on two lines become `a=b c=d`, which is not a script. -/
theorem C71_full_false : ¬C71_full :=
  broken (s := "a = b\nc = d") (o := "a=b c=d") (by decide +kernel) (by decide +kernel) (by decide +kernel) (by decide +kernel)
    (by decide +kernel)

/-- Further scripts that lose a line break: `return;a` becomes `return a`, `a;++b` becomes `a++b`, a call of a function on the next line,
a definition that ends with a brace, and line breaks in comments. -/
theorem C71_full_false_more :
    ∀ p ∈ [("return\na", "return a"), ("a\n++b", "a++b"), ("x = f\n[1].g()", "x=f[1].g()"), ("x = {}\ny = 2", "x={}y=2"),
        ("f = function() { }\nfunction g() { }", "f=function(){}function g(){}"), ("f() // c\ng()", "f()g()"), ("f() /* c\n */ g()", "f()g()")],
      Closed p.1.toList ∧ (toks usual p.1.toList).all good = true ∧ minify p.1.toList = .ok p.2.toList ∧
        toks usual p.2.toList = toks usual p.1.toList ∧ lines usualRule usual p.2.toList ≠ lines usualRule usual p.1.toList := by
  unfold Closed
  decide +kernel

/-- The main part of a script, its tokens and marks. -/
private theorem lines_front {rule : List Spec.Ecma.Tok → Spec.Ecma.Tok → Bool} {goal : List Spec.Ecma.Tok → Bool} {s : List Char}
    {P y : List (Option Spec.Ecma.Tok)} {k : Nat} (h1 : parts goal s = P ++ y) (h2 : P.filterMap id = List.replicate k (.punct [';']))
    (hr : k ≠ 0 → SemiBlind rule) : ∃ nl, (lines rule goal s).drop k = marked rule [] nl y ∧
      ((lines rule goal s).take k).map (·.2) = List.replicate k (.punct [';']) := by
  have key : ∀ (P : List (Option Spec.Ecma.Tok)) (hist : List Spec.Ecma.Tok) (nl : Bool), ∃ M nl', M.map (·.2) = P.filterMap id ∧
      marked rule hist nl (P ++ y) = M ++ marked rule ((P.filterMap id).reverse ++ hist) nl' y := by
    intro P
    induction P with
    | nil => intro hist nl; exact ⟨[], nl, rfl, rfl⟩
    | cons a P ih =>
      intro hist nl
      cases a with
      | none => exact ih hist true
      | some t =>
        obtain ⟨M, nl', h1, h2⟩ := ih (t :: hist) false
        refine ⟨(nl && rule hist t, t) :: M, nl', ?_, ?_⟩
        · simpa using h1
        · simp only [List.cons_append, marked, h2]
          simp
  obtain ⟨M, nl, h3, h4⟩ := key P [] false
  have hl : M.length = k := by
    have := congrArg List.length h3
    rwa [List.length_map, h2, List.length_replicate] at this
  refine ⟨nl, ?_, ?_⟩
  · rw [lines, h1, h4, List.drop_left' hl, h2, List.reverse_replicate, List.append_nil]
    by_cases hk : k = 0
    · rw [hk]; rfl
    · exact marked_blind (hr hk) y [] nl k
  · rw [lines, h1, h4, List.take_left' hl, h3, h2]

/-- No line break appears at a place where there was none, whatever the rule by which they matter, in the scripts that keep their tokens by
`C70_tokens_partial`. -/
theorem C71_no_new_partial (rule : List Spec.Ecma.Tok → Spec.Ecma.Tok → Bool) (goal : List Spec.Ecma.Tok → Bool) (s : List Char)
    (h : Closed s) (hodd : ∀ l ∈ lex s, oddComment l = false) (hshort : ∀ l ∈ lex s, shorten l = l)
    (hsemi : semicolons (lex s) ≠ 0 → SemiBlind goal ∧ SemiBlind rule) (hf : fits goal [] (pieces (mainPart (lex s))) = true) :
    ∃ out, minify s = .ok out ∧ (lines rule goal out).map (·.2) = ((lines rule goal s).drop (semicolons (lex s))).map (·.2) ∧
      ∀ p ∈ (lines rule goal out).zip ((lines rule goal s).drop (semicolons (lex s))), p.1.1 = true → p.2.1 = true := by
  obtain ⟨P, y, h1, h2, -, h4, -⟩ := parts_minimal goal h hodd hshort (fun hn => (hsemi hn).1) hf
  obtain ⟨nl, h5, -⟩ := lines_front h1 h2 (fun hn => (hsemi hn).2)
  refine ⟨_, minify_closed h, ?_⟩
  rw [h5]
  exact h4.marked [] false nl (fun h => by cases h)

private theorem zip_same : ∀ (x y : List (Bool × Spec.Ecma.Tok)), x.map (·.2) = y.map (·.2) →
    (∀ p ∈ x.zip y, p.1.1 = true → p.2.1 = true) → (∀ p ∈ y, p.1 = false) → x = y
  | [], [], _, _, _ => rfl
  | [], _ :: _, h, _, _ => by simp at h
  | _ :: _, [], h, _, _ => by simp at h
  | (a, t) :: x, (b, u) :: y, h, hz, hy => by
    simp only [List.map_cons, List.cons.injEq] at h
    have h1 := hz ((a, t), (b, u)) (by simp)
    have h2 := hy (b, u) List.mem_cons_self
    simp only at h1 h2
    have h3 := zip_same x y h.2 (fun p hp => hz p (by simp [hp])) (fun p hp => hy p (List.mem_cons_of_mem _ hp))
    rw [h3, h.1, h2]
    rw [h2] at h1
    cases a with
    | true => exact absurd (h1 rfl) (by simp)
    | false => rfl

/-- C71, the part that holds: a script that keeps its tokens by `C70_tokens_partial` and in which no line break matters means the same
after minification, semicolons at its beginning apart. Missing: the scripts above. -/
theorem C71_kept_partial (rule : List Spec.Ecma.Tok → Spec.Ecma.Tok → Bool) (goal : List Spec.Ecma.Tok → Bool) (s : List Char)
    (h : Closed s) (hodd : ∀ l ∈ lex s, oddComment l = false) (hshort : ∀ l ∈ lex s, shorten l = l)
    (hsemi : semicolons (lex s) ≠ 0 → SemiBlind goal ∧ SemiBlind rule) (hf : fits goal [] (pieces (mainPart (lex s))) = true)
    (hquiet : ∀ p ∈ (lines rule goal s).drop (semicolons (lex s)), p.1 = false) :
    ∃ out, minify s = .ok out ∧ lines rule goal out = (lines rule goal s).drop (semicolons (lex s)) := by
  obtain ⟨out, h1, h2, h3⟩ := C71_no_new_partial rule goal s h hodd hshort hsemi hf
  exact ⟨out, h1, zip_same _ _ h2 h3 hquiet⟩

/-- In the same scripts, if no licence extends over several lines and no line break is inside of a piece without gaps, then no line break
at all is left, and so the script means the same only if none mattered. -/
theorem C71_lost_partial (goal : List Spec.Ecma.Tok → Bool) (s : List Char)
    (h : Closed s) (hodd : ∀ l ∈ lex s, oddComment l = false) (hshort : ∀ l ∈ lex s, shorten l = l)
    (hgoal : semicolons (lex s) ≠ 0 → SemiBlind goal) (hf : fits goal [] (pieces (mainPart (lex s))) = true)
    (hlic : ∀ l ∈ lex s, oneLine l = true) (hst : steady goal [] (pieces (mainPart (lex s))) = true) :
    ∃ out, minify s = .ok out ∧ parts goal out = ((toks goal s).drop (semicolons (lex s))).map some ∧
      ∀ rule, (semicolons (lex s) ≠ 0 → SemiBlind rule) →
        (lines rule goal out = (lines rule goal s).drop (semicolons (lex s)) ↔
          ∀ p ∈ (lines rule goal s).drop (semicolons (lex s)), p.1 = false) := by
  obtain ⟨P, y, h1, h2, h3, hless, hsome⟩ := parts_minimal goal h hodd hshort hgoal hf
  have h4 := hsome hlic hst
  have h5 : (parts goal (minimal (lex s))).filterMap id = toks goal (minimal (lex s)) := parts_toks goal _ _ _ (Nat.le_refl _)
  have h6 : (parts goal s).filterMap id = toks goal s := parts_toks goal _ _ _ (Nat.le_refl _)
  refine ⟨_, minify_closed h, ?_, fun rule hr => ⟨fun he p hp => ?_, fun hq => ?_⟩⟩
  · rw [← h6, h1, List.filterMap_append, List.drop_left' (by rw [h2, List.length_replicate]), ← h3, ← h5]
    have : ∀ (x : List (Option Spec.Ecma.Tok)), (∀ p ∈ x, p.isSome = true) → x = (x.filterMap id).map some := by
      intro x
      induction x with
      | nil => intro _; rfl
      | cons a x ih =>
        intro hx
        cases a with
        | none => cases hx none List.mem_cons_self
        | some t =>
          have := ih (fun p hp => hx p (List.mem_cons_of_mem _ hp))
          simpa using this
    exact this _ h4
  · rw [← he] at hp
    unfold lines at hp
    rw [marked_none rule _ [] h4] at hp
    obtain ⟨t, -, rfl⟩ := List.mem_map.1 hp
    rfl
  · obtain ⟨nl, h7, -⟩ := lines_front (rule := rule) h1 h2 hr
    rw [h7] at hq ⊢
    obtain ⟨h8, h9⟩ := hless.marked (rule := rule) [] false nl (fun h => by cases h)
    exact zip_same _ _ h8 h9 hq

/-! The usual rule does not depend on semicolons at the beginning. -/

/-- The same tokens, or with a semicolon at the beginning. -/
private def Rel (h' h : List Spec.Ecma.Tok) : Prop := h' = h ∨ h' = h ++ [.punct [';']]

private theorem Rel.cons {t : Spec.Ecma.Tok} {h h' : List Spec.Ecma.Tok} (hr : Rel h' (t :: h)) : ∃ r, h' = t :: r ∧ Rel r h := by
  rcases hr with rfl | rfl
  · exact ⟨h, rfl, .inl rfl⟩
  · exact ⟨h ++ [.punct [';']], rfl, .inr rfl⟩

private theorem Rel.nil {h' : List Spec.Ecma.Tok} (hr : Rel h' []) : h' = [] ∨ h' = [.punct [';']] := hr

private theorem Rel.before {a b : List Char} (ha : a ≠ [';']) (hb : b ≠ [';']) : ∀ {h' h : List Spec.Ecma.Tok} (n : Nat), Rel h' h →
    Rel (before a b n h') (before a b n h) := by
  intro h' h
  induction h generalizing h' with
  | nil =>
    intro n hr
    rcases hr with rfl | rfl
    · exact .inl rfl
    · left
      simp only [List.nil_append, Spec.Ecma.before, Spec.Ecma.Tok.punct.injEq, if_neg (Ne.symm hb), if_neg (Ne.symm ha)]
  | cons t h ih =>
    intro n hr
    obtain ⟨r, rfl, h2⟩ := hr.cons
    simp only [Spec.Ecma.before]
    split
    · exact ih _ h2
    · split
      · cases n with
        | zero => exact h2
        | succ n => exact ih n h2
      · exact ih n h2

private theorem before_length (a b : List Char) : ∀ (h : List Spec.Ecma.Tok) (n : Nat), (before a b n h).length ≤ h.length := by
  intro h
  induction h with
  | nil => intro n; exact Nat.le_refl _
  | cons t h ih =>
    intro n
    simp only [before]
    have := fun n => Nat.le_succ_of_le (ih n)
    split
    · exact this _
    · split
      · cases n with
        | zero => exact Nat.le_succ _
        | succ n => exact this n
      · exact this n

private def fresh (n : Nat) : List Spec.Ecma.Tok → Bool
  | [] => true
  | .punct p :: r => p == [';'] || p == ['{'] || (p == ['}'] && opensBlock n (before ['{'] ['}'] 0 r))
  | _ => false

private theorem opensBlock_succ (n : Nat) (h : List Spec.Ecma.Tok) : opensBlock (n + 1) h = (fresh n h ||
    match h with
    | .name w :: _ => (["else", "do", "try", "finally"].map String.toList).contains w
    | .punct [')'] :: r =>
      (match before ['('] [')'] 0 r with
       | .name w :: r' =>
         (["if", "for", "while", "switch", "catch", "with"].map String.toList).contains w ||
           (match r' with
            | .name f :: r'' => f == "function".toList && fresh n r''
            | _ => false)
       | _ => false)
    | _ => false) := by
  rw [opensBlock.eq_def]
  cases h with
  | nil => rfl
  | cons t h => cases t <;> rfl

private theorem fresh_rel {n m : Nat} {h' h : List Spec.Ecma.Tok} (hr : Rel h' h)
    (ih : ∀ x' x, Rel x' x → x.length < h.length → opensBlock n x' = opensBlock m x) : fresh n h' = fresh m h := by
  cases h with
  | nil => rcases hr.nil with rfl | rfl <;> rfl
  | cons t h =>
    obtain ⟨r, rfl, h2⟩ := hr.cons
    cases t with
    | punct p =>
      simp only [fresh]
      rw [ih _ _ (h2.before (by decide) (by decide) 0) (Nat.lt_succ_of_le (before_length _ _ _ _))]
    | _ => rfl

private theorem opensBlock_rel : ∀ (n m : Nat) (h' h : List Spec.Ecma.Tok), Rel h' h → h.length < n → h.length < m →
    opensBlock n h' = opensBlock m h := by
  intro n
  induction n with
  | zero => intro m h' h _ hn; omega
  | succ n ih =>
    intro m h' h hr hn hm
    cases m with
    | zero => omega
    | succ m =>
      rw [opensBlock_succ, opensBlock_succ, fresh_rel hr fun x' x hx hl => ih m x' x hx (by omega) (by omega)]
      congr 1
      cases h with
      | nil => rcases hr.nil with rfl | rfl <;> rfl
      | cons t h =>
        obtain ⟨r, rfl, h2⟩ := hr.cons
        cases t with
        | punct p =>
          by_cases hp : p = [')']
          · subst hp
            simp only
            have hb := h2.before (a := ['(']) (b := [')']) (by decide) (by decide) 0
            have hl := before_length ['('] [')'] h 0
            generalize before ['('] [')'] 0 r = x' at hb ⊢
            generalize before ['('] [')'] 0 h = x at hb hl ⊢
            cases x with
            | nil => rcases hb.nil with rfl | rfl <;> rfl
            | cons u x =>
              obtain ⟨y, rfl, hy⟩ := hb.cons
              cases u with
              | name w =>
                simp only
                congr 1
                cases x with
                | nil => rcases hy.nil with rfl | rfl <;> rfl
                | cons u x =>
                  obtain ⟨z, rfl, hz⟩ := hy.cons
                  simp only [List.length_cons] at hl hn hm
                  cases u with
                  | name f => simp only [fresh_rel hz fun x' x hx hl => ih m x' x hx (by omega) (by omega)]
                  | _ => rfl
              | _ => rfl
          · split
            · rename_i heq; cases heq
            · rename_i heq; cases heq; exact absurd rfl hp
            · split
              · rename_i heq; cases heq
              · rename_i heq; cases heq; exact absurd rfl hp
              · rfl
        | _ => rfl

theorem usualRule_blind : SemiBlind usualRule := by
  intro hist
  funext t
  unfold usualRule
  congr 1
  cases hist with
  | nil => rfl
  | cons u h =>
    rw [List.cons_append]
    cases u with
    | punct p =>
      by_cases hp : p = ['}']
      · subst hp
        simp only [mayEnd]
        rw [opensBlock_rel _ (h.length + 1) _ (before ['{'] ['}'] 0 h) (Rel.before (by decide) (by decide) 0 (.inr rfl))]
        · exact Nat.lt_succ_of_le (Nat.le_trans (before_length _ _ _ _) (by simp))
        · exact Nat.lt_succ_of_le (before_length _ _ _ _)
      · have key : ∀ r, mayEnd (.punct p :: r) = ([")", "]", "++", "--"].map String.toList).contains p := by
          intro r
          rw [mayEnd]
          intro h
          exact hp h
        rw [key, key]
    | _ => rfl

private def sample : String :=
  "/*! lic */\nfunction f(a,\n  b) {\n  if (a) {\n    return a\n      .x;\n  }\n  // c\n  for (;;) { b = [1,\n 2]; }\n  return b\n}\nfunction g() { }\nvar x = { y : 1,\n z : function() { } };\nx = `a\nb` +\n 1;\nf();\n"

private def small : String :=
  "/*! lic */function f(a,b){if(a){return a.x;}for(;;){b=[1,2];}return b}function g(){}var x={y:1,z:function(){}};x=`a\nb`+1;f();"

/-- Not vacuous. -/
example : Closed sample.toList ∧ (∀ l ∈ lex sample.toList, oddComment l = false) ∧ (∀ l ∈ lex sample.toList, shorten l = l) ∧
    semicolons (lex sample.toList) = 0 ∧ fits usual [] (pieces (mainPart (lex sample.toList))) = true ∧
    (∀ p ∈ lines usualRule usual sample.toList, p.1 = false) ∧ (∀ l ∈ lex sample.toList, oneLine l = true) ∧
    steady usual [] (pieces (mainPart (lex sample.toList))) = true ∧ minify sample.toList = .ok small.toList ∧
    ((parts usual sample.toList).filter Option.isNone).length = 18 := by
  unfold Closed
  decide +kernel

/-- A script with semicolons at its beginning. -/
example : Closed ";\n;(function() {\n  f();\n})();".toList ∧ semicolons (lex ";\n;(function() {\n  f();\n})();".toList) = 2 ∧
    SemiBlind usual ∧ SemiBlind usualRule ∧ fits usual [] (pieces (mainPart (lex ";\n;(function() {\n  f();\n})();".toList))) = true ∧
    (∀ p ∈ lines usualRule usual ";\n;(function() {\n  f();\n})();".toList, p.1 = false) ∧
    steady usual [] (pieces (mainPart (lex ";\n;(function() {\n  f();\n})();".toList))) = true := by
  refine ⟨?_, ?_, usual_blind, usualRule_blind, ?_, ?_, ?_⟩ <;> first | (unfold Closed; decide +kernel) | decide +kernel

/-- A break in a licence is kept. -/
example : minify "a = 1 /*! l\n */ b = 2".toList = .ok "a=1/*! l\n */b=2".toList ∧
    lines usualRule usual "a=1/*! l\n */b=2".toList = lines usualRule usual "a = 1 /*! l\n */ b = 2".toList ∧
    (lines usualRule usual "a=1/*! l\n */b=2".toList).any (·.1) = true := by decide +kernel

end Verif.Js
