import Verif.Proofs.EcmaLaid
/-!
# C70: js::minify keeps the ECMAScript tokens
-/
set_option linter.unusedSimpArgs false
namespace Verif.Js
open Spec.Js Spec.Ecma

/-- C70 as stated: a script made of ECMAScript tokens is read as the same tokens after minification, wherever regular expressions may
stand. -/
def C70_full : Prop := ∀ (goal : List Spec.Ecma.Tok → Bool) (s : List Char), Closed s → (∀ t ∈ toks goal s, good t = true) →
  ∃ out, minify s = .ok out ∧ toks goal out = toks goal s

private theorem broken {s o : String} (hc : ∀ l ∈ lex s.toList, isOpen l = false) (hg : (toks usual s.toList).all good = true)
    (hm : minify s.toList = .ok o.toList) (hn : toks usual o.toList ≠ toks usual s.toList) : ¬C70_full := by
  intro h
  obtain ⟨out, h1, h2⟩ := h usual s.toList hc (List.all_eq_true.1 hg)
  rw [hm] at h1
  cases h1
  exact hn h2

/-- `a + +b` becomes `a++b`. -/
theorem C70_full_false : ¬C70_full :=
  broken (s := "a + +b") (o := "a++b") (by decide +kernel) (by decide +kernel) (by decide +kernel) (by decide +kernel)

/-- Further scripts whose tokens change: the blank between a number and a dot, between two parts of an operator, before the dot of a
property access, the comment after a slash that then is a comment of its own, blanks in a regular expression that has a slash in brackets, and
the order of the flags of a regular expression. -/
theorem C70_full_false_more :
    ∀ p ∈ [("1 .toString()", "1.toString()"), ("a - -1", "a--1"), ("a + ++b", "a+++b"), ("a ^ = b", "a ^=b"), ("a ? . b", "a?.b"),
        ("a / /*! l */ b", "a//*! l */b"), ("x = /[/] a/ ;", "x=/[/]a/;"), ("x = /a/ig", "x=/a/gi"), ("x = 010", "x=10")],
      Closed p.1.toList ∧ (toks usual p.1.toList).all good = true ∧ minify p.1.toList = .ok p.2.toList ∧
        toks usual p.2.toList ≠ toks usual p.1.toList := by
  unfold Closed
  decide +kernel

/-- C70, the part that holds. The output has the tokens of the source, without the semicolons at its beginning, if the pieces of the script
that have no gap in them are made of whole tokens and stay apart where one of both texts has no gap (`fits`), no comment has a line or
paragraph separator in it, and numbers have no zeros in front and flags are in order (`shorten l = l`). If there are semicolons at the
beginning, they must not matter for the question where regular expressions may stand. Missing: the scripts above, and those in which a
blank is missing that does not matter for other reasons. -/
theorem C70_tokens_partial (goal : List Spec.Ecma.Tok → Bool) (s : List Char) (h : Closed s) (hodd : ∀ l ∈ lex s, oddComment l = false)
    (hshort : ∀ l ∈ lex s, shorten l = l) (hgoal : semicolons (lex s) ≠ 0 → SemiBlind goal)
    (hf : fits goal [] (pieces (mainPart (lex s))) = true) :
    ∃ out, minify s = .ok out ∧ toks goal s = List.replicate (semicolons (lex s)) (.punct [';']) ++ toks goal out := by
  obtain ⟨P, y, h1, h2, h3, -⟩ := parts_minimal goal h hodd hshort hgoal hf
  refine ⟨_, minify_closed h, ?_⟩
  have h4 : (parts goal s).filterMap id = toks goal s := parts_toks goal _ _ _ (Nat.le_refl _)
  rw [← h4, h1, List.filterMap_append, h2, h3]

/-- In particular, a script without semicolons at its beginning has the same tokens, whatever the rule. -/
theorem C70_same_partial (goal : List Spec.Ecma.Tok → Bool) (s : List Char) (h : Closed s) (hodd : ∀ l ∈ lex s, oddComment l = false)
    (hshort : ∀ l ∈ lex s, shorten l = l) (hsemi : semicolons (lex s) = 0) (hf : fits goal [] (pieces (mainPart (lex s))) = true) :
    ∃ out, minify s = .ok out ∧ toks goal out = toks goal s := by
  obtain ⟨out, h1, h2⟩ := C70_tokens_partial goal s h hodd hshort (fun hn => absurd hsemi hn) hf
  exact ⟨out, h1, by rw [h2, hsemi]; rfl⟩

/-- The usual rule does not depend on semicolons at the beginning. -/
theorem usual_blind : SemiBlind usual := by
  intro hist
  cases hist with
  | nil => rfl
  | cons t hist => cases t <;> rfl

/-- Braces and quotes in regular expressions and comments of a substitution, and divisions. -/
example : toks usual "`${/}`/.test(x)}` `${a / b /* } */ // }`\n}` `${ [/[/`]/] }${ f(1) / 2 }` `${typeof /`/}`; ".toList =
    [.template "`${/}`/.test(x)}`".toList, .template "`${a / b /* } */ // }`\n}`".toList, .template "`${ [/[/`]/] }${ f(1) / 2 }`".toList,
      .template "`${typeof /`/}`".toList, .punct [';']] := by decide +kernel

private def sample : String :=
  "/*! lic */ // c\n let f = ( x , ...y ) => { return /ab/g . test ( x ) ? 1e+5 : `a ${ b.c(/[}\\/]/g) / 2 /* } */ + `c` } d` ; } /* c */\n for ( let i in o ) { z [ i ] >>>= 2 ; w = a ? .5 : b ?. c ; v = \"s\" + 'y' ; } u = /c d/ ;"

private def small : String :=
  "/*! lic */let f=(x,...y)=>{return/ab/g.test(x)?1e+5:`a ${ b.c(/[}\\/]/g) / 2 /* } */ + `c` } d`;}for(let i in o){z[i]>>>=2;w=a?.5:b?.c;v=\"s\"+'y';}u=/c d/;"

/-- Not vacuous. -/
example : Closed sample.toList ∧ (∀ l ∈ lex sample.toList, oddComment l = false) ∧ (∀ l ∈ lex sample.toList, shorten l = l) ∧
    semicolons (lex sample.toList) = 0 ∧ fits usual [] (pieces (mainPart (lex sample.toList))) = true ∧
    minify sample.toList = .ok small.toList ∧ (toks usual small.toList).length = 60 := by
  unfold Closed
  decide +kernel

/-- A script that is protected against the script before it. -/
example : Closed "; // c\n;( function ( ) { x = /a b/ ; } ) ( ) ;".toList ∧
    (∀ l ∈ lex "; // c\n;( function ( ) { x = /a b/ ; } ) ( ) ;".toList, oddComment l = false ∧ shorten l = l) ∧
    semicolons (lex "; // c\n;( function ( ) { x = /a b/ ; } ) ( ) ;".toList) = 2 ∧ SemiBlind usual ∧
    fits usual [] (pieces (mainPart (lex "; // c\n;( function ( ) { x = /a b/ ; } ) ( ) ;".toList))) = true ∧
    minify "; // c\n;( function ( ) { x = /a b/ ; } ) ( ) ;".toList = .ok "(function(){x=/a b/;})();".toList := by
  refine ⟨?_, ?_, ?_, usual_blind, ?_, ?_⟩ <;> first | (unfold Closed; decide +kernel) | decide +kernel

end Verif.Js
