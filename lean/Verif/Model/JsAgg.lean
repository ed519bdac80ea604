import Verif.Model.JsTools
/-!
# `minifier::js`: aggregation of string literals

Transcription of `src/js/utils.rs` 6-78 and 399-460 and of `src/js/tools.rs` 208-330 and 392-510.

Hash maps become functions or lists of pairs; they are only iterated over after sorting by keys that are pairwise distinct,
so the order of iteration of a Rust map never matters. Sizes are natural numbers: `usize` arithmetic does not overflow as
long as the products of lengths of literals and numbers of occurrences stay below `2 ^ 64`.
-/
namespace Verif.Js

/-! ## Names -/

/-- `VariableNameGenerator`, src/js/utils.rs:6-10. The chain of `lower` boxes is the list of letters; only the outermost one
has a `prepend`. -/
structure Gen where
  prepend : List Char
  letters : List Char
  deriving Repr, DecidableEq

/-- `VariableNameGenerator::new`, utils.rs:13-27. -/
def Gen.new (prepend : List Char) (nbLetter : Nat) : Gen := ⟨prepend, List.replicate (max nbLetter 1) 'a'⟩

/-- `incr_letters`, utils.rs:59-77. `(self.letter as u8) + 1` overflows for U+00FF only, which no generator reaches. -/
def incrLetters : List Char → List Char
  | [] => []
  | c :: r =>
    if c == 'z' then 'A' :: r
    else if c == 'Z' then '0' :: r
    else if c == '9' then
      match r with
      | [] => ['a', 'a']
      | d :: r => 'a' :: incrLetters (d :: r)
    else Char.ofNat (c.toNat % 256 + 1) :: r

/-- `VariableNameGenerator::next`, utils.rs:29-31. -/
def Gen.next (g : Gen) : Gen := { g with letters := incrLetters g.letters }

/-- `VariableNameGenerator::to_string`, utils.rs:33-45. -/
def Gen.toStr (g : Gen) : List Char := g.prepend ++ g.letters

/-! ## Variables of the source -/

/-- What `get_variables_name` collects: the names beginning with `r_` and the literals assigned to them. -/
structure Vars where
  names : List (List Char) := []
  values : List Char → Option (Nat × Nat) := fun _ => none

/-- The `while` loop of `get_variables_name`, src/js/tools.rs:216-235. -/
def varsLoop (ts : List Token) : Nat → Nat → Vars → Out Vars
  | 0, _, _ => noFuel
  | fuel + 1, pos, acc =>
    match ts[pos]? with
    | none => .ok acc
    | some t =>
      if t.isKeyword || t.isOther then
        match getVarPositions ts pos with
        | some (v, some w) =>
          match ts[v]?, ts[w]? with
          | some tv, some tw =>
            match tv.getOther with
            | some name =>
              if !(['r', '_'].isPrefixOf name) then varsLoop ts fuel (w + 1) acc
              else
                let acc := { acc with names := name :: acc.names }
                let acc := match tw.getStr with
                  | some s => { acc with values := fun x => if x = s then some (v, w) else acc.values x }
                  | none => acc
                varsLoop ts fuel (w + 1) acc
            | none =>
              let acc := match tw.getStr with
                | some s => { acc with values := fun x => if x = s then some (v, w) else acc.values x }
                | none => acc
              varsLoop ts fuel (w + 1) acc
          | _, _ => .panic "index out of bounds"
        | _ => varsLoop ts fuel (pos + 1) acc
      else varsLoop ts fuel (pos + 1) acc

/-- `get_variables_name`, tools.rs:209-237. -/
def getVariablesName (ts : List Token) : Out Vars := varsLoop ts (ts.length + 1) 0 {}

/-! ## `aggregate_strings` -/

/-- `while all_variables.contains(&next_name) { var_gen.next(); .. }`, tools.rs:254-257 and 281-284. -/
def freeName (names : List (List Char)) : Nat → Gen → Out Gen
  | 0, _ => noFuel
  | fuel + 1, g => if names.contains g.toStr then freeName names fuel g.next else .ok g

/-- The variables of the loop, tools.rs:244-257. An absent key of `strs` is the empty list; `gen` is the generator of
`next_name`. `validated` has its latest element first. -/
structure Agg where
  strs : List Char → List Nat := fun _ => []
  validated : List (List Char × List Char) := []
  gen : Gen
  toReplace : List (Nat × Nat) := []

/-- The comparison of sizes, tools.rs:275-276: `n` occurrences of a literal of `len` bytes. -/
def worthIt (n len nameLen : Nat) : Bool := decide ((n + 2) * len > nameLen + len + 6 + n * nameLen)

/-- The `for` loop, tools.rs:259-288. -/
def aggLoop (vars : Vars) : Nat → List Token → Agg → Out Agg
  | _, [], st => .ok st
  | pos, t :: ts, st =>
    match t.getStr with
    | none => aggLoop vars (pos + 1) ts st
    | some s =>
      match vars.values s with
      | some (v, w) =>
        if pos ≠ w then aggLoop vars (pos + 1) ts { st with toReplace := st.toReplace ++ [(pos, v)] }
        else aggLoop vars (pos + 1) ts st
      | none =>
        let x := st.strs s ++ [pos]
        let st := { st with strs := fun y => if y = s then x else st.strs y }
        if x.length > 1 && !(st.validated.any fun p => p.1 == s) && worthIt x.length (blen s) (blen st.gen.toStr) then do
          let g ← freeName vars.names (vars.names.length + 1) st.gen.next
          aggLoop vars (pos + 1) ts { st with validated := (s, st.gen.toStr) :: st.validated, gen := g }
        else aggLoop vars (pos + 1) ts st

/-- Insertion into a sorted list, and sorting: `sort_unstable_by`. -/
def insertBy {α : Type} (le : α → α → Bool) (a : α) : List α → List α
  | [] => [a]
  | b :: l => if le a b then a :: b :: l else b :: insertBy le a l

def sortBy {α : Type} (le : α → α → Bool) : List α → List α
  | [] => []
  | a :: l => insertBy le a (sortBy le l)

/-- `a.cmp(b)` is not `Greater`, for strings: byte-wise lexicographic order, which is the order of the code points. -/
def strLe : List Char → List Char → Bool
  | [], _ => true
  | _ :: _, [] => false
  | a :: x, b :: y => if a = b then strLe x y else decide (a.toNat < b.toNat)

/-- `for (token, var_name) in validated { ret.push((var_name, strs.remove(&token).unwrap())) }`, tools.rs:300-303. The keys
are pairwise distinct, so `remove` is a look-up. -/
def collectNew (strs : List Char → List Nat) : List (List Char × List Char) → Out (List (List Char × List Nat))
  | [] => .ok []
  | (s, name) :: l =>
    match strs s with
    | [] => .panic "unwrap on None"
    | p :: ps => do
      let r ← collectNew strs l
      .ok ((name, p :: ps) :: r)

/-- `tokens.0[pos] = t`. -/
def setTok (ts : List Token) (pos : Nat) (t : Token) : Out (List Token) :=
  if pos < ts.length then .ok (ts.set pos t) else .panic "index out of bounds"

/-- `for pos in positions { tokens.0[pos] = t }`. -/
def setAll (t : Token) : List Nat → List Token → Out (List Token)
  | [], ts => .ok ts
  | p :: ps, ts => do
    let ts ← setTok ts p t
    setAll t ps ts

/-- The outer `for`, tools.rs:305-318: the new variables and the tokens. -/
def applyNew : List (List Char × List Nat) → List Token → List Token → Out (List Token × List Token)
  | [], nv, ts => .ok (nv, ts)
  | (name, ps) :: l, nv, ts =>
    match ps.head? with
    | none => .panic "index out of bounds"
    | some p =>
      match ts[p]? with
      | none => .panic "index out of bounds"
      | some t => do
        let nv := nv ++ [if nv.isEmpty then .keyword .kVar else .char .comma, .createdVarDecl (name ++ ['='] ++ t.display)]
        let ts ← setAll (.createdVar name) ps ts
        applyNew l nv ts

/-- `for (to_replace_pos, variable_pos) in to_replace`, tools.rs:322-324. -/
def applyReplace : List (Nat × Nat) → List Token → Out (List Token)
  | [], ts => .ok ts
  | (p, v) :: l, ts =>
    match ts[v]? with
    | none => .panic "index out of bounds"
    | some t => do
      let ts ← setTok ts p t
      applyReplace l ts

/-- `aggregate_strings_inner`, tools.rs:239-330; `aggregate_strings` (352-354) for `none`,
`aggregate_strings_with_separation` (385-390) for `some`. -/
def aggregateStrings (ts : List Token) (sep : Option Token) : Out (List Token) := do
  let vars ← getVariablesName ts
  let g ← freeName vars.names (vars.names.length + 1) (Gen.new ['r', '_'] 2)
  let st ← aggLoop vars 0 ts { gen := g }
  let new ← collectNew st.strs (sortBy (fun a b => strLe a.2 b.2) st.validated)
  let (nv, ts) ← applyNew new [] ts
  let nv := if nv.isEmpty then nv else nv ++ [.char .semiColon]
  let ts ← applyReplace st.toReplace ts
  .ok (nv ++ sep.toList ++ ts)

/-! ## `aggregate_strings_into_array` -/

/-- The phases of `get_array`, utils.rs:405-408; at most one of the flags is set. -/
inductive Phase where
  | start | var | equal | array | values
  deriving Repr, DecidableEq

/-- `s.is_comment() || s.is_white_character()`. -/
def Token.isGap (t : Token) : Bool := t.isComment || t.isWhite

/-- The loop of `get_array`, utils.rs:410-458. `ret` has its last element first. -/
def arrayScan (name : List Char) : Phase → Nat → List Nat → List Token → Option (List Nat × Nat)
  | _, _, _, [] => none
  | .var, pos, ret, t :: ts =>
    match t with
    | .other s => arrayScan name (if s = name then .equal else .start) (pos + 1) ret ts
    | t => arrayScan name (if t.isGap then .var else .start) (pos + 1) ret ts
  | .equal, pos, ret, t :: ts =>
    match t with
    | .op .equal => arrayScan name .array (pos + 1) ret ts
    | t => arrayScan name (if t.isGap then .equal else .start) (pos + 1) ret ts
  | .array, pos, ret, t :: ts =>
    match t with
    | .char .openBracket => arrayScan name .values (pos + 1) ret ts
    | t => arrayScan name (if t.isGap then .array else .start) (pos + 1) ret ts
  | .values, pos, ret, t :: ts =>
    match t with
    | .char .closeBracket => some (ret.reverse, pos)
    | t => arrayScan name .values (pos + 1) (if t.isGap then ret else pos :: ret) ts
  | .start, pos, ret, t :: ts =>
    match t with
    | .keyword .kLet => arrayScan name .var (pos + 1) ret ts
    | .keyword .kVar => arrayScan name .var (pos + 1) ret ts
    | _ => arrayScan name .start (pos + 1) ret ts

/-- `get_array`, utils.rs:399-460. -/
def getArray (ts : List Token) (name : List Char) : Option (List Nat × Nat) := arrayScan name .start 0 [] ts

/-- `&st[1..st.len() - 1]`. -/
def inner (s : List Char) : Out (List Char) :=
  if blen s = 0 then .panic "attempt to subtract with overflow" else sub s 1 (blen s - 1)

/-- An entry of `strs`, tools.rs:405: position in the array, positions in the token list, need of creation. -/
structure Entry where
  index : Nat
  poss : List Nat
  create : Bool
  deriving Repr, DecidableEq

/-- The variables of the function, tools.rs:402-413. `validated` has its latest element first. -/
structure Arr where
  strs : List Char → Option Entry := fun _ => none
  validated : List (List Char) := []
  ignore : List Nat := []
  arrayPos : Nat := 0

/-- `strs.insert(c, e)`. -/
def Arr.put (st : Arr) (c : List Char) (e : Entry) : Arr :=
  { st with strs := fun x => if x = c then some e else st.strs x }

/-- The loop over the values of an array that is already there, tools.rs:414-421. -/
def oldLoop (ts : List Token) : List Nat → Arr → Out Arr
  | [], st => .ok st
  | p :: ps, st =>
    match ts[p]? with
    | none => .panic "index out of bounds"
    | some t =>
      match t.getStr with
      | none => oldLoop ts ps st
      | some s => do
        let c ← inner s
        let st := st.put c ⟨st.arrayPos, [], false⟩
        oldLoop ts ps { st with validated := if st.validated.contains c then st.validated else c :: st.validated
                                ignore := p :: st.ignore, arrayPos := st.arrayPos + 1 }

/-- The comparison of sizes, tools.rs:440-443. -/
def arrayWorthIt (n len nameLen posLen : Nat) : Bool := decide (len * n > (nameLen + posLen + 2) * n + posLen + 2)

/-- The loop over the tokens, tools.rs:424-453. `filter` is the callback with the (unchanged) tokens filled in. -/
def arrLoop (name : List Char) (filter : Nat → Bool) : Nat → List Token → Arr → Out Arr
  | _, [], st => .ok st
  | pos, t :: ts, st =>
    if st.ignore.contains pos then arrLoop name filter (pos + 1) ts st
    else
      match t.getStr with
      | none => arrLoop name filter (pos + 1) ts st
      | some s =>
        if !filter pos then arrLoop name filter (pos + 1) ts st
        else do
          let c ← inner s
          let x := (st.strs c).getD ⟨0, [], true⟩
          let x := { x with poss := x.poss ++ [pos] }
          if x.poss.length > 1 && !st.validated.contains c &&
              arrayWorthIt x.poss.length (blen c) (blen name) (blen (natDisplay st.arrayPos)) then
            let st := st.put c { x with index := st.arrayPos }
            arrLoop name filter (pos + 1) ts { st with validated := c :: st.validated, arrayPos := st.arrayPos + 1 }
          else arrLoop name filter (pos + 1) ts (st.put c x)

/-- `validated.iter().map(|v| (strs[v].0, v))`, tools.rs:471. -/
def indexed (strs : List Char → Option Entry) : List (List Char) → Out (List (Nat × List Char))
  | [] => .ok []
  | c :: l =>
    match strs c with
    | none => .panic "no entry found for key"
    | some e => do
      let r ← indexed strs l
      .ok ((e.index, c) :: r)

/-- `format!("{array_name}[{array_pos}]")`. -/
def arrayRef (name : List Char) (i : Nat) : List Char := name ++ ['['] ++ natDisplay i ++ [']']

/-- The loop over the sorted strings, tools.rs:486-501: `to_replace` and `to_insert`. -/
def planLoop (name : List Char) (strs : List Char → Option Entry) (noOld : Bool) (endBracket : Nat) :
    List (Nat × List Char) → Out (List (Nat × Token) × List (Nat × Token))
  | [] => .ok ([], [])
  | (i, c) :: l =>
    match strs c with
    | none => .panic "no entry found for key"
    | some e => do
      let (rep, ins) ← planLoop name strs noOld endBracket l
      let rep := e.poss.map (fun p => (p, .createdVar (arrayRef name i))) ++ rep
      if !e.create then .ok (rep, ins)
      else
        let entry := (endBracket, Token.createdVar ('"' :: c ++ ['"']))
        if l.isEmpty && noOld then .ok (rep, entry :: ins)
        else .ok (rep, entry :: (endBracket, .char .comma) :: ins)

/-- `for (pos, rep) in to_replace { tokens.0[pos] = rep }`, tools.rs:503-505. -/
def replaceAll : List (Nat × Token) → List Token → Out (List Token)
  | [], ts => .ok ts
  | (p, t) :: l, ts => do
    let ts ← setTok ts p t
    replaceAll l ts

/-- `for (pos, rep) in to_insert { tokens.0.insert(pos, rep) }`, tools.rs:506-508. -/
def insertAll : List (Nat × Token) → List Token → Out (List Token)
  | [], ts => .ok ts
  | (p, t) :: l, ts =>
    if p ≤ ts.length then insertAll l (ts.take p ++ t :: ts.drop p) else .panic "insertion index out of bounds"

/-- `aggregate_strings_into_array_inner`, tools.rs:392-510. -/
def aggregateIntoArray (ts : List Token) (name : List Char) (sep : Option Token) (filter : Nat → Bool) : Out (List Token) := do
  let (old, recreate, endBracket) := match getArray ts name with
    | some (s, p) => (s, false, p)
    | none => ([], true, 0)
  let st ← oldLoop ts old {}
  let st ← arrLoop name filter 0 ts st
  let validated ← indexed st.strs st.validated
  let validated := sortBy (fun a b => decide (b.1 ≤ a.1)) validated
  let create := recreate && !validated.isEmpty
  let head : List (Nat × Token) := if create then
      (sep.toList.map fun t => (0, t)) ++
        [(0, .char .semiColon), (0, .char .closeBracket), (0, .char .openBracket),
          (0, .createdVarDecl ("var ".toList ++ name ++ ['=']))]
    else []
  let (rep, ins) ← planLoop name st.strs old.isEmpty (if create then 2 else endBracket) validated
  let ts ← replaceAll rep ts
  insertAll (head ++ ins) ts

end Verif.Js
