import Verif.Props.JsAgg

/-! The unit tests of the repository replayed on the model. These are tests of the model, not proofs: no property rests on
them. Each is preceded by the place of the source literal in /repo/src. -/

namespace Verif.Js

/-- The loop of the test at utils.rs:491-518: every answer of `getVarPositions`, resuming after the name found. -/
def positions : Nat → Nat → List Token → List (Nat × Option Nat)
  | 0, _, _ => []
  | fuel + 1, pos, ts =>
    if ts.length ≤ pos then []
    else match getVarPositions ts pos with
      | some x => x :: positions fuel (x.1 + 1) ts
      | none => positions fuel (pos + 1) ts

/-- The loop of the test at utils.rs:545-568: the tokens `cleanToken` keeps, with `null` replaced. -/
def useful : List Token → List Token
  | [] => []
  | t :: ts => if cleanToken t ts.head? then (if t = .keyword .kNull then .other ['N'] else t) :: useful ts else useful ts

-- js/utils.rs:467
#guard (do let ts ← tokenize "var x = [  ]; var y = ['hello',\n    12]; var z = []; var w = 12;".toList; pure ((getArray ts "x".toList).map (·.2))) = Out.ok (some 9)

-- js/utils.rs:467
#guard (do let ts ← tokenize "var x = [  ]; var y = ['hello',\n    12]; var z = []; var w = 12;".toList; pure ((getArray ts "y".toList).map (·.2))) = Out.ok (some 27)

-- js/utils.rs:467
#guard (do let ts ← tokenize "var x = [  ]; var y = ['hello',\n    12]; var z = []; var w = 12;".toList; pure ((getArray ts "z".toList).map (·.2))) = Out.ok (some 37)

-- js/utils.rs:467
#guard (do let ts ← tokenize "var x = [  ]; var y = ['hello',\n    12]; var z = []; var w = 12;".toList; pure ((getArray ts "w".toList).map (·.2))) = Out.ok (none)

-- js/utils.rs:467
#guard (do let ts ← tokenize "var x = [  ]; var y = ['hello',\n    12]; var z = []; var w = 12;".toList; pure ((getArray ts "W".toList).map (·.2))) = Out.ok (none)

-- js/utils.rs:491
#guard (do let ts ← tokenize "var x = 1;var y   =   \"2\",we=4;".toList; pure (positions ts.length 0 ts)) = Out.ok [(2, some 6), (10, some 18), (20, some 22)]

-- js/utils.rs:507
#guard (do let ts ← tokenize "var x = 1;var y   =   \"2\",we=4;".toList; let ts := cleanTokens ts; pure (positions ts.length 0 ts)) = Out.ok [(1, some 3), (6, some 8), (10, some 12)]

-- js/utils.rs:522
#guard (do let ts ← tokenize "\nvar x = ['a', 'b', null, 'd', {'x': null, 'e': null, 'z': 'w'}];\nvar n = null;\n".toList; pure (display (replaceTokensWith (fun t => if t = .keyword .kNull then some (.other ["N".front]) else none) (cleanTokens ts)))) = Out.ok "var x=['a','b',N,'d',{'x':N,'e':N,'z':'w'}];var n=N;".toList

-- js/utils.rs:545
#guard (do let ts ← tokenize "\nvar x = ['a', 'b', null, 'd', {'x': null, 'e': null, 'z': 'w'}];\nvar n = null;\n".toList; pure (display (useful ts))) = Out.ok "var x=['a','b',N,'d',{'x':N,'e':N,'z':'w'}];var n=N;".toList


end Verif.Js
