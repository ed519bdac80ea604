import Verif.Props.JsAgg

/-! The unit tests of the repository replayed on the model. These are tests of the model, not proofs: no property rests on
them. Each is preceded by the place of the source literal in /repo/src. -/

namespace Verif.Js

-- js/token.rs:1113
#guard minify "var x = /\"\\.x/g;".toList = .ok "var x=/\"\\.x/g;".toList

-- js/token.rs:1130
#guard minify "var x = /\"\\.x/gigigigig;var x = \"hello\";".toList = .ok "var x=/\"\\.x/gi;var x=\"hello\";".toList

-- js/token.rs:1150
#guard minify "var x = /\"\\.x\\/a/i;".toList = .ok "var x=/\"\\.x\\/a/i;".toList

-- js/token.rs:1167
#guard minify "var x = /\\\\/i;".toList = .ok "var x=/\\\\/i;".toList

-- js/token.rs:1113
#guard (do let ts ← tokenize "var x = /\"\\.x/g;".toList; pure (cleanTokens ts)[3]?) = Out.ok (some (.regex "\"\\.x".toList true false))

-- js/token.rs:1130
#guard (do let ts ← tokenize "var x = /\"\\.x/gigigigig;var x = \"hello\";".toList; pure (cleanTokens ts)[3]?) = Out.ok (some (.regex "\"\\.x".toList true true))

-- js/token.rs:1150
#guard (do let ts ← tokenize "var x = /\"\\.x\\/a/i;".toList; pure (cleanTokens ts)[3]?) = Out.ok (some (.regex "\"\\.x\\/a".toList false true))

-- js/token.rs:1167
#guard (do let ts ← tokenize "var x = /\\\\/i;".toList; pure (cleanTokens ts)[3]?) = Out.ok (some (.regex "\\\\".toList false true))

-- js/token.rs:1187
#guard (do let ts ← tokenize "var x = /a-z /;".toList; pure (cleanTokens ts)[3]?) = Out.ok (some (.regex "a-z ".toList false false))

-- js/token.rs:1202
#guard (do let ts ← tokenize "( x ) / 2; x / y;x /= y".toList; pure (cleanTokens ts)) = Out.ok [.char .openParen, .other "x".toList, .char .closeParen, .op .divide, .number 2, .char .semiColon, .other "x".toList, .op .divide, .other "y".toList, .char .semiColon, .other "x".toList, .op .divideEqual, .other "y".toList]

-- js/token.rs:1224
#guard (do let ts ← tokenize "let x = /x\ny/;".toList; pure (cleanTokens ts)) = Out.ok [.keyword .kLet, .other "x".toList, .op .equal, .op .divide, .other "x".toList, .other "y".toList, .op .divide, .char .semiColon]

-- js/token.rs:1244
#guard (do let ts ← tokenize "true = == 2.3 === 32".toList; pure (cleanTokens ts)) = Out.ok [.keyword .kTrue, .op .equal, .cond .equalTo, .float "2.3".toList, .cond .superEqualTo, .number 32]

-- js/token.rs:1262
#guard (do let ts ← tokenize "var x = 'hello people!'".toList; pure (cleanTokens ts)) = Out.ok [.keyword .kVar, .other "x".toList, .op .equal, .str "'hello people!'".toList]

-- js/token.rs:1278
#guard (do let ts ← tokenize "var x = .12; let y = 4.; var z = 12; .3 4. 'a' let u = 12.2".toList; pure (cleanTokens ts)) = Out.ok [.keyword .kVar, .other "x".toList, .op .equal, .float ".12".toList, .char .semiColon, .keyword .kLet, .other "y".toList, .op .equal, .float "4.".toList, .char .semiColon, .keyword .kVar, .other "z".toList, .op .equal, .number 12, .char .semiColon, .float ".3".toList, .float "4.".toList, .str "'a'".toList, .keyword .kLet, .other "u".toList, .op .equal, .float "12.2".toList]

-- js/token.rs:1312
#guard (do let ts ← tokenize "var x = 12.a;".toList; pure (cleanTokens ts)) = Out.ok [.keyword .kVar, .other "x".toList, .op .equal, .number 12, .char .dot, .other "a".toList, .char .semiColon]

-- js/token.rs:1331
#guard (do let ts ← tokenize "t in e".toList; pure (cleanTokens ts)) = Out.ok [.other "t".toList, .keyword .kIn, .other "e".toList]

-- js/token.rs:1346
#guard (do let ts ← tokenize "100/abc".toList; pure (cleanTokens ts)) = Out.ok [.number 100, .op .divide, .other "abc".toList]

-- js/token.rs:1361
#guard (do let ts ← tokenize "if (!/\\/(contact|legal)\\//.test(a)) {}".toList; pure (cleanTokens ts)) = Out.ok [.keyword .kIf, .char .openParen, .char .exclamationMark, .regex "\\/(contact|legal)\\/".toList false false, .char .dot, .other "test".toList, .char .openParen, .other "a".toList, .char .closeParen, .char .closeParen, .char .openCurly, .char .closeCurly]

-- js/token.rs:1389
#guard (do let ts ← tokenize "/\\/(contact|legal)\\//.test".toList; pure (cleanTokens ts)) = Out.ok [.regex "\\/(contact|legal)\\/".toList false false, .char .dot, .other "test".toList]

-- js/token.rs:1405
#guard (do let ts ← tokenize "/\\*(contact|legal)/.test".toList; pure (cleanTokens ts)) = Out.ok [.regex "\\*(contact|legal)".toList false false, .char .dot, .other "test".toList]

-- js/token.rs:1424
#guard (do let ts ← tokenize "/*(contact|legal)/.test".toList; pure ts) = Out.ok [.comment "(contact|legal)/.test".toList]

-- js/token.rs:1429
#guard (do let ts ← tokenize "/*(contact|legal)/.test*/ a".toList; pure ts) = Out.ok [.comment "(contact|legal)/.test".toList, .char .space, .other "a".toList]

-- js/token.rs:1442
#guard tokenize "/*".toList = .ok [.comment []]

-- js/token.rs:1442
#guard tokenize "a/*".toList = .ok [.other ['a'], .comment []]

-- js/token.rs:1442
#guard tokenize "/*x".toList = .ok [.comment ['x']]

-- js/token.rs:1442
#guard tokenize "/*!".toList = .ok [.license []]


end Verif.Js
