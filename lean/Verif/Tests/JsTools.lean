import Verif.Props.JsAgg

/-! The unit tests of the repository replayed on the model. These are tests of the model, not proofs: no property rests on
them. Each is preceded by the place of the source literal in /repo/src. -/

namespace Verif.Js

-- js/tools.rs:624
#guard (do let ts ← tokenize "var x = [\"a nice string\", \"a nice string\", \"another nice string\", \"cake!\",\n                             \"cake!\", \"a nice string\", \"cake!\", \"cake!\", \"cake!\"];".toList; let ts := cleanTokens ts; let ts ← aggregateIntoArray ts "R".toList none (fun _ => true); pure (display ts)) = Out.ok "var R=[\"a nice string\",\"cake!\"];var x=[R[0],R[0],\"another nice string\",R[1],R[1],R[0],R[1],R[1],R[1]];".toList

-- js/tools.rs:636
#guard (do let ts ← tokenize "var x = [\"a nice string\", \"a nice string\", \"another nice string\", \"cake!\",\n                             \"cake!\", \"a nice string\", \"cake!\", \"cake!\", \"cake!\"];".toList; let ts := cleanTokens ts; let ts ← aggregateIntoArray ts "R".toList (some (.char .backline)) (fun _ => true); pure (display ts)) = Out.ok "var R=[\"a nice string\",\"cake!\"];\nvar x=[R[0],R[0],\"another nice string\",R[1],R[1],R[0],R[1],R[1],R[1]];".toList

-- js/tools.rs:654
#guard (do let ts ← tokenize "var x = [\"a nice string\", \"a nice string\", \"another nice string\", \"another nice string\", \"another nice string\", \"another nice string\",\"cake!\",\"cake!\", \"a nice string\", \"cake!\", \"cake!\", \"cake!\"];".toList; let ts := cleanTokens ts; let ts ← aggregateIntoArray ts "R".toList (some (.char .backline)) (fun _ => true); pure (display ts)) = Out.ok "var R=[\"a nice string\",\"another nice string\",\"cake!\"];\nvar x=[R[0],R[0],R[1],R[1],R[1],R[1],R[2],R[2],R[0],R[2],R[2],R[2]];".toList

-- js/tools.rs:675
#guard (do let ts ← tokenize "var searchIndex = {};searchIndex['duplicate_paths'] = {'aaaaaaaa': 'bbbbbbbb', 'bbbbbbbb': 'aaaaaaaa', 'duplicate_paths': 'aaaaaaaa'};".toList; let ts := cleanTokens ts; let ts ← aggregateIntoArray ts "R".toList (some (.char .backline)) (fun pos => decide (pos < 2) || ts[pos - 1]? != some (.char .openBracket) || ts[pos - 2]? != some (.other "searchIndex".toList)); pure (display ts)) = Out.ok "var R=[\"bbbbbbbb\",\"aaaaaaaa\"];\nvar searchIndex={};searchIndex['duplicate_paths']={R[1]:R[0],R[0]:R[1],'duplicate_paths':R[1]};".toList

-- js/tools.rs:696
#guard (do let ts ← tokenize "var searchIndex = {};searchIndex['duplicate_paths'] = {'aaaaaaaa': 'bbbbbbbb', 'bbbbbbbb': 'aaaaaaaa', 'duplicate_paths': 'aaaaaaaa', 'x': 'duplicate_paths'};".toList; let ts := cleanTokens ts; let ts ← aggregateIntoArray ts "R".toList (some (.char .backline)) (fun pos => decide (pos < 2) || ts[pos - 1]? != some (.char .openBracket) || ts[pos - 2]? != some (.other "searchIndex".toList)); pure (display ts)) = Out.ok "var R=[\"bbbbbbbb\",\"aaaaaaaa\",\"duplicate_paths\"];\nvar searchIndex={};searchIndex['duplicate_paths']={R[1]:R[0],R[0]:R[1],R[2]:R[1],'x':R[2]};".toList

-- js/tools.rs:720
#guard (do let ts ← tokenize "var R=[];var x = [\"a nice string\", \"a nice string\", \"another nice string\", \"cake!\",\n                             \"cake!\", \"a nice string\", \"cake!\", \"cake!\", \"cake!\"];".toList; let ts := cleanTokens ts; let ts ← aggregateIntoArray ts "R".toList none (fun _ => true); pure (display ts)) = Out.ok "var R=[\"a nice string\",\"cake!\"];var x=[R[0],R[0],\"another nice string\",R[1],R[1],R[0],R[1],R[1],R[1]];".toList

-- js/tools.rs:732
#guard (do let ts ← tokenize "var R=[\"a nice string\"];var x = [\"a nice string\", \"a nice string\", \"another nice string\", \"cake!\",\n                             \"cake!\", \"a nice string\", \"cake!\", \"cake!\", \"cake!\"];".toList; let ts := cleanTokens ts; let ts ← aggregateIntoArray ts "R".toList none (fun _ => true); pure (display ts)) = Out.ok "var R=[\"a nice string\",\"cake!\"];var x=[R[0],R[0],\"another nice string\",R[1],R[1],R[0],R[1],R[1],R[1]];".toList

-- js/tools.rs:744
#guard (do let ts ← tokenize "var y = 12;var R=[\"a nice string\"];var x = [\"a nice string\", \"a nice string\", \"another nice string\", \"cake!\",\n                             \"cake!\", \"a nice string\", \"cake!\", \"cake!\", \"cake!\"];".toList; let ts := cleanTokens ts; let ts ← aggregateIntoArray ts "R".toList none (fun _ => true); pure (display ts)) = Out.ok "var y=12;var R=[\"a nice string\",\"cake!\"];var x=[R[0],R[0],\"another nice string\",R[1],R[1],R[0],R[1],R[1],R[1]];".toList

-- js/tools.rs:756
#guard (do let ts ← tokenize "var R=[\"osef1\", \"o2\", \"damn\"];\n                    var x = [\"a nice string\", \"a nice string\", \"another nice string\", \"cake!\",\n                             \"cake!\", \"a nice string\", \"cake!\", \"cake!\", \"cake!\"];".toList; let ts := cleanTokens ts; let ts ← aggregateIntoArray ts "R".toList none (fun _ => true); pure (display ts)) = Out.ok "var R=[\"osef1\",\"o2\",\"damn\",\"a nice string\",\"cake!\"];var x=[R[3],R[3],\"another nice string\",R[4],R[4],R[3],R[4],R[4],R[4]];".toList

-- js/tools.rs:772
#guard (do let ts ← tokenize "var x = [\"a nice string\", \"a nice string\", \"another nice string\", \"cake!\",\n                             \"cake!\", \"a nice string\", \"cake!\", \"cake!\", \"cake!\"];".toList; let ts ← aggregateStrings ts none; pure (display (cleanTokens ts))) = Out.ok "var r_aa=\"a nice string\",r_ba=\"cake!\";var x=[r_aa,r_aa,\"another nice string\",r_ba,r_ba,r_aa,r_ba,r_ba,r_ba];".toList

-- js/tools.rs:787
#guard (do let ts ← tokenize "var r_aa = \"a nice string\"; var x = [\"a nice string\", \"a nice string\",\n                    \"another nice string\", \"cake!\",\n                    \"cake!\", \"a nice string\", \"cake!\", \"cake!\", \"cake!\"];".toList; let ts ← aggregateStrings ts none; pure (display (cleanTokens ts))) = Out.ok "var r_ba=\"cake!\";var r_aa=\"a nice string\";var x=[r_aa,r_aa,\"another nice string\",r_ba,r_ba,r_aa,r_ba,r_ba,r_ba];".toList

-- js/tools.rs:803
#guard (do let ts ← tokenize "var r_aa=1;var x = [\"a nice string\", \"a nice string\", \"another nice string\", \"cake!\",\n                             \"cake!\", \"a nice string\", \"cake!\", \"cake!\", \"cake!\"];".toList; let ts ← aggregateStrings ts none; pure (display (cleanTokens ts))) = Out.ok "var r_ba=\"a nice string\",r_ca=\"cake!\";var r_aa=1;var x=[r_ba,r_ba,\"another nice string\",r_ca,r_ca,r_ba,r_ca,r_ca,r_ca];".toList

-- js/tools.rs:821
#guard (do let ts ← tokenize "var x = [\"a nice string\", \"a nice string\", \"another nice string\", \"cake!\",\n                             \"cake!\", \"a nice string\", \"cake!\", \"cake!\", \"cake!\"];".toList; let ts ← aggregateStrings (cleanTokens ts) (some (.char .backline)); pure (display ts)) = Out.ok "var r_aa=\"a nice string\",r_ba=\"cake!\";\nvar x=[r_aa,r_aa,\"another nice string\",r_ba,r_ba,r_aa,r_ba,r_ba,r_ba];".toList

-- js/tools.rs:837
#guard (do let ts ← tokenize "var x = [1, 2, 3];\nvar y = \"salut\";\nvar z = \"ok!\";".toList; pure (display (cleanTokensExcept (· != .char .backline) ts))) = Out.ok "var x=[1,2,3];\nvar y=\"salut\";\nvar z=\"ok!\"".toList

-- js/tools.rs:857
#guard (do let ts ← tokenize "let x = [ 1, 2, \t3];".toList; pure (display (cleanTokensExcept (fun c => c != .char .space && c != .char .semiColon) ts))) = Out.ok "let x = [ 1, 2, 3];".toList

-- js/tools.rs:876
#guard (do let ts ← tokenize "let x = [ 1, 2, \t3];".toList; pure (display (cleanTokensExcept (fun c => c != .char .tab && c != .char .semiColon) ts))) = Out.ok "let x=[1,2,\t3];".toList

-- js/tools.rs:919
#guard minify "var x = \"\\\\\";".toList = .ok "var x=\"\\\\\";".toList

-- js/tools.rs:926
#guard minify "\nvar foo = \"something\";\n\nvar another_var = 2348323;\n\n// who doesn't like comments?\n/* and even longer comments?\n\nlike\non\na\nlot\nof\nlines!\n\nFun!\n*/\nfunction far_away(x, y) {\n    var x2 = x + 4;\n    return x * x2 + y;\n}\n\n// this call is useless\nfar_away(another_var, 12);\n// this call is useless too\nfar_away(another_var, 12);\n".toList = .ok "var foo=\"something\";var another_var=2348323;function far_away(x,y){var x2=x+4;return x*x2+y;}far_away(another_var,12);far_away(another_var,12);".toList

-- js/tools.rs:961
#guard minify "\n/*! let's keep this license\n *\n * because everyone likes licenses!\n *\n * right?\n */\n\nfunction forEach(data, func) {\n    for (var i = 0; i < data.length; ++i) {\n        func(data[i]);\n    }\n}\n\nforEach([0, 1, 2, 3, 4,\n         5, 6, 7, 8, 9], function (x) {\n            console.log(x);\n         });\n// I think we're done?\nconsole.log('done!');\n".toList = .ok "/*! let's keep this license\n *\n * because everyone likes licenses!\n *\n * right?\n */function forEach(data,func){for(var i=0;i<data.length;++i){func(data[i]);}}forEach([0,1,2,3,4,5,6,7,8,9],function(x){console.log(x);});console.log('done!');".toList

-- js/tools.rs:994
#guard minify "\nsearch_input.onchange = function(e) {\n    // Do NOT e.preventDefault() here. It will prevent pasting.\n    clearTimeout(searchTimeout);\n    // zero-timeout necessary here because at the time of event handler execution the\n    // pasted content is not in the input field yet. Shouldn’t make any difference for\n    // change, though.\n    setTimeout(search, 0);\n};\n".toList = .ok "search_input.onchange=function(e){clearTimeout(searchTimeout);setTimeout(search,0);};".toList

-- js/tools.rs:1011
#guard minify "\nfor (var entry in results) {\n    if (results.hasOwnProperty(entry)) {\n        ar.push(results[entry]);\n    }\n}".toList = .ok "for(var entry in results){if(results.hasOwnProperty(entry)){ar.push(results[entry]);}}".toList

-- js/tools.rs:1024
#guard minify "\nval = val.replace(/\\_/g, \"\");\n\nvar valGenerics = extractGenerics(val);".toList = .ok "val=val.replace(/\\_/g,\"\");var valGenerics=extractGenerics(val);".toList

-- js/tools.rs:1042
#guard minify "return 12;return x;".toList = .ok "return 12;return x;".toList

-- js/tools.rs:1043
#guard minify "t in e".toList = .ok "t in e".toList

-- js/tools.rs:1044
#guard minify "t + 1 in e".toList = .ok "t+1 in e".toList

-- js/tools.rs:1045
#guard minify "t - 1 in e".toList = .ok "t-1 in e".toList

-- js/tools.rs:1046
#guard minify "'a' in e".toList = .ok "'a'in e".toList

-- js/tools.rs:1047
#guard minify "/a/g in e".toList = .ok "/a/g in e".toList

-- js/tools.rs:1048
#guard minify "/a/i in e".toList = .ok "/a/i in e".toList

-- js/tools.rs:1050
#guard minify "t instanceof e".toList = .ok "t instanceof e".toList

-- js/tools.rs:1051
#guard minify "t + 1 instanceof e".toList = .ok "t+1 instanceof e".toList

-- js/tools.rs:1052
#guard minify "t - 1 instanceof e".toList = .ok "t-1 instanceof e".toList

-- js/tools.rs:1053
#guard minify "'a' instanceof e".toList = .ok "'a'instanceof e".toList

-- js/tools.rs:1054
#guard minify "/a/g instanceof e".toList = .ok "/a/g instanceof e".toList

-- js/tools.rs:1055
#guard minify "/a/i instanceof e".toList = .ok "/a/i instanceof e".toList

-- js/tools.rs:1058
#guard minify "function foo() { let x = 12; }".toList = .ok "function foo(){let x=12;}".toList

-- js/tools.rs:1062
#guard minify "\"use strict\";\n\n(function() {\n    const itemTypes = [\n        \"mod\",\n        \"externcrate\",\n        \"import\",\n        \"struct\",\n    ];\n    const TY_PRIMITIVE = itemTypes;\n    function hasOwnPropertyRustdoc() {}\n})();".toList = .ok "\"use strict\";(function(){const itemTypes=[\"mod\",\"externcrate\",\"import\",\"struct\",];const TY_PRIMITIVE=itemTypes;function hasOwnPropertyRustdoc(){}})();".toList

-- js/tools.rs:1081
#guard minify "var x = typeof 'foo';var y = typeof x;case typeof 'foo': 'bla'".toList = .ok "var x=typeof'foo';var y=typeof x;case typeof'foo':'bla'".toList

-- js/tools.rs:1089
#guard minify "if (\"key\" in ev && typeof ev) { return true; }\nif (x in ev && typeof ev) { return true; }\nif (true in ev) { return true; }".toList = .ok "if(\"key\"in ev&&typeof ev){return true;}if(x in ev&&typeof ev){return true;}if(true in ev){return true;}".toList

-- js/tools.rs:1099
#guard minify "( x ) / 2; x / y;x /= y".toList = .ok "(x)/2;x/y;x/=y".toList

-- js/tools.rs:1107
#guard minify "console.log(/MSIE|Trident|Edge/.test(window.navigator.userAgent));".toList = .ok "console.log(/MSIE|Trident|Edge/.test(window.navigator.userAgent));".toList

-- js/tools.rs:1114
#guard minify "function (i, n, a) { i[n].type.replace(/ *;(.|\\s)*/,\"\")===t&&a.push(i[n].MathJax.elementJax);return a}".toList = .ok "function(i,n,a){i[n].type.replace(/ *;(.|\\s)*/,\"\")===t&&a.push(i[n].MathJax.elementJax);return a}".toList

-- js/tools.rs:1121
#guard minify "\n        const a = 123;\n        const b = \"123\";\n        const c = `the number is ${a}  <-- note the spaces here`;\n        const d = `      ${a}         ${b}      `;\n    ".toList = .ok "const a=123;const b=\"123\";const c=`the number is ${a}  <-- note the spaces here`;const d=`      ${a}         ${b}      `;".toList

-- js/tools.rs:1135
#guard minify "for (; b() ;);".toList = .ok "for(;b(););".toList

-- js/tools.rs:1139
#guard minify "while (b());".toList = .ok "while(b());".toList

-- js/tools.rs:1143
#guard minify "\nfunction a() {\n    for (; b() ;);\n    while (b());\n}".toList = .ok "function a(){for(;b(););while(b());}".toList

-- js/tools.rs:1151
#guard minify "\nfunction a() {\n    for (; b() ;);\n}".toList = .ok "function a(){for(;b(););}".toList

-- js/tools.rs:1158
#guard minify "\nfunction a() {\n    while (b());\n}".toList = .ok "function a(){while(b());}".toList


end Verif.Js
