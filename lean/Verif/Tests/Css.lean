import Verif.Props.Css

/-! The unit tests of the repository replayed on the model. These are tests of the model, not proofs: no property rests on
them. Each is preceded by the place of the source literal in /repo/src. -/

namespace Verif.Css

-- css/tests.rs:142
#guard minify asciiAlpha "\n/** Baguette! */\n.b > p + div:hover {\n    background: #fff;\n}\n\na[target = \"_blank\"] {\n    /* I like weird tests. */\n    border: 1px solid yellow   ;\n}\n".toList = .ok "/*! Baguette! */\n.b>p+div:hover{background:#fff;}a[target=\"_blank\"]{border:1px solid yellow;}".toList

-- css/tests.rs:160
#guard minify asciiAlpha "\nh2, h3:not(.impl):not(.method):not(.type) {\n    background-color: #0a042f !important;\n}\n\n:target { background: #494a3d; }\n\n.table-display tr td:first-child {\n    float: right;\n}\n\n/* just some\n * long\n *\n * very\n * long\n * comment :)\n */\n@media (max-width: 700px) {\n    .theme-picker {\n        left: 10px;\n        top: 54px;\n        z-index: 1;\n        background-color: rgba(0,  0  ,  0  ,  0);\n        font: 15px \"SFMono-Regular\", Consolas, \"Liberation Mono\", Menlo, Courier, monospace;\n    }\n}".toList = .ok "h2,h3:not(.impl):not(.method):not(.type){background-color:#0a042f !important;}:target{background:#494a3d;}.table-display tr td:first-child{float:right;}@media (max-width:700px){.theme-picker{left:10px;top:54px;z-index:1;background-color:rgba(0,0,0,0);font:15px \"SFMono-Regular\",Consolas,\"Liberation Mono\",Menlo,Courier,monospace;}}".toList

-- css/tests.rs:197
#guard minify asciiAlpha ".foo { width: calc(100% - 34px); }".toList = .ok ".foo{width:calc(100% - 34px);}".toList

-- css/tests.rs:204
#guard minify asciiAlpha "@container rustdoc (min-width: 1250px) { .foo { width: 100px; } }".toList = .ok "@container rustdoc (min-width:1250px){.foo{width:100px;}}".toList

-- css/tests.rs:211
#guard minify asciiAlpha ".line-numbers .line-highlighted { color: #0a042f !important; }".toList = .ok ".line-numbers .line-highlighted{color:#0a042f !important;}".toList

-- css/tests.rs:218
#guard minify asciiAlpha ".docblock:not(.type-decl) a:not(.srclink) {}".toList = .ok ".docblock:not(.type-decl) a:not(.srclink){}".toList

-- css/tests.rs:225
#guard minify asciiAlpha "@media only screen and (max-width : 600px) {}".toList = .ok "@media only screen and (max-width:600px){}".toList

-- css/tests.rs:232
#guard minify asciiAlpha "@supports not ((text-align-last: justify) or (-moz-text-align-last: justify)) {}".toList = .ok "@supports not ((text-align-last:justify) or (-moz-text-align-last:justify)){}".toList

-- css/tests.rs:239
#guard minify asciiAlpha "#main[data-behavior = \"1\"] {}".toList = .ok "#main[data-behavior=\"1\"]{}".toList

-- css/tests.rs:243
#guard minify asciiAlpha "#main[data-behavior = \"1\"] .aclass".toList = .ok "#main[data-behavior=\"1\"] .aclass".toList

-- css/tests.rs:247
#guard minify asciiAlpha "#main[data-behavior = \"1\"] ul.aclass".toList = .ok "#main[data-behavior=\"1\"] ul.aclass".toList

-- css/tests.rs:254
#guard minify asciiAlpha ".foo { width: calc(130px     + 10%); }".toList = .ok ".foo{width:calc(130px + 10%);}".toList

-- css/tests.rs:258
#guard minify asciiAlpha ".foo { width: calc(130px + (45% - 10% +   (12   *   2px))); }".toList = .ok ".foo{width:calc(130px + (45% - 10% + (12 * 2px)));}".toList

-- css/tests.rs:265
#guard minify asciiAlpha ".test1 {\n    font-weight: 30em;\n}/**/\n.test2 {\n    font-weight: 30em;\n}/**/\n.test3 {\n    font-weight: 30em;\n}/**/".toList = .ok ".test1{font-weight:30em;}.test2{font-weight:30em;}.test3{font-weight:30em;}".toList

-- css/tests.rs:280
#guard minify asciiAlpha "body {\n    background-image: url(data:image/webp;base64,c//S4KP//ZZ/19Uj/UA==);\n}".toList = .ok "body{background-image:url(data:image/webp;base64,c//S4KP//ZZ/19Uj/UA==);}".toList

-- css/tests.rs:289
#guard minify asciiAlpha ".before\\:prose-headings\\:content-\\[\\'\\#\\'\\] :is(:where(h1,h2,h3,h4,h5,h6,th):not(:where([class~=\"not-prose\"] *)))::before{\n  --en-content: '#';\n  content: var(--en-content);\n}".toList = .ok ".before\\:prose-headings\\:content-\\[\\'\\#\\'\\] :is(:where(h1,h2,h3,h4,h5,h6,th):not(:where([class~=\"not-prose\"] *)))::before{--en-content:'#';content:var(--en-content);}".toList

-- css/tests.rs:300
#guard minify asciiAlpha "@import 'i';t{x: #fff;}".toList = .ok "@import 'i';t{x:#fff;}".toList

-- css/tests.rs:307
#guard minify asciiAlpha "x [y] {}".toList = .ok "x [y]{}".toList

-- css/tests.rs:322
#guard minify asciiAlpha ".".toList = .ok ".".toList

-- css/tests.rs:323
#guard minify asciiAlpha "//**/*".toList = .ok "/ *".toList

-- css/tests.rs:324
#guard minify asciiAlpha "1/**/H".toList = .ok "1 H".toList

-- css/tests.rs:325
#guard minify asciiAlpha "*/**/=".toList = .ok "* =".toList

-- css/tests.rs:326
#guard minify asciiAlpha "\\-1".toList = .ok "\\-1".toList

-- css/tests.rs:331
#guard minify asciiAlpha "* .original".toList = .ok "* .original".toList

-- css/tests.rs:333
#guard minify asciiAlpha ".a * .original".toList = .ok ".a * .original".toList

-- css/tests.rs:312, no panic
#guard (match minify asciiAlpha ";-/**ّp".toList with | .panic _ => false | _ => true) = true

-- css/tests.rs:312, no panic
#guard (match minify asciiAlpha "\\֜".toList with | .panic _ => false | _ => true) = true

-- css/tests.rs:320
#guard (match minify asciiAlpha "\"}".toList with | .err _ => true | _ => false) = true

-- css/tests.rs:321
#guard (match minify asciiAlpha "/*}".toList with | .err _ => true | _ => false) = true

-- css/token.rs:705
#guard tokenize asciiAlpha "\n/*! just some license */\n.foo > #bar p:hover {\n    color: blue;\n    background: \"blue\";\n}\n\n/* a comment! */\n@media screen and (max-width: 640px) {\n    .block:hover {\n        display:    block;\n    }\n}".toList = .ok [.license " just some license ".toList, .sel (.cls "foo".toList), .char .superiorThan, .sel (.id "bar".toList), .char .space, .sel (.tag "p".toList), .sel (.pseudoClass "hover".toList), .char .openCurly, .other "color".toList, .char .colon, .other "blue".toList, .char .semiColon, .other "background".toList, .char .colon, .str "\"blue\"".toList, .char .semiColon, .char .closeCurly, .sel (.media "media".toList), .other "screen".toList, .char .space, .other "and".toList, .char .space, .char .openParen, .other "max-width".toList, .char .colon, .other "640px".toList, .char .closeParen, .char .openCurly, .sel (.cls "block".toList), .sel (.pseudoClass "hover".toList), .char .openCurly, .other "display".toList, .char .colon, .other "block".toList, .char .semiColon, .char .closeCurly, .char .closeCurly]

-- css/token.rs:762
#guard tokenize asciiAlpha "\n/** just some license */\na[href*=\"example\"] {\n    background: yellow;\n}\na[href$=\".org\"] {\n  font-style: italic;\n}\nspan[lang|=\"zh\"] {\n    color: red;\n}\na[href^=\"/\"] {\n    background-color: gold;\n}\ndiv[value~=\"test\"] {\n    border-width: 1px;\n}\nspan[lang=\"pt\"] {\n    font-size: 12em; /* I love big fonts */\n}\n".toList = .ok [.license " just some license ".toList, .sel (.tag "a".toList), .char .openBracket, .other "href".toList, .selOp .contains, .str "\"example\"".toList, .char .closeBracket, .char .openCurly, .other "background".toList, .char .colon, .other "yellow".toList, .char .semiColon, .char .closeCurly, .sel (.tag "a".toList), .char .openBracket, .other "href".toList, .selOp .endsWith, .str "\".org\"".toList, .char .closeBracket, .char .openCurly, .other "font-style".toList, .char .colon, .other "italic".toList, .char .semiColon, .char .closeCurly, .sel (.tag "span".toList), .char .openBracket, .other "lang".toList, .selOp .equalsOrStartsWithFollowedByDash, .str "\"zh\"".toList, .char .closeBracket, .char .openCurly, .other "color".toList, .char .colon, .other "red".toList, .char .semiColon, .char .closeCurly, .sel (.tag "a".toList), .char .openBracket, .other "href".toList, .selOp .firstStartsWith, .str "\"/\"".toList, .char .closeBracket, .char .openCurly, .other "background-color".toList, .char .colon, .other "gold".toList, .char .semiColon, .char .closeCurly, .sel (.tag "div".toList), .char .openBracket, .other "value".toList, .selOp .oneAttributeEquals, .str "\"test\"".toList, .char .closeBracket, .char .openCurly, .other "border-width".toList, .char .colon, .other "1px".toList, .char .semiColon, .char .closeCurly, .sel (.tag "span".toList), .char .openBracket, .other "lang".toList, .char .equalSign, .str "\"pt\"".toList, .char .closeBracket, .char .openCurly, .other "font-size".toList, .char .colon, .other "12em".toList, .char .semiColon, .char .closeCurly]

-- css/token.rs:863
#guard tokenize asciiAlpha "@media (max-width: 700px) { color: red; }".toList = .ok [.sel (.media "media".toList), .char .openParen, .other "max-width".toList, .char .colon, .other "700px".toList, .char .closeParen, .char .openCurly, .sel (.tag "color".toList), .char .colon, .other "red".toList, .char .semiColon, .char .closeCurly]

-- css/token.rs:885
#guard tokenize asciiAlpha "@supports not (display: grid) { div { float: right; } }".toList = .ok [.sel (.media "supports".toList), .other "not".toList, .char .space, .char .openParen, .other "display".toList, .char .colon, .other "grid".toList, .char .closeParen, .char .openCurly, .sel (.tag "div".toList), .char .openCurly, .other "float".toList, .char .colon, .other "right".toList, .char .semiColon, .char .closeCurly, .char .closeCurly]

-- css/token.rs:912
#guard tokenize asciiAlpha ".foo { width: calc(100% - 34px); }".toList = .ok [.sel (.cls "foo".toList), .char .openCurly, .other "width".toList, .char .colon, .other "calc".toList, .char .openParen, .other "100%".toList, .char .space, .other "-".toList, .char .space, .other "34px".toList, .char .closeParen, .char .semiColon, .char .closeCurly]

-- css/token.rs:935
#guard tokenize asciiAlpha "x [y]".toList = .ok [.sel (.tag "x".toList), .char .space, .char .openBracket, .other "y".toList, .char .closeBracket]


end Verif.Css
