# minifier-rs: formal model and proofs

Target: `/repo` (GuillaumeGomez/minifier-rs, Rust). The code is never built or run here; it is read as
text and transcribed function by function into Lean 4. Everything below `lean/Verif/Model` is the
transcription, `lean/Verif/Spec` holds the independent specifications, `lean/Verif/Proofs` the helper
lemmas and `lean/Verif/Props` the property theorems (one file per area, each theorem followed by an
`example` that meets its hypotheses on a concrete, non-trivial input).

## Trusted base

* Lean 4.33.0's kernel. Axioms: only `propext`, `Quot.sound`, `Classical.choice` (what Mathlib/core use).
  No own axioms, no `sorry`, no `native_decide`, no `bv_decide`.
* The transcription Rust -> Lean (every definition cites file and lines).
* The behaviour attributed to the Rust standard library, listed under "Modelling conventions".

The transcription is checked, not proved, against the repository's own unit tests: `lean/Verif/Tests` replays 123 of them on
the model with `#guard` (evaluated when the file is compiled; no property rests on them). The large test of
`tests/js_minify.rs` was run once outside the build: on `tests/files/main.js` (102 KB) the model gives exactly
`minified_main.js`. Left out: the 100 000 nested backticks of `js/tools.rs` (a test of stack depth, which the model has not)
and the 20 000 strings of `name_generator`.

## Modelling conventions

* `&str` / `String` is `List Char` (Lean's `Char` is a Unicode scalar value, as Rust's `char`).
  Byte offsets are `Nat`; `Char.utf8Size` gives widths. `&s[a..b]` is a partial function: `none`
  (= panic) if `a > b`, out of range, or not on a character boundary.
* `usize` is `Nat`. Additions never overflow (a string is at most `isize::MAX` bytes); subtractions that
  could underflow are checked and give a panic.
* A result is `ok v | err msg | panic`. A panic is a value of the model, so "never panics" is a theorem.
* Loops become structural recursion on the remaining input, or recursion with fuel where the Rust loop
  jumps around in an iterator; for the latter it is proved that the fuel handed out is always enough.
* `HashMap`/`HashSet` iteration order is a parameter wherever the code iterates over one.
* Output: `fmt::Formatter`/`io::Write` is a sequence of `write_all` calls on a sink. A lawful sink is one
  for which a failing `write_all(b)` has appended some prefix of `b`.
* Unicode tables: `char::is_whitespace` is the explicit White_Space set; `char::is_alphabetic` is a
  parameter (any predicate that extends the ASCII letters), so results hold for every Unicode version.
* 64-bit `usize`; the `i32` brace count of the CSS tokenizer is an `Int` (a sheet would need 2^31 braces to overflow it).
* Maps of the aggregation passes are functions on keys together with the list of keys in order of insertion.
* HTML: the crate `regex` is not transcribed; its semantics (leftmost-first: alternatives from left to right, greedy repetitions
  long to short, lazy ones short to long, matches from left to right without overlap) is the definition of `ends` and `cut`.
  No expression used matches the empty text (proved), replacement texts have no `$`. `\w`, `\d` and the lower case of a
  character are parameters (`Tables`), constrained by `Tables.Ok` where needed; `str::to_lowercase` goes character by character
  (the rule for a final `Σ` never gives an ASCII character, and only ASCII ones are searched for). `\s` is White_Space.
* Command line program: a path is a list of bytes (Unix); the file system is a tree without links, where a location is a list
  of names; permissions are one bit for reading and one for writing a file and one for creating entries in a directory;
  directories can always be searched; `room` says after how many bytes a write fails (disk full); the process runs alone.

## Per property: what is modelled, how it is proved

| id | model | proof plan |
|----|-------|------------|
| C01 | `keep_element`, `JsonMultiFilter` as a fold over the characters | inductive grammar of JSON texts; induction on the derivation; partial (the escape counter breaks some strings), negation witness; `JsonExact`: for every value with such a string two texts with different outputs, so that the condition is exact |
| C02 | same | invariant on (in-string, escape counter) with exact condition on bodies |
| C03 | same | induction on input |
| C04 | same | simulation between the two runs; false in general (witness), true when no control character occurs |
| C05, C22, C32 | list of chunks written to a sink | induction on the chunk list |
| C06-C11 | `Buffer`, `InternalReader`, `ByteToChar`, `JsonRead` as state machines over a scripted reader | invariant relating adapter state to the remaining text; false cases as witnesses |
| C12, C13 | CSS tokenizer over (offset, char) pairs | the slice invariant "iterator = suffix of the source at its offset"; independent character-level scanner for errors |
| C14-C16 | tokenizer + `clean_tokens` + `Display` | refinement to a character-level lexer that emits solid items; output re-lexed to the same items |
| C17-C19 | `clean_tokens` | the sheet as marks (solid characters with the gap before each); `keepRule` says for a gap, from the marks alone, whether it stays; simulation of `clean_tokens` against it (CssMarks, CssClean, CssOut); all three false in general (witnesses), true at the sites described in `Spec/CssBlanks` |
| C20 | all of css | the marks of the output are the marks of the source with fewer gaps; `keepRule` gives the same answers on both if the sheet is `stable` (CssIdem); comments are treated like blanks if the sheet is `calm` (CssCalm); false in general (witnesses) |
| C21 | `Display` lengths | induction |
| C23-C27 | JS tokenizer with `MyPeekable` | measure for termination; refinement to a character-level lexer; witnesses for the panics |
| C28, C29, C43 | list functions | induction |
| C30, C31 | `tokens_writer` | case analysis on neighbours; witnesses. `Proofs/JsRead` says when lexemes can be written next to each other, in both directions: what `lex` finds can be written so, and what is written so is found again. Counting the characters that are no blanks shows that a text of the same meaning is read lexeme by lexeme as it was written, so that the condition of C31 is exact |
| C33 | `u64`/`f64` parse of number words | decimal value function |
| C34 | recursion with depth | induction |
| C35 | `VariableNameGenerator` | rank function: each step adds exactly 1 |
| C36-C41 | aggregation passes with association maps | invariant of the collecting loop; resolution function |
| C42 | index arithmetic over the token list | induction |
| C44 | writer | false (witness: comment delimiters are not written) |
| C45-C48, C57-C59 | `cli.rs` over an abstract file system and path model (`Model/Cli`) | paths: `Spec/Cli` gives names, extensions and places by decomposition, `Proofs/CliPath` relates the operations of `std::path` to it; `Proofs/CliFs` proves that the kernel walk ends at `place`, what each step can change (`Change`), and the run by induction over the inputs; `Proofs/CliMake` proves that `create_dir_all` makes what is missing on a clear way (the recursion bound suffices because `parent` is shorter); witnesses for collisions |
| C53, C54 | JS minifier | re-lexing of the output (`JsRelex`), sizes per token (`JsSize`) |
| C55, C56 | aggregation into an array | invariants of the reading and collecting loops (`JsArr`, `JsArrRead`), sizes (`JsAggSize`) |
| C69 | the tokenizer and the cleaning of the minifier (`Model/Css`), through the marks of C17-C20 | `Spec/CssSyntax` is the tokenizer of CSS Syntax Level 3, written from the standard and independent of the minifier. `Proofs/CssSyntax` defines a relation `Rel` between texts that differ only in gaps which keep no tokens apart; `Proofs/CssSame` shows by simulation that related texts have the same tokens; `Proofs/CssSource` splits a source into the texts of its marks and `Proofs/CssTokens` relates it to the output of C19. False as stated, with witnesses |
| C70 | the tokenizer, cleaning and writing of the JS minifier (`Model/JsTools`), through the lexemes of C53 | `Spec/Ecma` is the lexical grammar of ECMAScript, written from the standard and independent of the minifier; whether a slash begins a regular expression is decided by any function of the tokens before. `Proofs/Ecma` shows that a text made of whole tokens can be read on its own if what follows does not change its last token; `Proofs/EcmaLaid` shows that the source and the output consist of the same pieces, with gaps between them, once the semicolons at the beginning of the source are taken off. False as stated, with witnesses |
| C71 | as C70 | `Spec/EcmaLines` reads a script as tokens and line breaks and marks the tokens before which a line break matters, by any rule that looks at the tokens around it; `usualRule` follows automatic semicolon insertion as far as that can be told without a grammar. `Proofs/EcmaParts` and `Proofs/EcmaLaid` compare the gaps of the source with those of the output: line breaks are only left in licences. False as stated, with witnesses |
| C72 | as C31 and C36 | `Spec/JsAggText` says what a reader of the written text should see: the declaration, then the script with literals replaced by names. `Proofs/JsAggText` shows on lexemes that putting names for literals leaves a text that can be read back, `Proofs/JsAggShow` that the tokens made by the aggregation are written as the lexemes they stand for, and `Props/JsAggText` takes the token lists of C36 to lexemes. False as stated: no blank is written before a new name |
| C73 | as C31 and C40 | `Spec/JsArrText` says what a reader of the written text should see. `Proofs/JsArrText` writes the elements of the array and shows that putting them into an array leaves a text that can be read back, `Props/JsArrText` takes the token lists of `array_inserted` to lexemes. False as stated: no blank is written before an element, and contents are put in double quotes as they are |
| C74 | as C44 and C53 | `Spec/JsKeep` says which blanks stay and which semicolons may be missing. `Proofs/JsRelex` reads back texts with blanks in them, `Proofs/JsKeep` shows what `clean_tokens_except` and `Display` write. `Proofs/JsRead` shows that exactly the lists of lexemes that pass `readFrom` are read back. False as stated for the reason of C53 |
| C75 | as C70, C71 and C74 | `Proofs/EcmaLaid` compares two texts made of the same pieces, one with all gaps and one with the blanks that are kept, for any relation between the numbers of line breaks in their gaps. Semicolons that the callback leaves out are left out of the script as well (`pruned`) before the two are compared. False as stated: a line comment takes its line break with it |
| C76 | as C45 - C47 | `Spec/CliMeaning` says when two files mean the same, by RFC 8259, CSS Syntax and the lexical grammar of ECMAScript; `Proofs/JsonUnique` checks that a JSON text denotes one value. Put together from C01, C47, C69, C70 and C71. False as stated, as these are |
| C49-C52, C60-C68 | `html.rs`: every regular expression transcribed into the small syntax `Re`, with a leftmost-first matcher `ends` (`Model/Html`) | `Proofs/HtmlRe` relates the matcher to the language of the expression (sound, complete, induction over the matches of a text); each pass is then related to a relation of `Spec/Html` that determines its result; false ones with witnesses. For C64-C66 and C68 `Spec/HtmlTag` reads a start tag with the states of the HTML standard, and `Spec/HtmlPage` describes a page as a list of texts, tags and comments (a text may have signs `<` that begin no tag, as in `a < b`); `Proofs/HtmlAttr` and `Proofs/HtmlType` follow that reader through `unquote_attributes` and `condense` (a simulation), `Proofs/HtmlPage`, `HtmlPre` and `HtmlSoft` follow a page through all passes. For C67 `Spec/HtmlSettled` says which tags have room after their attributes; `Proofs/HtmlQuotes`, `HtmlThin` and `HtmlUntype` show that each pass over such a tag is a projection, and that the later passes make no work for the earlier ones; `Proofs/HtmlAgain` puts the page together; `Proofs/HtmlAgainPre` has the tags with wide gaps on pages with preformatted text, from the result of C91, and `Proofs/HtmlAgainIff` shows that its condition is necessary: every pass makes a page smaller or leaves it alone |
| C77 | as C68 | `Spec/HtmlInline` reads the elements that contain no tags from a page, and says which scripts and style sheets do not care about the amount of white space. `Proofs/EcmaSoft` and `Proofs/CssSoft` run the readers of `Spec/Ecma` and `Spec/CssSyntax` over a text and the same text with some gaps replaced by one blank; `Proofs/HtmlInline` takes the elements through all passes (C68) and shows that a page without comments can be read in one way only |
| C78 | as C67 | `Spec/HtmlMinimal` lists what is to be gone. Each pass makes a page smaller or leaves it alone (`Proofs/HtmlMinimal`), except for the white space pass, which never makes it larger; so a page that comes out as it went in was changed by no pass, and then no expression of the passes matches in it |
| C79 | as C70 | `Spec/EcmaHashbang` takes the hashbang comment off a script. `Proofs/EcmaHashbang` shows that the output begins with `#!` and that line breaks are only left in literals and licences. False as stated, and for all scripts with code but those |
| C80 | `Spec/Again` repeats a function | A run makes the page smaller or does nothing but replace white space, and replacing white space twice is the same as once; so two runs without a loss are followed by no change (`Proofs/HtmlSettle`). The pages `<bo<bo<body>dy>dy>` need any number of runs |
| C81 | `Spec/Again` repeats a function | On a sheet without comments, a run fills the places where something is printed in any case and glues what follows a colon to it (`Proofs/CssSettle`); the result is `stable`, so C20 applies to the next run. The first run removes the comments. False for `/ *=`, which becomes the beginning of a comment; both numbers of runs are sharp |
| C82 | bytes are counted by `blen` | Every turn of the loop of `tokenize` takes an item, of which there are at most twice as many as characters (those put back come again), and adds at most two tokens, each of which is a slice of the source or at most 22 bytes long (`Proofs/JsBig`). `Proofs/JsSquare` computes the tokens of the scripts `/`, `).` k times, a line feed, `)` k times for all k |
| C83 | `Spec/Again` repeats a function | False: `peek` does not look at the characters that were put back, so that the dots of `/.`, line feed, dots are read twice (`Proofs/JsGrow`, by induction on their number). The part that holds is C53 |
| C84 | `NoAggregates`, `declare`, `Spec.again` | names of rank below 63 + 3844 have two letters, so each literal left was weighed against a name of at most four bytes at its last occurrence; the worth of a literal grows with its count, hence none is chosen in a second run |
| C85 | `content`, `entry`, `sets` of `Spec/JsAgg` | the literals outside of the array that are left were weighed, at their last occurrence, against an index no longer than the final one, and the worth of a literal grows with its count; `get_array` finds the same array before and after (`Proofs/JsArrTwice`) |
| C86 | `lex`, `Closed`, `Safe`, `LooseArray`, `Quotable` | what is read where a token was written (`reread`); `get_array` finds the declared or extended array behind references (`scan_cut`), and the weights of C85 are compared with the index after the last element (`array_again`, `Proofs/JsArrAgain`); the writing is the one of C73 (`Regroup`) |
| C87 | `lex`, `Closed`, `Safe`, `Loose`, `ReservedListed`, `NoLiteralAssigned`, `NoBreak` | the declarations are read back as `declareRead D` and found by `get_variables_name`, and the names of the source are found again, also through blanks and comments (`aggregate_reread`, `Proofs/JsAggReread`); the first free name has a rank at least that of the next name of the first run, so it is not shorter (`gen_inj`, `gen_mono`); the text is the one of C72 (`agg_show`, `agg_text`) |
| C88 | `AllClear`, `StartOk`, `NoSemi` | the two runs go in step: a position `i` among all tokens is `rk ts i` among those that are kept; scans, loops and replacements commute with `rk` (`getVarPositions_rk`, `varsLoop_rk`, `aggLoop_rk`, `aggregate_filter`, `Proofs/JsAggOrder`) |
| C89 | `useless` | the two runs go in step, as for C88; the machine of `get_array` does not move on tokens that are not kept (`arrayScan_rk`), and inserting commutes with `rk` (`insertAll_rk`, `array_filter`, `Proofs/JsArrOrder`); outcomes are compared by `EndsAs`, which includes panics |
| C90 | `Spec/JsRename` (`rename`, `Renames`, `unflagged`), `Spec/Js`, `Spec/JsOut` | replacing tokens is renaming lexemes (`tokOf_rename`); gaps, places and safety do not change (`gap_rename`, `placed_rename`, `safeFrom_rename`, `Proofs/JsRename`), so the text is read back as for C53; cleaning is a filter that sees no difference (`clean_replace`); `C90_iff` uses the exact conditions of C74 (`lex_written`, `written_lex`) |
| C91 | `Spec/HtmlBlanks` (`Chunk`, `spread`, `oneBetween`): a tag as words and widths of gaps | the expressions `\w\s+\w` and `\d\s+>` find exactly the gaps between such characters (`find_spread`); replacing the text of one gap narrows all gaps like it and nothing else (`replaceStr_spread`), so the loop is a fold over widths (`fold_found`, `Proofs/HtmlBlanks`); with gaps of both kinds the first two texts are joined, and found only at the end of the tag (`joined_twin`, `Proofs/HtmlJoined`); the loop over attributes behind quotes likewise, where the text of a gap goes on with the name of the attribute (`find_names`, `replaceStr_names`, `Proofs/HtmlNames`); the quotes go word by word (`quotes_word`, `quotes_spread`), blanks between a quote and the end at once (`Proofs/HtmlClose`); pages as for C65 |
| C92 | as C67 and C91 | `Proofs/HtmlTwice`: after the first run every tag is still or a tag of words without quoted widths and heights, which only the last pass may change; the words of such a tag are steady, so that the second run is its last (`attrs_quiet`, `attrs_fixes`) |
| C93 | `Spec/HtmlBlanks` (`Wide`, `strewn`, `oneEach`, `written`), `Alike` of C68 | condensing only replaces gaps by blanks (`Soft`), and leaves no two white space characters side by side and no line breaks; that determines wide gaps (`soft_wide`, `soft_strewn`, `Proofs/HtmlStrewn`); then the last pass is the one of C91 with no extra blanks (`attrs_out`). In general (`Spec/HtmlTidy`, `Proofs/HtmlTidy`) the last pass over a tag without white space side by side only removes quotes and the blank after the last quote (`tidyTag_open`, `shut_snug`, `quotes_unquotes`) |
| C94 | `Spec/HtmlTidy` (`GapsTo`, `Squeezed`, `Tidied`, `Unquotes`, `snug`), `Rewritten` of C68 | the gaps of the whole page are cut at the brackets (`gaps_cut`, `gaps_spell`, `Proofs/HtmlExact`), each tag is then treated as for C93, after the types of styles and scripts are removed (`Untypes`, `untype_untypes`); every relation determines its result (`gapsTo_det`, `unquotes_det`, `rewritten_det`), which gives the iff |
| C95 | `Spec/HtmlTidy` (`Brushed`), `Rewritten` of C68 | no gap is replaced in the page; each tag without wide gaps loses only white space before its end and quotes (`tagOut_line`, `cond_apart`, `minify_brushed`, `Proofs/HtmlExactPre`); `brushed_det` and `rewritten_same` give the iff; a tag with a wide gap refutes the full statement |

Not modelled: argument parsing by `clap`, `println!`/`eprintln!` texts, memory allocation, `Debug`
implementations, `trait` plumbing (`Deref`, `From`, `Index`), the deprecated alias functions that only forward.

## Do real files meet the hypotheses?

The conditions of the partial theorems were evaluated on files found on the machine. This is no part of the proofs; it only says
how much the theorems cover.

* JavaScript, 755 scripts (npm, jquery, `/repo/tests/files/main.js`, ...), conditions of C70: 516 meet them, `main.js` among them.
  124 end in a line comment without a line break, which the program really writes into the output (C26). 105 others really have
  other tokens after the run (a number, a regular expression or `Infinity` at the end of a line without a semicolon, `+ +t`).
  2 end inside of a string. 8 begin with `#!` (a comment up to the end of the line, since ES2023); they lose that line break (C79).
* HTML, 89 pages: all are `Page`s, and all start tags meet the conditions of C64 and C66; 88 meet those of C67.
* CSS, gitweb.css, _pydoc.css, the style sheets of those pages and the examples of `/repo/src/css/tests.rs`: all 21 meet the conditions of
  C69, and all but _pydoc.css those of C20; that one begins with a comment and really changes in a second run.
