{"id": "C01", "title": "json::minify yields the compact form of the same JSON value", "statement": "If s is a JSON text (RFC 8259) for a value v, laid out with any insignificant whitespace, then json::minify(s).to_string() is the compact text of v: same tokens, same string literals, no whitespace between tokens.", "quantifier": "every JSON value (any nesting), every choice of whitespace between its tokens, every legal string body", "why_tests_cant": "values, nesting depth and string bodies are unbounded; the escape handling fails only for particular distances between an escaped quote and the closing quote", "anchors": ["src/json/mod.rs:minify", "src/json/string.rs:JsonMultiFilter", "src/json/json_minifier.rs:keep_element"]}
{"id": "C02", "title": "a JSON string literal is recognised as exactly one literal", "statement": "While json::minify scans a string literal, it kept the scanner inside the string up to the closing quote and is outside right after it, so every character of the literal that is not an ASCII control character is kept. Stated with the exact set of bodies for which this is true.", "quantifier": "every string body and every text following it", "why_tests_cant": "the set of bodies is infinite and the failing ones are characterised by a position condition, not by an example", "anchors": ["src/json/json_minifier.rs:is_whitespace_outside_string"]}
{"id": "C03", "title": "json::minify only deletes, and only whitespace or control characters", "statement": "The output of json::minify is a subsequence of the input, every deleted character is Unicode whitespace or an ASCII control character, and in particular the output is never longer than the input.", "quantifier": "every input string, valid JSON or not", "why_tests_cant": "needs all inputs, including malformed ones", "anchors": ["src/json/json_minifier.rs:keep_element", "src/json/string.rs:JsonMultiFilter::next"]}
{"id": "C04", "title": "json::minify is idempotent", "statement": "json::minify(json::minify(s)) = json::minify(s).", "quantifier": "every input string", "why_tests_cant": "fails only when a deleted control character made a backslash and a quote adjacent, which sampling does not hit", "anchors": ["src/json/json_minifier.rs:keep_element"]}
{"id": "C05", "title": "json::Minified::write and to_string agree, at every failure point of the sink", "statement": "If the writer accepts everything, Minified::write leaves exactly to_string() in it and returns Ok. If the writer fails at any moment, write returns Err and what the writer holds is a prefix of to_string().", "quantifier": "every input, every (lawful) writer and every point at which it fails", "why_tests_cant": "the failure point is arbitrary", "anchors": ["src/json/string.rs:write", "src/json/string.rs:fmt"]}
{"id": "C06", "title": "streaming JSON minification equals whole-string minification", "statement": "Reading minify_from_read(r) to the end gives the UTF-8 bytes of minify(text), where text is what r delivers, whatever the sizes of the buffers passed to read.", "quantifier": "every text, every sequence of non-empty caller buffer sizes, every reader that fills the buffer it is given until end of file", "why_tests_cant": "the result depends on where buffer boundaries fall inside multi-byte characters", "anchors": ["src/json/read/json_read.rs:read", "src/json/read/json_read.rs:add_char_to_buffer"]}
{"id": "C07", "title": "streaming JSON minification does not depend on how the source is chunked", "statement": "The bytes obtained from minify_from_read(r) do not depend on how many bytes each call to r.read delivers.", "quantifier": "every text and every way of splitting it into short reads", "why_tests_cant": "every partition of the input is a different schedule", "anchors": ["src/json/read/internal_reader.rs:next", "src/json/read/internal_buffer.rs:cont"]}
{"id": "C08", "title": "JsonRead::read honours the io::Read contract on buffer bounds", "statement": "read returns Ok(n) with n at most the length of the buffer, writes only the first n bytes, and returns Ok(0) without consuming anything when the buffer is empty.", "quantifier": "every reachable state of the adapter, every reader (with short reads and errors), every buffer", "why_tests_cant": "adapter states are unbounded", "anchors": ["src/json/read/json_read.rs:read"]}
{"id": "C09", "title": "end of stream is sticky", "statement": "Once JsonRead::read has returned Ok(0) for a non-empty buffer, every later read returns Ok(0).", "quantifier": "every history of reads over every reader", "why_tests_cant": "quantifies over histories", "anchors": ["src/json/read/json_read.rs:read"]}
{"id": "C10", "title": "errors of the source are reported, not turned into a panic", "statement": "Whatever errors the underlying reader returns and whatever bytes it delivers, a sequence of calls to JsonRead::read never panics; a source error surfaces as Err.", "quantifier": "every reader behaviour (data, short reads, errors, in any order), every sequence of calls", "why_tests_cant": "the panic needs a second call after an error at one particular moment", "anchors": ["src/json/read/json_read.rs:read", "src/json/read/byte_to_char.rs:next"]}
{"id": "C11", "title": "UTF-8 decoding is exact", "statement": "The stream decoder behind minify_from_read turns the UTF-8 encoding of any text into exactly that text, for any internal buffer size, and reports an error on every byte sequence that is not valid UTF-8.", "quantifier": "every byte sequence and every buffer size >= 1", "why_tests_cant": "2^8n byte sequences, plus every alignment with the buffer", "anchors": ["src/json/read/byte_to_char.rs:ByteToChar::next", "src/json/read/byte_to_char.rs:UTF8_CHAR_WIDTH"]}
{"id": "C12", "title": "css::minify never panics", "statement": "css::minify(s) returns Ok or Err for every string s: no slice is out of range or off a character boundary, no index is out of range.", "quantifier": "every input string", "why_tests_cant": "all strings, all multi-byte alignments", "anchors": ["src/css/token.rs:tokenize", "src/css/token.rs:get_comment", "src/css/token.rs:get_string", "src/css/token.rs:fill_other"]}
{"id": "C13", "title": "css::minify fails exactly on malformed input", "statement": "css::minify(s) is Err exactly when a left-to-right scan of s meets an unclosed string, an unclosed comment, a '}' without '{', a '[' inside '[' or a ']' without '[' (outside strings, comments and escapes); otherwise it is Ok. The message names the first such problem.", "quantifier": "every input string", "why_tests_cant": "iff over all strings", "anchors": ["src/css/token.rs:tokenize"]}
{"id": "C14", "title": "css::minify preserves the content: only blanks and ordinary comments go", "statement": "If css::minify(s) is Ok(out), then out and s have the same sequence of words, punctuation, string literals, escapes and licence comments; they differ only by whitespace and ordinary comments, and no two words separated in s are joined in out.", "quantifier": "every accepted stylesheet", "why_tests_cant": "needs every token sequence, including pairs whose separator is dropped", "anchors": ["src/css/token.rs:tokenize", "src/css/token.rs:clean_tokens"]}
{"id": "C15", "title": "CSS string literals survive verbatim", "statement": "The string literals of s, with their quotes and escapes, appear verbatim and in order in css::minify(s).", "quantifier": "every accepted stylesheet", "why_tests_cant": "string contents are arbitrary", "anchors": ["src/css/token.rs:get_string"]}
{"id": "C16", "title": "CSS licence comments survive, ordinary comments vanish", "statement": "Every /*! ... */ or /** ... */ comment of s appears in css::minify(s) with the same body, in order, and no ordinary comment does.", "quantifier": "every accepted stylesheet", "why_tests_cant": "comment bodies are arbitrary", "anchors": ["src/css/token.rs:get_comment", "src/css/token.rs:clean_tokens"]}
{"id": "C17", "title": "the descendant combinator survives", "statement": "A blank that separates two compound selectors in s still separates them in css::minify(s).", "quantifier": "every accepted stylesheet, every pair of neighbouring compound selectors", "why_tests_cant": "depends on every pair of neighbouring token kinds", "anchors": ["src/css/token.rs:clean_tokens"]}
{"id": "C18", "title": "blanks inside calc() survive", "statement": "Inside calc( ... ) every blank of s that stands between two tokens is kept as exactly one blank (CSS requires blanks around + and -), at any nesting depth of parentheses.", "quantifier": "every stylesheet, every nesting depth", "why_tests_cant": "nesting is unbounded", "anchors": ["src/css/token.rs:clean_tokens"]}
{"id": "C19", "title": "css::minify leaves no removable blank around braces, semicolons and commas", "statement": "Outside calc() the output of css::minify has no blank directly before or after a reserved character such as { } ; , : > unless that blank is one of the listed significant ones.", "quantifier": "every accepted stylesheet", "why_tests_cant": "minimality is a claim about every pair of tokens", "anchors": ["src/css/token.rs:clean_tokens"]}
{"id": "C20", "title": "css::minify is idempotent", "statement": "css::minify(css::minify(s)) = css::minify(s).", "quantifier": "every accepted stylesheet", "why_tests_cant": "needs all token sequences", "anchors": ["src/css/token.rs:tokenize", "src/css/token.rs:clean_tokens"]}
{"id": "C21", "title": "css::minify does not grow its input", "statement": "The output of css::minify is at most as long as the input (up to one newline per licence comment and one blank per at-keyword).", "quantifier": "every accepted stylesheet", "why_tests_cant": "needs all inputs", "anchors": ["src/css/token.rs:Display"]}
{"id": "C22", "title": "css::Minified::write and to_string agree at every failure point of the sink", "statement": "As C05, for css::Minified.", "quantifier": "every input, every lawful writer, every failure point", "why_tests_cant": "failure point is arbitrary", "anchors": ["src/css/token.rs:Tokens::write"]}
{"id": "C23", "title": "js::minify terminates on every input", "statement": "The JavaScript tokenizer, with its regex look-ahead buffer, stops on every input after a number of steps bounded by the input length.", "quantifier": "every input string", "why_tests_cant": "termination is not testable", "anchors": ["src/js/token.rs:tokenize", "src/js/token.rs:MyPeekable"]}
{"id": "C24", "title": "js::minify never panics", "statement": "js::minify(s) returns Ok or Err for every string s.", "quantifier": "every input string", "why_tests_cant": "panics need a multi-byte character or a failed regex at one particular place", "anchors": ["src/js/token.rs:get_comment", "src/js/token.rs:get_line_comment", "src/js/token.rs:check_if_number", "src/js/token.rs:MyPeekable::peek"]}
{"id": "C25", "title": "the byte-offset JavaScript tokenizer refines a character-level lexer", "statement": "For every source that a simple character-level lexer accepts (closed comments, strings, templates and regexes), js::tokenize returns exactly the token list of that lexer.", "quantifier": "every lexically well-formed source", "why_tests_cant": "refinement over all sources", "anchors": ["src/js/token.rs:tokenize"]}
{"id": "C26", "title": "JavaScript comments never reach the output", "statement": "No text of an ordinary comment of s appears in js::minify(s); /*! licence comments are kept with their body.", "quantifier": "every source", "why_tests_cant": "comment bodies and positions are arbitrary", "anchors": ["src/js/token.rs:get_line_comment", "src/js/token.rs:get_comment", "src/js/utils.rs:clean_tokens"]}
{"id": "C27", "title": "JavaScript string, template and regex literals survive verbatim", "statement": "The string and template literals of s appear verbatim and in order in js::minify(s), and regex literals keep their body.", "quantifier": "every lexically well-formed source", "why_tests_cant": "literal contents are arbitrary", "anchors": ["src/js/token.rs:get_string", "src/js/token.rs:get_backtick_string", "src/js/token.rs:get_regex"]}
{"id": "C28", "title": "clean_tokens removes exactly comments, blanks and leading semicolons", "statement": "js::clean_tokens(ts) is ts without comments and blanks and without the semicolons that would then come first; nothing else changes and the order is kept; applying it twice changes nothing more.", "quantifier": "every token list", "why_tests_cant": "all lists", "anchors": ["src/js/utils.rs:clean_tokens"]}
{"id": "C29", "title": "clean_tokens_except agrees with clean_tokens when the callback objects to nothing", "statement": "clean_tokens_except(ts, f) keeps every token clean_tokens keeps, and with a callback that never objects it equals clean_tokens(ts).", "quantifier": "every token list and callback", "why_tests_cant": "all lists and callbacks", "anchors": ["src/js/utils.rs:clean_tokens_except"]}
{"id": "C30", "title": "words are not glued together by the JavaScript writer", "statement": "In the text written for any token list, two neighbouring identifier-like tokens (keywords, identifiers, numbers, generated names) are separated by a blank.", "quantifier": "every token list", "why_tests_cant": "all pairs of neighbouring tokens", "anchors": ["src/js/token.rs:tokens_writer", "src/js/token.rs:get_required", "src/js/token.rs:requires_before"]}
{"id": "C31", "title": "operators are not glued together by the JavaScript writer", "statement": "js::minify never joins two operators that were separated in the source into a different operator.", "quantifier": "every source", "why_tests_cant": "all pairs of neighbouring tokens", "anchors": ["src/js/token.rs:tokens_writer", "src/js/utils.rs:clean_tokens"]}
{"id": "C32", "title": "js::Minified::write and to_string agree at every failure point of the sink", "statement": "As C05, for js::Minified.", "quantifier": "every token list, every lawful writer, every failure point", "why_tests_cant": "failure point is arbitrary", "anchors": ["src/js/token.rs:Tokens::write"]}
{"id": "C33", "title": "number literals keep their value", "statement": "An integer literal of the source is written back as a literal of the same value; a floating literal is written back verbatim.", "quantifier": "every literal", "why_tests_cant": "all digit strings", "anchors": ["src/js/token.rs:fill_other"]}
{"id": "C34", "title": "template nesting is bounded", "statement": "Recursion on nested template literals is never deeper than 1000 levels; inputs nested no deeper are never rejected for it and deeper ones give Err.", "quantifier": "every source", "why_tests_cant": "stack depth is driven by input length", "anchors": ["src/js/token.rs:get_backtick_string"]}
{"id": "C35", "title": "generated variable names never repeat and are valid identifiers", "statement": "The names produced by the generator behind aggregate_strings are pairwise distinct forever, all start with r_ and continue with ASCII letters and digits only.", "quantifier": "every number of generated names", "why_tests_cant": "the sequence is infinite", "anchors": ["src/js/utils.rs:VariableNameGenerator"]}
{"id": "C36", "title": "aggregate_strings only replaces literals by references to the same literal", "statement": "After aggregate_strings the original tokens are all still there in order, except that some string literals were replaced: each replacement is either a generated name declared in the new prelude, once, with exactly that literal, or an existing variable to which the token list assigns exactly that literal.", "quantifier": "every token list", "why_tests_cant": "all lists; sharing between literals is global", "anchors": ["src/js/tools.rs:aggregate_strings_inner", "src/js/tools.rs:get_variables_name"]}
{"id": "C37", "title": "aggregate_strings never reuses a name already declared", "statement": "No generated name equals the name of a variable the source already declares.", "quantifier": "every token list", "why_tests_cant": "all lists", "anchors": ["src/js/tools.rs:aggregate_strings_inner", "src/js/tools.rs:get_variables_name"]}
{"id": "C38", "title": "aggregate_strings terminates and never panics", "statement": "aggregate_strings returns for every token list: the search for a free name stops and no map look-up fails.", "quantifier": "every token list", "why_tests_cant": "termination; all lists", "anchors": ["src/js/tools.rs:aggregate_strings_inner"]}
{"id": "C39", "title": "aggregation only happens when it saves space", "statement": "The text written after aggregate_strings (or the array variant) is never longer than the text written without it.", "quantifier": "every token list", "why_tests_cant": "needs all counts and lengths", "anchors": ["src/js/tools.rs:aggregate_strings_inner", "src/js/tools.rs:aggregate_strings_into_array_inner"]}
{"id": "C40", "title": "aggregate_strings_into_array: R[i] is the string it replaced", "statement": "After aggregate_strings_into_array every R[i] that was put in place of a literal indexes an array element with the same contents, and all other tokens are unchanged.", "quantifier": "every token list, array name and filter", "why_tests_cant": "index bookkeeping is global", "anchors": ["src/js/tools.rs:aggregate_strings_into_array_inner", "src/js/utils.rs:get_array"]}
{"id": "C41", "title": "the array filter is respected", "statement": "A literal for which the filter returns false is left in place by aggregate_strings_into_array_filter.", "quantifier": "every token list and filter", "why_tests_cant": "all filters", "anchors": ["src/js/tools.rs:aggregate_strings_into_array_inner"]}
{"id": "C42", "title": "get_variable_name_and_value_positions returns real positions", "statement": "If it returns (n, Some(v)) then n is an identifier token, v a literal or identifier token, pos <= n < v < len, and the tokens between them are blanks or comments and exactly one '='. If it returns (n, None) a ',' or ';' follows n.", "quantifier": "every token list and position", "why_tests_cant": "all lists", "anchors": ["src/js/utils.rs:get_variable_name_and_value_positions"]}
{"id": "C43", "title": "replace_tokens_with is a pointwise replacement", "statement": "replace_tokens_with keeps the number and order of tokens; each token is replaced by the callback's answer if there is one and kept otherwise; replace_token_with is the same for one token.", "quantifier": "every token list and callback", "why_tests_cant": "all callbacks", "anchors": ["src/js/utils.rs:replace_tokens_with", "src/js/utils.rs:replace_token_with"]}
{"id": "C44", "title": "writing the untouched token list reproduces the source", "statement": "simple_minify(s).to_string() is the source text again.", "quantifier": "every source", "why_tests_cant": "all sources", "anchors": ["src/js/tools.rs:simple_minify", "src/js/token.rs:Display"]}
{"id": "C45", "title": "the CLI recognises file types by extension, ASCII case-insensitively", "statement": "Without -t a path is processed as CSS, JS or JSON exactly if its extension is css, js or json up to ASCII case; any other path is skipped without touching the file system. With -t the extension is ignored.", "quantifier": "every path", "why_tests_cant": "all paths", "anchors": ["src/cli.rs:FileType::from", "src/cli.rs:write_out_file"]}
{"id": "C46", "title": "the CLI does not overwrite its input", "statement": "Without -o the output path differs from the input path, lies in the same directory and has the extension min.css, min.js or min.json.", "quantifier": "every input path and type", "why_tests_cant": "all paths", "anchors": ["src/cli.rs:write_out_file"]}
{"id": "C47", "title": "every processed file ends up with its own minified content", "statement": "After a run over several files, each input's output file holds the minified content of that input and no other file changed.", "quantifier": "every list of inputs and every file system", "why_tests_cant": "interaction between several inputs", "anchors": ["src/cli.rs:Cli::init", "src/cli.rs:write_out_file"]}
{"id": "C48", "title": "a failed minification does not destroy an existing output file", "statement": "If minification of an input fails, the file at the output path is what it was before.", "quantifier": "every file system, every input", "why_tests_cant": "crash point", "anchors": ["src/cli.rs:write_out_file"]}
{"id": "C49", "title": "html::minify output has no surrounding whitespace", "statement": "html::minify(s) neither starts nor ends with whitespace.", "quantifier": "every input", "why_tests_cant": "all inputs", "anchors": ["src/html.rs:minify"]}
{"id": "C50", "title": "html::minify removes ordinary comments and keeps conditional ones", "statement": "The comment pass replaces each <!-- ... --> by one blank unless its text starts with '[', in which case it is kept verbatim; nothing else changes.", "quantifier": "every input", "why_tests_cant": "all inputs", "anchors": ["src/html.rs:remove_comments"]}
{"id": "C51", "title": "html whitespace condensation leaves pages with pre or textarea alone", "statement": "If the page contains <pre or <textarea (any case), the whitespace pass only trims the ends; otherwise it leaves no line break, no run of two blanks.", "quantifier": "every input", "why_tests_cant": "all inputs", "anchors": ["src/html.rs:condense_whitespace"]}
{"id": "C52", "title": "html tag removal removes all the listed tags", "statement": "After the tag pass none of the listed tags is left in the text.", "quantifier": "every input", "why_tests_cant": "removal can create new occurrences", "anchors": ["src/html.rs:clean_unneeded_tags"]}
{"id": "C53", "title": "js::minify is idempotent", "statement": "Minifying the output of js::minify again changes nothing.", "quantifier": "every source", "why_tests_cant": "all sources; gluing of neighbouring tokens creates new ones", "anchors": ["src/js/mod.rs:minify", "src/js/token.rs:tokens_writer", "src/js/utils.rs:clean_tokens"]}
{"id": "C54", "title": "js::minify does not make a script larger", "statement": "The output of js::minify has at most as many bytes as the source.", "quantifier": "every source", "why_tests_cant": "all sources; the writer adds blanks of its own", "anchors": ["src/js/token.rs:tokens_writer", "src/js/utils.rs:clean_tokens"]}
{"id": "C55", "title": "aggregate_strings_into_array does not panic on tokens of a script", "statement": "For the tokens of any script whose regex literals are closed, and any array name, separator and filter, aggregate_strings_into_array_filter returns.", "quantifier": "every script, name, separator and filter", "why_tests_cant": "slices and indices depend on the whole token list", "anchors": ["src/js/tools.rs:aggregate_strings_into_array_inner", "src/js/utils.rs:get_array"]}
{"id": "C56", "title": "aggregate_strings_into_array does not make a script larger", "statement": "The tokens returned by aggregate_strings_into_array_filter, written out, have at most as many bytes as the tokens given.", "quantifier": "every token list, name and filter", "why_tests_cant": "the comparison of sizes leaves out the declaration and is not made for elements that are there already", "anchors": ["src/js/tools.rs:aggregate_strings_into_array_inner"]}
{"id": "C57", "title": "the CLI leaves its input as it is", "statement": "Processing a file leaves the content of that file as it was, whatever the options and whether or not minification succeeds.", "quantifier": "every file system, every input, every option", "why_tests_cant": "all file systems and failures", "anchors": ["src/cli.rs:write_out_file", "src/main.rs:main"]}
{"id": "C58", "title": "running the CLI twice is the same as running it once", "statement": "A second run with the same arguments leaves every file as the first run left it.", "quantifier": "every list of inputs, every file system, every option", "why_tests_cant": "interaction between two runs over all file systems", "anchors": ["src/cli.rs:write_out_file"]}
{"id": "C59", "title": "one bad input does not keep the CLI from processing the others", "statement": "Every input is processed, and an input that cannot be processed is as if it had not been given.", "quantifier": "every list of inputs, every file system", "why_tests_cant": "all orders of good and bad inputs", "anchors": ["src/cli.rs:write_out_file", "src/main.rs:main"]}
{"id": "C60", "title": "html::minify never panics", "statement": "html::minify returns for every source text; in particular the byte slices [1..] it takes always fall on character boundaries.", "quantifier": "every input", "why_tests_cant": "all Unicode inputs", "anchors": ["src/html.rs:unquote_attributes", "src/html.rs:minify"]}
{"id": "C61", "title": "html::minify never makes a page larger", "statement": "The result has at most as many bytes as the source.", "quantifier": "every input", "why_tests_cant": "all inputs", "anchors": ["src/html.rs:minify"]}
{"id": "C62", "title": "html::minify invents nothing", "statement": "Leaving white space aside, the characters of the result are characters of the source in the same order: something may be left out, nothing is added, changed or moved.", "quantifier": "every input", "why_tests_cant": "all inputs", "anchors": ["src/html.rs:minify"]}
{"id": "C63", "title": "html::minify of a text without tags", "statement": "For a source without '<' the result is the source with each gap of two or more white space characters and each line break replaced by one blank, and trimmed.", "quantifier": "every input without '<'", "why_tests_cant": "all inputs", "anchors": ["src/html.rs:minify", "src/html.rs:condense_whitespace"]}
{"id": "C64", "title": "html::minify drops only type attributes without effect", "statement": "The pass condense removes type attributes of script and style tags only where they state the default; everything else is kept.", "quantifier": "every input", "why_tests_cant": "all attribute values and positions", "anchors": ["src/html.rs:condense"]}
{"id": "C65", "title": "html::minify keeps preformatted text", "statement": "On a page with <pre or <textarea every character outside of tags and comments is kept as it is (apart from the white space at the ends of the page).", "quantifier": "every input", "why_tests_cant": "all inputs", "anchors": ["src/html.rs:minify", "src/html.rs:condense_whitespace", "src/html.rs:unquote_attributes"]}
{"id": "C66", "title": "html::minify keeps the attributes of tags", "statement": "A browser reads the same attribute names and values from a tag before and after the pass unquote_attributes.", "quantifier": "every tag", "why_tests_cant": "all attribute lists", "anchors": ["src/html.rs:unquote_attributes"]}
{"id": "C67", "title": "html::minify is idempotent", "statement": "Minifying the result again changes nothing.", "quantifier": "every input", "why_tests_cant": "all inputs", "anchors": ["src/html.rs:minify"]}
{"id": "C68", "title": "html::minify keeps the tags and the text between them", "statement": "Apart from comments and the listed tags, the result has the same tags as the source, in the same order and with the same attributes, and the same text between them up to the amount of white space.", "quantifier": "every page made of texts, tags and comments", "why_tests_cant": "all pages", "anchors": ["src/html.rs:minify"]}
{"id": "C69", "title": "css::minify keeps the CSS tokens", "statement": "A style sheet without parse errors that is accepted is read, by the tokenizer of CSS Syntax Level 3 and with white space and comments left out, as the same tokens after minification. This is what fuzz/fuzz_targets/cssparser.rs checks on random inputs.", "quantifier": "every style sheet", "why_tests_cant": "all style sheets; the fuzzer samples them", "anchors": ["src/css/token.rs:clean_tokens", "src/css/token.rs:tokenize", "fuzz/fuzz_targets/cssparser.rs:fuzz"]}
{"id": "C70", "title": "js::minify keeps the ECMAScript tokens", "statement": "A script made of ECMAScript tokens is read, by the lexical grammar of ECMAScript and with white space, line terminators and comments left out, as the same tokens after minification, wherever regular expressions may stand.", "quantifier": "every script in which literals and comments are closed, and every rule that tells from the tokens before whether a regular expression may follow", "why_tests_cant": "all scripts; the existing tests compare whole outputs of samples", "anchors": ["src/js/token.rs:tokenize", "src/js/utils.rs:clean_tokens", "src/js/token.rs:Tokens"]}
{"id": "C71", "title": "js::minify keeps the line breaks that matter", "statement": "If a script keeps its ECMAScript tokens, then a line break (a line terminator or a comment over several lines) before which a statement may end and after which another one may begin, as automatic semicolon insertion sees it, is kept, and no other one appears.", "quantifier": "every script in which literals and comments are closed, and every rule that tells from the tokens before whether a regular expression may follow", "why_tests_cant": "all scripts; that a line break is lost only shows when the output is run", "anchors": ["src/js/token.rs:tokenize", "src/js/utils.rs:clean_tokens", "src/js/token.rs:Tokens"]}
{"id": "C72", "title": "The text of a script with aggregated strings is read as it was meant", "statement": "If strings are aggregated as the documentation shows and the tokens are written, then the text is read as a declaration of new names for literals, followed by the lexemes of the script, where some literals are replaced by the name that stands for them: a literal of the declaration by its name everywhere, other literals at most by a variable of the script to which they are assigned.", "quantifier": "every script in which literals and comments are closed and whose minified text can be read back, and every separation token that cleaning removes", "why_tests_cant": "all scripts; the existing tests compare token lists or whole outputs of samples, and a name that is glued to a word shows only when the text is read again", "anchors": ["src/js/tools.rs:aggregate_strings_inner", "src/js/tools.rs:aggregate_strings", "src/js/tools.rs:aggregate_strings_with_separation", "src/js/token.rs:Tokens"]}
{"id": "C73", "title": "The text of a script with strings aggregated into an array is read as it was meant", "statement": "If strings are aggregated into an array as the documentation shows and the tokens are written, then the text is read as the lexemes of the script, where some literals are replaced by an element of the array with the index of their content, and the new elements, each of which is the content of at least two literals, stand in a declaration before the script or at the end of the array that the script has.", "quantifier": "every script in which literals and comments are closed and whose minified text can be read back, every identifier as the name of the array, every filter and every separation token that cleaning removes", "why_tests_cant": "all scripts, names and filters; the existing tests compare whole outputs of samples, and an element that is glued to a word or a content with a quote shows only when the text is read again", "anchors": ["src/js/tools.rs:aggregate_strings_into_array_inner", "src/js/tools.rs:aggregate_strings_into_array", "src/js/tools.rs:aggregate_strings_into_array_with_separation", "src/js/utils.rs:get_array", "src/js/token.rs:Tokens"]}
{"id": "C74", "title": "The text of a script cleaned by clean_tokens_except is read as it was meant", "statement": "If a script is cleaned by clean_tokens_except with a callback that does not keep comments and the tokens are written, then the text is read as the lexemes of the script and the blanks that the callback keeps, in their order. Only semicolons at the beginning, before a closing brace and at the end are missing, and those only if the callback does not keep them; blanks are put in only where two words would touch.", "quantifier": "every script in which literals and comments are closed, every callback that does not keep comments", "why_tests_cant": "all scripts and callbacks; the existing tests compare the outputs of three samples, and lexemes that run into each other show only when the text is read again", "anchors": ["src/js/utils.rs:clean_tokens_except", "src/js/utils.rs:get_next_except", "src/js/token.rs:Tokens"]}
{"id": "C75", "title": "clean_tokens_except with line breaks kept leaves the meaning of a script alone", "statement": "If a script is cleaned with a callback that keeps line breaks and semicolons, as the documentation of clean_tokens_except suggests for line breaks, and the ECMAScript tokens stay the same, then every line break before which a statement may end and after which another one may begin is still there, and no other one appears.", "quantifier": "every script in which literals and comments are closed, every callback that keeps line breaks, every rule by which line breaks matter and regular expressions are told from divisions", "why_tests_cant": "all scripts and callbacks; whether a line break matters depends on the tokens around it, and the tests compare only texts", "anchors": ["src/js/utils.rs:clean_tokens_except", "src/js/utils.rs:get_next_except", "src/js/token.rs:Tokens", "src/js/token.rs:tokenize"]}
{"id": "C76", "title": "The files the program writes mean what the files it read mean", "statement": "If the program is run over valid JSON, CSS and JavaScript files and nothing gets in its way, each output file holds a text with the meaning of its input: a JSON text of the same value, a style sheet of the same CSS tokens, a script of the same ECMAScript tokens with the same line breaks where they matter (empty statements at its beginning aside).", "quantifier": "every file system, every number of input files, every content, with and without -o", "why_tests_cant": "all contents and file systems at once; the existing tests look at the minifiers alone", "anchors": ["src/cli.rs:write_out_file", "src/cli.rs:get_all_data", "src/json/mod.rs:minify", "src/css/mod.rs:minify", "src/js/tools.rs:minify"]}
{"id": "C77", "title": "Scripts and style sheets inside of a page keep their meaning", "statement": "html::minify leaves every script and every style sheet of a page in place, and each of them has the same ECMAScript tokens with the same line breaks where they matter, or the same CSS tokens, as before.", "quantifier": "every page of texts, tags and comments, with any number of inline scripts and style sheets of any content", "why_tests_cant": "the passes know nothing of scripts and style sheets; whether white space inside of them may be changed depends on strings, comments, regular expressions and escapes; the tests contain no inline script", "anchors": ["src/html.rs:minify", "src/html.rs:condense_whitespace", "src/html.rs:remove_comments"]}
{"id": "C78", "title": "html::minify leaves nothing to be done", "statement": "In the result of html::minify no comment but conditional ones, no listed tag, no type of a style or script tag, no quotes around a width or height that does not need them, no white space between a quote and the end of a tag and, without preformatted text, no line break and no run of white space is left.", "quantifier": "every page", "why_tests_cant": "the passes run once and one after the other; whether a later pass brings back what an earlier one looks for depends on how tags, comments and quotes are nested", "anchors": ["src/html.rs:minify", "src/html.rs:unquote_attributes", "src/html.rs:condense", "src/html.rs:clean_unneeded_tags"]}
{"id": "C79", "title": "js::minify keeps hashbang comments and the code after them", "statement": "A script that begins with a hashbang comment (`#!` up to the end of the line) still begins with one after minification, and the code after it has the same ECMAScript tokens as before.", "quantifier": "every script in which literals and comments are closed, and every rule that tells from the tokens before whether a regular expression may follow", "why_tests_cant": "all scripts; the existing tests have no script with a hashbang, and a lost line break only shows when the output is run", "anchors": ["src/js/token.rs:tokenize", "src/js/utils.rs:clean_tokens", "src/js/token.rs:Tokens"]}
{"id": "C80", "title": "repeated runs of html::minify come to an end", "statement": "When html::minify is applied to its own result again and again, the page stops changing after finitely many runs (at most twice its size in bytes plus one), and then nothing is left of what html::minify is to remove.", "quantifier": "every page and all character tables", "why_tests_cant": "all pages; one run is not enough in general and no fixed number of runs is, so that only an argument about every run can tell that the process ends", "anchors": ["src/html.rs:minify", "src/html.rs:condense_whitespace", "src/html.rs:clean_unneeded_tags", "src/html.rs:unquote_attributes"]}
{"id": "C81", "title": "three runs of css::minify are enough", "statement": "If css::minify accepts a style sheet, it accepts its own results, and the result of the third run is not changed by any further run.", "quantifier": "every style sheet that is accepted and all tables of letters", "why_tests_cant": "all style sheets; one run and two runs are not enough in general, so that a bound needs an argument about how every decision about a blank depends on the other gaps", "anchors": ["src/css/token.rs:tokenize", "src/css/token.rs:clean_tokens", "src/css/token.rs:Display for Tokens", "src/css/mod.rs:minify"]}
{"id": "C82", "title": "the result of js::minify is at most quadratic in the script", "statement": "Whenever js::minify returns, its result written as text has at most (4n+2)(n+22) bytes for a script of n bytes, and no linear bound holds.", "quantifier": "every script, also malformed ones", "why_tests_cant": "all scripts; characters can be read several times after an unfinished regular expression, so that only an argument about the reader as a whole bounds the number and the sizes of the tokens", "anchors": ["src/js/token.rs:tokenize", "src/js/token.rs:MyPeekable", "src/js/token.rs:fill_other", "src/js/token.rs:Display for Tokens"]}
{"id": "C83", "title": "repeated runs of js::minify come to an end", "statement": "When js::minify is applied to its own result again and again, there is a run after which the script does not change any more.", "quantifier": "every script", "why_tests_cant": "all scripts and any number of runs; that a script grows forever cannot be seen from finitely many runs", "anchors": ["src/js/token.rs:tokenize", "src/js/token.rs:MyPeekable", "src/js/token.rs:get_regex", "src/js/mod.rs:minify"]}
{"id": "C84", "title": "A second aggregation of strings changes nothing", "statement": "Running aggregate_strings on the tokens it has produced gives these tokens again: whatever it decided to leave as a literal stays a literal, no second declaration is put in front, and no name is given twice. (False when the script itself has names that begin with r_: the var put in front by the first run makes the second one find declarations that it did not see before.)", "quantifier": "all token lists, all separations, and every number of runs", "why_tests_cant": "The decision about a literal depends on how often it was seen so far and on how long the names already are; that none of the literals left would be chosen in a second run needs an argument about all of these moments, for all scripts.", "anchors": ["src/js/tools.rs:get_variables_name", "src/js/tools.rs:aggregate_strings_inner", "src/js/tools.rs:aggregate_strings", "src/js/tools.rs:aggregate_strings_with_separation"]}
{"id": "C85", "title": "A second aggregation of strings into an array changes nothing", "statement": "Running aggregate_strings_into_array on the tokens it has produced, with the same array, gives these tokens again; and two runs with different filters leave one declaration of the array.", "quantifier": "all token lists, array names, separations and (for the second part) filters", "why_tests_cant": "Whether a literal is worth a reference depends on its number of occurrences and on how many digits the next index has at that moment; the failure needs ten elements before it shows, and the rest is about all scripts.", "anchors": ["src/js/tools.rs:aggregate_strings_into_array_inner", "src/js/utils.rs:get_array", "src/js/tools.rs:aggregate_strings_into_array_filter"]}
{"id": "C86", "title": "Aggregating a written script into an array again changes no lexeme", "statement": "If a script is cleaned, aggregated into an array and written, then doing the same with the text that was written gives the same lexemes: the array is found again, and no literal that was left is worth an element of it now.", "quantifier": "all scripts and array names", "why_tests_cant": "The second run reads what the first one wrote, so it depends on how every declaration, reference and element is read back, and on the weights of all literals that were left with the index that is next then; how many digits the indices have does not matter any more, which no number of examples shows.", "anchors": ["src/js/tools.rs:aggregate_strings_into_array_inner", "src/js/utils.rs:get_array", "src/js/token.rs:tokenize", "src/js/token.rs:Display for Tokens"]}
{"id": "C87", "title": "Aggregating the strings of a written script again changes nothing", "statement": "If a script is cleaned, its strings are aggregated and it is written, then doing the same with the text that was written gives this text again: the names that were declared are found, no literal is replaced by a name a second time, and no literal that was left is worth the next name.", "quantifier": "all scripts", "why_tests_cant": "The second run reads the declarations that the first one wrote and weighs every literal that was left against the first name that is still free then; this has to hold for any number of literals, also when names of two letters have run out, and for all ways in which names and literals can stand next to each other.", "anchors": ["src/js/tools.rs:aggregate_strings_inner", "src/js/tools.rs:get_variables_name", "src/js/token.rs:tokenize", "src/js/token.rs:Display for Tokens"]}
{"id": "C88", "title": "Cleaning before or after aggregating strings gives the same", "statement": "Whether the tokens of a script are cleaned before or after its strings are aggregated, the tokens and the text that is written are the same: the same declarations are found, the same literals are worth a name, and the same names are given.", "quantifier": "all scripts and all separations that are cleaned away", "why_tests_cant": "Positions of tokens, of names and of values are all different in the two runs, and declarations are looked for with three different rules about which blanks and comments may be passed over; agreement on some scripts says nothing about where blanks, comments and line breaks can stand in others.", "anchors": ["src/js/tools.rs:aggregate_strings_inner", "src/js/tools.rs:get_variables_name", "src/js/utils.rs:get_variable_name_and_value_positions", "src/js/utils.rs:clean_tokens"]}
{"id": "C89", "title": "Cleaning before or after aggregating strings into an array gives the same", "statement": "Whether tokens are cleaned before or after their strings are aggregated into an array, the outcome is the same: the same array is found, the same literals go into it at the same indices, and the program stops in the same cases. The only condition is that the first token that cleaning keeps is not a semicolon: one that comes first is dropped by cleaning, but not behind a declaration that was put in front of it.", "quantifier": "all token lists and texts that do not begin with a semicolon, all array names, all separations that are cleaned away, all filters that answer the same for the same token", "why_tests_cant": "The array is looked for by a machine with five states that passes over comments and blanks in each of them, and new elements are inserted at a position that is not the same in the two runs; every place where a blank can stand would have to be tried in combination with every other one.", "anchors": ["src/js/tools.rs:aggregate_strings_into_array_inner", "src/js/utils.rs:get_array", "src/js/utils.rs:clean_tokens"]}
{"id": "C90", "title": "A script with replaced words is read as the renamed script", "statement": "If names and keywords of a script are replaced by identifiers, as the documentation of `replace_tokens_with` shows for `null`, then the text that is written is read as the minified script with these words renamed and nothing else changed; it can be minified again without a change; renaming the words back gives the minified script; and it does not matter whether tokens are replaced before or after they are cleaned.", "quantifier": "all closed scripts whose minified form can be read back, all ways to rename words; for the order of replacing and cleaning all token lists and callbacks", "why_tests_cant": "Blanks are written depending on the kinds of two neighbouring tokens, and a replaced keyword is no longer a keyword; whether a word glues to its neighbours has to be known for every neighbour, every keyword and every new name.", "anchors": ["src/js/utils.rs:replace_tokens_with", "src/js/utils.rs:clean_tokens", "src/js/token.rs:Display for Tokens"]}
{"id": "C91", "title": "html::minify leaves one blank between the words of a tag on pages with preformatted text", "statement": "On a page with <pre or <textarea, where white space is not condensed as a whole, several blanks between two word characters of a start tag become one blank, and so do several blanks between a quote and the attribute behind it and between a digit and the end of the tag; the other characters of the tag are kept, but for the quotes of widths and heights.", "quantifier": "all pages with preformatted text, all start tags of words and blanks, all widths of gaps", "why_tests_cant": "The program collects the texts of the gaps first and then replaces each of them everywhere in the tag; whether a replacement hits another gap, or whether a gap is missed since it overlaps the one before, depends on all gaps of the tag.", "anchors": ["src/html.rs:unquote_attributes"]}
{"id": "C92", "title": "two runs of html::minify are enough for pages with preformatted text", "statement": "If a page has a pre or textarea tag, the third run of html::minify gives the result of the second.", "quantifier": "every page of texts, tags and comments with a pre or textarea tag", "why_tests_cant": "all pages, any number of words and blanks in their tags", "anchors": ["src/html.rs:minify", "src/html.rs:unquote_attributes"]}
{"id": "C93", "title": "html::minify leaves exactly one blank between the words of a tag", "statement": "On a page without pre and textarea, a tag of a name and words keeps its name and words in order, with exactly one blank before each word; widths and heights in quotes lose them, white space between a quote and the end of the tag is removed, and nothing else in the tag changes.", "quantifier": "every page of texts, tags and comments without a pre or textarea tag, every tag of words on it", "why_tests_cant": "any number of words, any kind and amount of white space between them, any other contents of the page", "anchors": ["src/html.rs:minify", "src/html.rs:condense_whitespace", "src/html.rs:unquote_attributes"]}
{"id": "C94", "title": "the result of html::minify for a page without preformatted text", "statement": "The result for a page of texts, tags and comments is exactly the page with comments replaced by blanks, the optional tags dropped, the type attributes of style and script tags removed, every gap between two tags, of two or more white space characters or of a line break replaced by one blank, the white space between a quote and the end of a start tag removed, widths and heights of letters, digits and -_. without their quotes, and no white space at its beginning and end.", "quantifier": "every page of texts, tags and comments without pre and textarea tags", "why_tests_cant": "all pages, with any texts, tags and white space", "anchors": ["src/html.rs:minify", "src/html.rs:condense", "src/html.rs:condense_whitespace", "src/html.rs:unquote_attributes", "src/html.rs:clean_unneeded_tags", "src/html.rs:remove_comments"]}
{"id": "C95", "title": "the result of html::minify for a page with preformatted text", "statement": "The result for a page of texts, tags and comments with a pre or textarea tag is exactly the page with comments replaced by blanks, the optional tags dropped, the type attributes of style and script tags removed, the white space between a quote and the end of a start tag without line breaks removed, widths and heights of letters, digits and -_. without their quotes in such tags, and no white space at its beginning and end.", "quantifier": "every page of texts, tags and comments with a pre or textarea tag", "why_tests_cant": "all pages, with any texts, tags and white space", "anchors": ["src/html.rs:minify", "src/html.rs:condense", "src/html.rs:condense_whitespace", "src/html.rs:unquote_attributes", "src/html.rs:clean_unneeded_tags", "src/html.rs:remove_comments"]}
