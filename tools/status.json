{
 "C01": [
  "partial",
  "C01_iff: the values all whose texts are minified to the compact text are exactly those whose strings are not Swallowed (an escaped quote or backslash near the end of a string confuses the string tracking) and hold no U+007F; C01_layout_iff: the layout does not matter for exactly the values without a Swallowed string. The full statement is refuted by C01_full_false."
 ],
 "C02": [
  "proved",
  ""
 ],
 "C03": [
  "proved",
  ""
 ],
 "C04": [
  "partial",
  "Proved unless a backslash is separated from a quote by control characters only; refuted in full by C04_full_false; a third run never changes anything (C04_second_run_stable)."
 ],
 "C05": [
  "proved",
  ""
 ],
 "C06": [
  "partial",
  "C06_exact gives the exact bytes for every text and schedule; equality with the ideal holds for ASCII output and for one large read; refuted in full by C06_full_false (multi-byte characters are cut at buffer boundaries)."
 ],
 "C07": [
  "partial",
  "C07_exact gives the exact behaviour over every reader without failures; chunking does not matter without short reads; refuted in full by C07_full_false (a short read ends the stream)."
 ],
 "C08": [
  "proved",
  ""
 ],
 "C09": [
  "proved",
  ""
 ],
 "C10": [
  "partial",
  "Errors surface (C10_errors_surface); a panic only happens on a call after an error; refuted in full by C10_full_false (error of the first read, then a second call)."
 ],
 "C11": [
  "proved",
  ""
 ],
 "C12": [
  "proved",
  "For any is_alphabetic."
 ],
 "C13": [
  "proved",
  "Assumes only that the four blanks are not alphabetic (AlphaOk)."
 ],
 "C14": [
  "partial",
  "Proved unless the sheet contains `/ *=` (C14_full_false); blanks before an escape or a pseudo-element may be lost (C14_escape_false), what is kept apart is stated by Keeps."
 ],
 "C15": [
  "partial",
  "Proved unless the sheet contains `/ *=` (C15_full_false)."
 ],
 "C16": [
  "partial",
  "Proved unless the sheet contains `/ *=` (C16_full_false)."
 ],
 "C17": [
  "partial",
  "false as stated: blanks between compounds go when a parenthesis, an attribute or a universal selector is concerned (C17_full_false, C17_full_false_more). Proved for every site between two compounds outside the excluded ends and starts (compoundEnd, compoundStart): exactly one blank is left there"
 ],
 "C18": [
  "partial",
  "false as stated: calc is only recognised after a name and a colon that is not itself part of a parenthesis, an at-rule or a declaration that starts with a word (C18_full_false, C18_full_false_more). Proved: wherever inCalc holds, every blank is kept as exactly one, none appears, and inCalc holds through any nesting of parentheses (C18_nesting)"
 ],
 "C19": [
  "partial",
  "false as stated: blanks are left around reserved characters in several cases (C19_full_false, C19_full_false_more). Proved: the whole output is described mark by mark (C19_output), a gap is never wider than one blank but for the one after a licence or an at-rule (C19_gap_size), and outside calc no blank is left around the listed characters, comments in quiet places included"
 ],
 "C20": [
  "partial",
  "false as stated (C20_full_false, C20_full_false_more: e.g. a sheet that begins with a comment). Proved for every accepted sheet that is calm (ordinary comments only where blanks are kept and after characters that end no group, licences and names of at-rules), stable with blanks in place of its comments (both decidable conditions on the source) and has no comment opener followed by an equals sign"
 ],
 "C21": [
  "proved",
  "Exact allowance: one byte per licence comment and one per at sign; the example shows the bound is reached."
 ],
 "C22": [
  "proved",
  ""
 ],
 "C23": [
  "proved",
  ""
 ],
 "C24": [
  "partial",
  "For sources without an unclosed regex holding a quote-like hazard: panics exactly if an unterminated comment ends in a multi-byte character (C24_panic_iff_partial); refuted in full by C24_full_false."
 ],
 "C25": [
  "proved",
  "For sources whose literals and comments are closed; the grammar Spec.Js has no regex classes, as the code reads them."
 ],
 "C26": [
  "partial",
  "Refuted in full (C26_full_false: the text of an unclosed trailing line comment is written; C26_second_half_false: `a / / b` makes a comment). Proved for closed sources: comments have no influence (C26_no_influence_partial); and for Readable ones no comment is in the output and the licences are kept."
 ],
 "C27": [
  "proved",
  "For every source whose literals and comments are closed; regex literals are read as the code reads them (no character classes)."
 ],
 "C28": [
  "proved",
  ""
 ],
 "C29": [
  "partial",
  "C29_exact describes clean_tokens_except exactly; the full statement is refuted by C29_full_false; C29_agree_partial gives the condition under which the two cleaners agree."
 ],
 "C30": [
  "partial",
  "C30_exact describes every blank the writer puts, for all token lists. Numbers before words and generated names after words are not separated (C30_full_false)."
 ],
 "C31": [
  "partial",
  "Refuted in full (C31_full_false, C31_increment_false). C31_iff: exactly the closed sources whose minified form is Readable, a computable condition, give an output that is read as the same lexemes."
 ],
 "C32": [
  "partial",
  "Success and total writers in full; failure for writers that stop after an error or lists without regex flags; refuted for recovering writers by C32_full_false."
 ],
 "C33": [
  "partial",
  "Decimal value and spelling kept in Readable sources; old octal literals change their value (C33_full_false)."
 ],
 "C34": [
  "partial",
  "C34_err_iff_partial leaves out sources with an unclosed regex; C34_nest is exact on nested templates of every depth."
 ],
 "C35": [
  "proved",
  "the k-th name stands at place 63 + k in an enumeration of all words, so names are pairwise distinct; each is r_ and letters or digits"
 ],
 "C36": [
  "partial",
  "false as stated: var r_x='ab'+y;f('ab') becomes f(r_x) (C36_full_false). Proved for all token lists: a literal is replaced only by a name the prelude declares once with that literal, or by a variable whose value begins with it; if every such value is the literal alone the full statement holds"
 ],
 "C37": [
  "partial",
  "false as stated: var r_aa; without a value is not seen (C37_full_false). Proved: no generated name equals that of a variable declared with a value"
 ],
 "C38": [
  "proved",
  "aggregate_strings returns for every token list"
 ],
 "C39": [
  "partial",
  "false as stated: 'abcde'+'abcde' grows (C39_full_false). Proved: exact account of costs and savings, no growth if each hoisted literal pays for itself, at most a doubling otherwise; literals left alone are not worth a name by the formula of the source"
 ],
 "C40": [
  "partial",
  "false as stated: var R=[1,'abcdefghijkl'];f('abcdefghijkl') becomes f(R[0]) (C40_full_false). Proved for plain quoted literals without bare double quotes, a variable that is set nowhere else and an old array whose elements are literals"
 ],
 "C41": [
  "proved",
  "for every token list and filter; also that what is inserted is a declaration or elements of the array, and that nothing but literals changes"
 ],
 "C42": [
  "proved",
  ""
 ],
 "C43": [
  "proved",
  ""
 ],
 "C44": [
  "partial",
  "Refuted in full (C44_full_false: comments lose their delimiters). Proved for sources without comments, carriage returns and superfluous zeros. C44_iff says exactly which closed sources are reproduced."
 ],
 "C53": [
  "partial",
  "Refuted in full (C53_full_false); proved for closed sources whose minified form is Readable."
 ],
 "C54": [
  "partial",
  "Refuted in full (C54_full_false); proved with one byte allowed for each `in` and `instanceof`, and the bound is reached."
 ],
 "C55": [
  "proved",
  ""
 ],
 "C56": [
  "partial",
  "false as stated: the comparison of sizes leaves out the declaration, and nothing is compared for elements that are there already (C56_full_false). Proved: what the comparison guarantees for every new element and every literal left alone, that references to new elements are shorter than what they replace, and that without old elements the tokens that were there do not grow (but for blanks before in and instanceof)"
 ],
 "C45": [
  "partial",
  "Refuted in full (C45_full_false: an extension that is not UTF-8 panics). Proved: types by extension exactly as stated, skipping of every path of no known type whose extension is UTF-8, panic for exactly the others, -t."
 ],
 "C46": [
  "proved",
  ""
 ],
 "C47": [
  "partial",
  "Refuted in full (C47_full_false, C47_full_false_more: outputs may collide with each other and with later inputs). Proved for runs whose outputs do not collide, without -o (C47_all_partial) and with it (C47_out_partial, C47_outdir_partial: missing directories are created); what else can change is bounded in every case."
 ],
 "C48": [
  "partial",
  "Refuted in full (C48_full_false; C48_emptied shows that it fails for every input that cannot be minified). Proved for inputs that cannot be read."
 ],
 "C57": [
  "partial",
  "Refuted in full (C57_full_false: -o may name the input). Proved without -o, and with -o if the output is elsewhere."
 ],
 "C58": [
  "partial",
  "Refuted in full (C58_full_false). Proved without -o, with -o for a directory and with -o for a single file, if outputs are neither inputs nor outputs of others."
 ],
 "C59": [
  "partial",
  "Refuted in full (C59_full_false: a panic ends the run). Proved for files of no known type and files that cannot be opened."
 ],
 "C49": [
  "proved",
  "for every source text, under the transcription of the regular expressions"
 ],
 "C50": [
  "partial",
  "the rule as stated is false (C50_full_false: `<!-- [x -->` is kept). C50_pass gives the exact rule for every input; C50_partial the stated one where no `[` is separated from `<!--` by blanks or a further `<!--`; C50_again: idempotent"
 ],
 "C51": [
  "proved",
  "pages with <pre or <textarea are only trimmed, others are squeezed exactly as Gaps squeeze says; assumes Tables.Ok of the Unicode tables (lower case, \\w, \\d)"
 ],
 "C52": [
  "partial",
  "false in general (C52_full_false: `<bo<head>dy>`). C52_removal: only listed tags are removed, every input; C52_flat_partial: exact, and none is left, if no tag contains a `<` that may begin a tag (`a < b`, `a <= b`, `a << b` are allowed anywhere)"
 ],
 "C60": [
  "proved",
  "for every source text and every Unicode table"
 ],
 "C61": [
  "proved",
  "for every source text and every Unicode table"
 ],
 "C62": [
  "proved",
  "for every source text and every Unicode table"
 ],
 "C63": [
  "proved",
  "exact result for every source without `<`"
 ],
 "C67": [
  "partial",
  "Full statement refuted by C67_full_false. Proved for texts without '<' (C67_plain_partial) and for pages made of texts, tags and comments (C67_page_partial): every =\"value\" is followed by white space, a slash or the end of the tag, a tag that begins like a comment begins a conditional one, style and script tags do not have a type attribute in several lines, and, if the page has a pre or textarea, white space in a tag is single. On such a page a tag may instead have a name and words with any number of blanks between them (only behind a width or height in quotes the number matters, with a witness). On pages with a pre or textarea that condition on widths and heights is exact (C67_pre_partial: the second run changes nothing if and only if). Missing: pages outside of that class, for some of which a second run does change the result (witnesses beside the theorem)."
 ],
 "C64": [
  "partial",
  "false in general (C64_full_false: type=\"module\" is dropped; data-type and even the tag name can be cut); proved: other tags are untouched (C64_other); in a tag with regular quotes in which every `type=\"` begins an attribute, the name is kept and only attributes called type are dropped, without effect if they state the default (C64_partial)"
 ],
 "C65": [
  "partial",
  "false in general (C65_full_false: a comment inside of text becomes a blank); proved for every page of texts, tags and comments, conditional comments and signs as in `a < b` included: texts are kept character by character, a comment that is not conditional is one blank, end tags, declarations and the ends of conditional comments are kept as they are (C65_partial, C65_text_partial)"
 ],
 "C66": [
  "partial",
  "false in general (C66_full_false: width=\"100\"/ becomes width=100/; quotes in quotes; blanks in quotes); proved for tags in which every `\"` opens or closes a value and is followed by white space, the end of the tag or (not after a width or height) a slash, and white space inside of quotes is single"
 ],
 "C68": [
  "partial",
  "false as stated because of comments (C68_full_false); proved for every page of texts, tags and comments, conditional comments included; start tags as in C64 and C66, with only the blank as white space inside of quotes, are read as before; other tags and the text between them only have some gaps replaced by one blank; for other start tags only their place is shown"
 ],
 "C69": [
  "partial",
  "false as stated (C69_full_false, and seven more sheets in C69_full_false_more); proved for sheets in which no removed gap keeps two tokens apart, without hexadecimal escapes outside of strings and without unquoted addresses that look like other code"
 ],
 "C70": [
  "partial",
  "false as stated (C70_full_false, and nine more scripts in C70_full_false_more); proved, for every rule where regular expressions may stand, for scripts whose pieces without gaps are made of whole tokens and stay apart, without separators in comments, zeros in front of numbers and flags out of order; semicolons at the beginning go, and nothing else changes if the rule does not depend on them (usual_blind: the usual one does not)"
 ],
 "C71": [
  "partial",
  "false as stated (C71_full_false, and seven more scripts in C71_full_false_more). Proved for the scripts of C70 and every rule by which line breaks matter: none appears (C71_no_new_partial), the script means the same if none matters (C71_kept_partial), and only then unless a licence has line breaks (C71_lost_partial)"
 ],
 "C72": [
  "partial",
  "false as stated (C72_full_false, and three more scripts in C72_full_false_more): no blank is written before a new name, so that return 'x' becomes returnr_aa. Proved for the scripts in which no literal that occurs more than once is next to a word, a regex or another literal (but for in and instanceof behind it), for both orders of cleaning and aggregating"
 ],
 "C73": [
  "partial",
  "False as stated: nothing is written between a word, a regex or a literal and an element of the array, and contents are put in double quotes as they are (C73_full_false, C73_full_false_more). Proved for all scripts where the literals whose content occurs more than once have no such lexeme before them and fit in double quotes, for both orders of cleaning and aggregating. The index counts the literals of an array that is there; if it has only literals, that is the index of the element (C73_elements)."
 ],
 "C74": [
  "partial",
  "False as stated: lexemes that were kept apart only by a blank or comment that is removed can make other lexemes (C74_full_false, C74_full_false_more). Proved for every callback and all scripts whose kept lexemes can be read back where they are written (readFrom), with the exact lexemes of the text; these are exactly the scripts for which it holds (C74_iff)."
 ],
 "C75": [
  "partial",
  "False as stated: the line break that ends a line comment, and those in block comments, go with the comment (C75_full_false, C75_full_false_more); a callback that does not keep semicolons also loses empty statements (C75_full_false_semi). Proved: the text has exactly the tokens and line breaks of the script with blanks in place of its comments, so it means the same if these do; for every callback no line break appears where there was none. Conditions on touching lexemes as in C70. With a callback that leaves semicolons out, the text has exactly the tokens and line breaks of the script without them and with blanks in place of its comments (C75_bare_partial, C75_semi_partial); C75_no_new_partial is for scripts of which none is left out."
 ],
 "C76": [
  "partial",
  "False as stated, since the minifiers change the meaning of some valid files (C76_full_false: a + +b). Proved for the runs of C47, without -o and with -o and a directory, for contents as in C01, C69, C70 and C71 (Plain); the inputs that are left out are those of the counterexamples there, and runs whose outputs collide."
 ],
 "C77": [
  "partial",
  "False as stated: a comment up to the end of a line swallows what follows (C77_full_false). Proved for every page whose tags are read by browsers with quotes where they should be: the elements without tags inside are the same, in order, whatever reading of the result is taken; scripts and style sheets in which no < begins a tag (`i < n` and `i <= n` are allowed) keep their tokens (and line breaks that matter) if they have no line comments, no line break that matters, no broken tokens, and only single blanks inside of tokens. Scripts with tags in strings and with < before a letter or digit are left out."
 ],
 "C78": [
  "partial",
  "Full statement refuted by C78_full_false. Proved: every page that the program leaves as it is has nothing left of all this (C78_fixed, for all pages), hence so has the result for every page of the class of C67 (C78_page_partial). Missing: pages outside of that class, for some of which something is left (witnesses beside the theorem)."
 ],
 "C79": [
  "partial",
  "False as stated: the line break after the hashbang comment is removed, so that the code becomes a part of the comment (C79_full_false). Proved: the output begins with #! again (C79_begins), nothing of it is code unless a literal or licence has a line break in it (C79_lost), so that the tokens are kept exactly if there are none (C79_iff_partial)."
 ],
 "C80": [
  "proved",
  "Proved for all pages: C80_settles (with the number of runs), C80_stays; C80_no_bound: no fixed number of runs is enough."
 ],
 "C81": [
  "partial",
  "False as stated: / *= becomes /*= and the second run is an error (C81_full_false). Proved for all sheets without / *=: C81_settles_partial (three runs), C81_stays_partial, C81_plain_partial (two runs without ordinary comments); both numbers are sharp (C81_two_not_enough, C81_one_not_enough)."
 ],
 "C82": [
  "proved",
  "For every script for which js::minify returns: C82_bound. That the bound cannot be linear: C82_not_linear, with the scripts made of a slash, k times ').', a line feed and k parentheses."
 ],
 "C83": [
  "partial",
  "False as stated: a slash, a dot, a line feed and a dot; every run doubles the dots (C83_full_false, C83_grows). Proved for closed scripts whose minified form is Readable: C83_settles_partial (one run)."
 ],
 "C84": [
  "partial",
  "C84_full is false (C84_full_false: a script that assigns to a name r_q). Proved for scripts without names that begin with r_: a second run adds only its separation if fewer than 3844 literals were named, and any number of runs gives the result of one for scripts of fewer than 7688 tokens."
 ],
 "C85": [
  "partial",
  "False as stated: the array created by the first run is one token that get_array does not know, so a second run begins with the index 0 again and declares the array a second time (C85_full_false: ten elements and one more literal; C85_filters_false: two filters). Proved for all token lists whose literals have delimiters: a second run without filter changes nothing if the indices have not become longer (C85_digits_partial), in particular with fewer than twenty literals and no such array before (C85_few_partial)."
 ],
 "C86": [
  "partial",
  "False as stated: a literal in single quotes with double quotes in it is written as two literals and a piece of script (C86_full_false). Proved for the scripts that are written as they were meant (the hypotheses of C73): the text that is written is closed and safe, the second run gives its minified text, with the same lexemes, and the third run gives the text of the second. Between the first and the second text a blank after `]` before `in` and `instanceof` may be lost."
 ],
 "C87": [
  "partial",
  "False as stated: a literal that is assigned to behind a comma becomes a declaration for the second run (C87_full_false). Proved without a bound on the number of literals for scripts in which no literal is assigned to, words that begin with r_ are assigned to only behind var, let or a comma, and no repeated literal is next to a word (the hypothesis of C72): the text is not changed by a second run, nor by minify. Also proved with clean_tokens after the aggregation and with a separation that is cleaned away (C87_aggregated_partial), if no line break is between a word that begins with r_ and an equals sign; with one it is false (C87_aggregated_false). Missing: other assignments to words that begin with r_."
 ],
 "C88": [
  "partial",
  "False as stated: a line break between a name and an equals sign hides a declaration until it is cleaned away (C88_full_false); a comment or a semicolon at the beginning can make a difference (C88_start_false). Proved for all token lists and texts without a line break between a name and an equals sign, a comma or a semicolon, that do not begin with a semicolon, and that begin with a token that is kept or in which the first tokens that are kept are no names, but for those behind let, var or a comma. Missing: sources outside of these conditions for which the line break or the first tokens have no effect."
 ],
 "C89": [
  "proved",
  "For all token lists that do not begin with a semicolon (C89_semi shows the difference that one makes), with any filter; also when the program stops because a literal has no quotes."
 ],
 "C90": [
  "partial",
  "What is missing are scripts in which `in` or `instanceof` is replaced after a number, and new names after a regex that look like its flags: false for some by C90_full_false and C90_flags_false. C90_iff says exactly which scripts are read as the renamed ones."
 ],
 "C91": [
  "partial",
  "C91_partial is exact for all tags without quotes whose words have at least two characters, C91_quoted_partial for such tags with quotes; blanks before the end only after a quote there (they go). What is missing are tags with words of one character, with words that stop after `=` or an opening quote, and with a width or height in quotes inside of a word or with other signs than letters, digits and `-_.`. The full statement is false by C91_full_false: if there are gaps between words and before the end, the program joins the texts of the first ones and looks for that."
 ],
 "C92": [
  "partial",
  "Full statement refuted by C92_full_false (values that look like attributes lose their quotes one after the other). Proved for pages of texts, tags and comments with a pre or textarea in which every tag has single white space and room after its attributes, or is a name and words with any number of blanks between them (C92_partial); the example shows that one run is not enough for them. After the second run nothing is left to remove (Minimal of C78: C92_minimal_partial). Missing: other tags."
 ],
 "C93": [
  "partial",
  "Full statement refuted by C93_full_false (a single tab between the words stays). Proved for pages of texts, tags and comments without pre and textarea: for every tag of words of at least two characters, if the white space between its words is a blank, a line break or more than one character, and white space before the end only follows a quote (C93_partial); and for every start tag, end tag or declaration, with any values in quotes, if white space other than blanks and line breaks is next to other white space (C93_tag_partial: all white space in a row is one blank, widths and heights lose their quotes from left to right by a relation that determines the result, C93_determined). Tags of styles and scripts, which lose their type, are left out. Missing: these, and single tabs; C94 describes them."
 ],
 "C94": [
  "proved",
  "C94_page: all pages of texts, tags and comments without pre and textarea. C94_iff: if every tag begins with a word character, /, ! or ?, then the description determines the result (of other tags only the white space is described)."
 ],
 "C95": [
  "partial",
  "C95_full_false: gaps of two blanks in a tag become smaller. C95_partial: all pages with a pre or textarea tag whose tags have no two white space characters in a row; C95_iff_partial: if every tag also begins with a word character, /, ! or ?, the description determines the result. Missing: tags with wide gaps (C91 and C92 say what happens to these)."
 ]
}