{
 "C09": "C09_negative_minRight_panics shows that the hypothesis minRight >= 0 is needed.",
 "C12": "Proved for words of at most 29 letters, and for longer ones when a pattern reaches the end of the word; C12_exact_partial says exactly what happens for words of any length, C12_sound_partial that no other cut is ever made, C12_shipped_partial is about the shipped files. False beyond: the last of the preallocated positions is dropped (C12_long_word_fails).",
 "C13": "Proved for every entry on a line of its own, below the marker. C13_closing_brace_fails: an entry followed by the closing brace on the same line, as in the shipped en-gb file, is not recognised.",
 "C14": "Proved for words which are not exceptions. The exception list is case sensitive (C14_exception_case_fails).",
 "C16": "C16_loaded_well_formed discharges the hypothesis of C12 for loaded dictionaries.",
 "C20": "Any answer of the matcher gives an embedded file, and the supported tags give the file of their language. Regional variants, for which the matcher answers with a completed tag, get American English (C20_regional_variant_fails).",
 "C21": "The table keeps two bits per rune: the lookup result is the classified width modulo 4, and equal to it except for U+2E3B, of width 4, for which the table is bypassed by Width (not by Widths, see C23).",
 "C23": "Proved for slices of runes in 0..0x10FFFF without U+2E3B, and for all slices in East-Asian mode. False of U+2E3B, whose width 4 is stored as 0 in the 2-bit table (C23_three_em_dash_fails), and of runes out of range, on which Widths panics while Width returns 0 (C23_invalid_rune_fails). Overflow of the sum of widths is in C113.",
 "C28": "Transition system over any number of goroutines and any schedule. sync.Once has its documented meaning.",
 "C36": "Non-termination would show as exhaustion of the fuel of the model's loops, which is proved not to occur.",
 "C37": "Exact: lossless if and only if the text, read from the left to the right, does not end within a control sequence, in a parameter of three digits (`EndsLong`). There, with unused capacity in the slice, a rune from beyond the end of the input gets into the result (C37_cut_short_fails); without, the call panics (C43).",
 "C38": "The append in StripANSIFromRunes always writes in place, and always the runes which are there already.",
 "C40": "Proved for parameters of at most two digits, for one word, for any number of styled words with unstyled text between them, and for any texts with a sequence between two of them. False of longer parameters: ESC[38;5;123m is taken as text (C40_three_digits_fails).",
 "C42": "C42_no_sequence_partial: inputs made of runes other than ESC and well-formed sequences with parameters of at most two digits. C42_units_partial: for any input that does not end within a sequence, in a parameter of three digits, every start or stop sequence met when reading from the left to the right is reported as such, once and in order, and texts are made of the other units only. False after a lone ESC, which takes the next rune with it (C42_double_escape_fails), and for longer parameters (C40).",
 "C43": "Exact: StripToken returns normally if and only if the slice has unused capacity or the text does not end within a control sequence, in a parameter of three digits (`EndsLong`). False otherwise (C43_cut_short_fails).",
 "C47": "What StartOfLine writes is described exactly for every text (C47_exact): the start sequences of the group of the current renderer. It is what the property asks for separated styled runs (C47_resume_partial), and, in a text without stray stops where the start sequences can be told apart, exactly when at most one style is open and no other was closed just before it or within it (C47_right_iff). False otherwise: the outer of two nested styles is not resumed, a closed run that touches the current one is resumed, a fresh iterator resumes a style that was never opened, and after a stop sequence that closes nothing all earlier start sequences are written (C47_stray_stop_fails).",
 "C48": "What EndOfLine writes is described exactly for every text (C48_exact): the stop sequences of the whole group of the current renderer. It is what the property asks for separated styled runs. False otherwise: only the innermost style is closed, and the stops of a touching earlier run are written again.",
 "C49": "Both parts are proved: renderers at level 0, and whole paragraphs.",
 "C50": "Proved for all walks of the map and all histories. Calls are those of `Call`: integral widths represented exactly, custom splitters that lose no text, any history of calls on escape-free text. C50_any drops these conditions for words with some text each: any measurer, width, escape sequences and history, with a penalty of hyphens in [0, 10000] other than 0, 200 and 400, a tolerance of at most 50 and split functions that lose no text. C50_default_any is float64 with the default options, where words are separated by one space; in general `spacesBetween` says how many there are.",
 "C51": "Proved for integral widths (after scaling), additive measurers and a hyphen penalty that differs from 0, 200, 400; C51_default_partial is for the default options. False for other widths, because they are rounded (C51_fraction_fails: for every text whose width exceeds maxWidth by at most half a column), and for the other penalties. Calls are those of `Call`: integral widths represented exactly, custom splitters that lose no text, any history of calls on escape-free text. C51_any_partial and C51_default_any_partial are for words of any runes, escape sequences too, and histories of such words: the text shown on a line is not wider than requested.",
 "C52": "Proved as an equivalence with an independent definition of acceptable settings. Calls are those of `Call`: integral widths represented exactly, custom splitters that lose no text, any history of calls on escape-free text. C52_any: the same for words of any runes, after any history on any words (calls of `AnyCall`), in terms of the texts that StripToken finds.",
 "C53": "Also for empty words and any width, with blank lines. Calls are those of `Call`: integral widths represented exactly, custom splitters that lose no text, any history of calls on escape-free text.",
 "C54": "Proved when the first token is not empty; for any tokens in lines that are wide compared with their number (60 columns more, with the default options); for any number of empty tokens without text; and for two counts of empty tokens out of three before the text, in narrow lines as well. False otherwise: three empty tokens at the start make the call panic in a width of 4. Calls are those of `Call`: integral widths represented exactly, custom splitters that lose no text, any history of calls on escape-free text. C54_any_partial drops these conditions when the first word has a part: any measurer (negative, not a number), any splitters that return, escape sequences, any width, any history, provided that a space is measured as 0 to 2^46 columns, the penalty of hyphens is in [0, 10000] and the tolerance at most 50; C54_default_any_partial is the default options. C54_narrow_space_fails, C54_huge_space_fails: with a space of negative width, or of more than 2^46 columns, two words on a line panic.",
 "C55": "Proved, also for the default options in terms of runes.Widths. Wider lines may be split. Calls are those of `Call`: integral widths represented exactly, custom splitters that lose no text, any history of calls on escape-free text. C55_any, C55_any_text and C55_default_any: words of any runes, after any history; the line is the text with sequences inserted.",
 "C56": "Proved. Other scales give no blank or several. Calls are those of `Call`: integral widths represented exactly, custom splitters that lose no text, any history of calls on escape-free text. C50_any and C50_default_any give the spaces between words without these conditions. C56_any and C56_default_any: any words with some text, any widths, measurers and histories, in terms of the texts that the lines show.",
 "C57": "Proved for hyphen penalties other than 0, 200, 400. False for these: hyphens are recognised by their penalty. Calls are those of `Call`: integral widths represented exactly, custom splitters that lose no text, any history of calls on escape-free text. C57_any_partial is for any words with some text, measurers, widths and histories, under the conditions of C50_any.",
 "C58": "Success is independent of the walk of the map (C58_success_partial), and so are the lines with a tolerance of at most one half (C58_tight_partial); C58_exact tells exactly when the lines are the same for all walks; with larger tolerances the lines may differ between two walks (C58_walk_fails). Those are for the calls of `Call`: integral widths represented exactly, custom splitters that lose no text, any history of calls on escape-free text. C58_refused_partial needs none of that: for any words (escape sequences included), measurer, splitters, widths and histories, the refusals depend neither on the walk of the map, nor on the history, nor on the escape sequences; it needs only a penalty of hyphens in [0, 10000] and a tolerance of at most 50. C58_success_any_partial: success is independent of the walk, of earlier calls and of the sequences for words of any runes.",
 "C59": "Proved for paragraphs on one line of at most 3000 units. False in general, for every walk of the map. Calls are those of `Call`: integral widths represented exactly, custom splitters that lose no text, any history of calls on escape-free text.",
 "C60": "Proved for no token and for one empty token. False for two empty tokens, which give a blank line. C104 settles every number of empty tokens and every positive width. Calls are those of `Call`: integral widths represented exactly, custom splitters that lose no text, any history of calls on escape-free text.",
 "C61": "Proved for every option setting and every history of calls on text without escape sequences, for lines, errors and panics alike. False after a call on styled text, whose sequences are written again, and false of styled text after any call: the iterator over the attributes restarts from the first call. C61_any_partial takes any words and any history, for any options, widths and numbers: a used line breaker panics as a new one, returns nil as a new one, or returns the same lines in which sequences of the words and of earlier calls are put. C61_unstyled_words_partial: for words without sequences, the lines are the ones of a new line breaker with sequences of earlier calls put in, and exactly those if there was none.",
 "C62": "Proved. Calls are those of `Call`: integral widths represented exactly, custom splitters that lose no text, any history of calls on escape-free text. C62_any is for any words of which the first and the last one have some text, measurers, widths and histories, under the conditions of C50_any; C62_default_any is float64 with the default options.",
 "C63": "Proved. Calls are those of `Call`: integral widths represented exactly, custom splitters that lose no text, any history of calls on escape-free text. C63_any is for any words with some text, measurers, widths and histories, under the conditions of C50_any.",
 "C64": "Proved after any history, for non-empty texts with start and stop sequences of at most two digits by parameter (C64_order_partial, C64_sequences_partial), and for the sequences found with some text in words of any runes (C64_any_partial). False for every sequence found without text: the call does exactly the same without it (C64_no_text_fails, for all words, widths, histories and sane options; C64_sequence_alone_fails for examples).",
 "C65": "Proved for a new line breaker: the exact lines, when each line ends outside of styled runs or in a run with unstyled text on both sides, hence for separated runs. False for adjacent runs, for a run that opens the paragraph (start sequence twice) and for a run never closed. The styled lines of a reused line breaker are wrong (C61_styled_text_fails). C65_words_partial: also when words are styled one by one and styled words are not divided, even if styled words follow each other. False after a stop sequence that closes nothing (C65_stray_stop_fails). For all texts and histories, the exact lines are in C101.",
 "C67": "C67_visible_partial: after any history, two texts that differ by their sequences only are both set or none is, and the lines without their sequences are equal. C67_unstyled_partial: for words made of one text each, they are the lines of the unstyled words. C67_same_breaks_partial gives the breaks. Partial: parameters of at most two digits, no empty text between sequences, usual options and exact widths. Taking out a sequence inside a word joins two texts, which may then be divided otherwise. C67_any_partial takes words of any runes, after any history: two texts with the same non-empty stretches of text between the sequences are both set or none is, and both outputs are the same lines with sequences put in. C67_any_alone_partial compares with the words without sequences, as a fresh LineBreaker would. C67_all_options_partial is the same for any options, any width and any numbers, float64 included, and two different histories; it needs a punctuator that splits the empty text into nothing, as the default one does. C67_inside_fails: a sequence inside a word can make a paragraph impossible to set.",
 "C68": "Proved for a new line breaker, when styled runs are separated by unstyled text (C68_separated_partial) or when words are styled one by one and styled words are not divided (C68_words_partial); after any history the visible text is the text of the words (C68_text_partial). It fails in the code for adjacent runs, for unclosed runs and on a line breaker used before (C68_*_fails). It fails too after a stop sequence that closes nothing, such as a reset written twice (C68_stray_stop_fails).",
 "C69": "Set: proved when words after the first do not start with a mark or a hyphen and are at most 51 columns wide (default tolerance), in widths up to 86000 (C69_default_partial), or for any tolerance with the corresponding bounds (C69_words_fit_partial). False without these conditions: C69_wide_words_fails, C69_leading_mark_fails. Not set: C69_too_wide, for every paragraph of `Call`. C69_any_partial and C69_too_wide_any: the same for words with sequences, after any history on any words (calls of `AnyCall`); the first one for words in which StripToken finds one text each.",
 "C70": "C70_tolerance is for the calls of `Call` (usual options, exact widths, no escape sequences), where there are no panics. C70_any is for any words, measurers, splitters, widths, histories and map orders, with a penalty of hyphens in [0, 10000] and tolerances of at most 50: what is not refused is not refused with a higher tolerance; C70_set_any adds that it is set, when the first word has a part and a space is not measured as negative (by C54_any_partial).",
 "C71": "Proved when no word starts with a hyphen, also after a mark in the word; false otherwise (C71_leading_hyphen_fails): a division point after a leading hyphen takes the stretch of the line. C71_any_partial: the same for words with sequences in which StripToken finds one text each, after any histories on any words.",
 "C72": "Proved without word breaking (both directions). With word breaking it is false (C72_hyphens_fails): without rendered hyphens, lines that end at a hyphenation point have no stretch and must have the exact width. C72_any_partial: the same for words with sequences in which StripToken finds one text each, after any histories on any words.",
 "C73": "Every list of options, nil split functions included (C73_nil_is_default). C73_looseness_ignored: a finding, WithLooseness is never read.",
 "C74": "C74_strings and C74_encoded_words on the calls of `Call` (usual options, exact widths, no escape sequences). C74_default_any for strings of any bytes, escape sequences too, each with some text, with the default options in float64, any width and history; the spans are those StripToken finds, and `h2` is C93_found for words that do not end in a sequence cut in a parameter.",
 "C75": "C75_content for all texts; C75_words without word breaking and marks, where a line break may be inside of a word otherwise. On the calls of `Call`. C75_default_any for texts with escape sequences, with the default options in float64: the lines without sequences, spaces and added hyphens are the texts found in the words.",
 "C76": "On the calls of `Call` (usual options, exact widths, no escape sequences); the last line for widths up to 4997. C76_choice, C76_chosen, C76_every and C76_exactly when hyphens have their own penalty (the default) or are not rendered. C76_every needs only walks that start at some class and go round. C76_any states the choice of breaks for words of any runes, escape sequences included, after any history, on the texts found between the sequences.",
 "C77": "`C77_sessions` is for all words (escape sequences included), measurers (negative widths, NaN), split functions (losing text or panicking), widths and lists of calls, with a tolerance of at most 50; the results are the same, panics included. `C77_penalty_ignored` adds, on the calls of `Call`, different histories for the two line breakers. Penalties are from 0 to 10000 (excluded), and differ from those of spaces, marks and explicit hyphens when hyphens are rendered. `C77_bonus_changes`: negative penalties do change the lines, and remove hyphens. The reason is that the demerits of all breaks stay at zero, see DESIGN.md.",
 "C78": "For the float64 of `Go/Float64`. C78_nearest for any line breaker without scaling in any state, and any texts; C78_half_column for the default options and escape-free text; C78_half_column_any for words of any runes (the first of which does not start with ESC).",
 "C79": "With the default options the exact range is proved for every float64 width at least that of the text, +Inf included: set if and only if the width exceeds that of the text by less than 86000.5 (C79_any_width_partial; C79_exact_partial for whole widths), and on one line when 53 columns are left (C79_one_line) or up to 4997 columns (C79_default_partial). So the statement is false of larger widths, for every text: C79_too_wide_fails (any sane options), C79_default_fails. On paragraphs without escape sequences. C79_exact_any_partial: the exact range of whole widths for words with sequences in which StripToken finds one text each, after any history; C79_too_wide_any_fails for words of any runes.",
 "C80": "C80_negative and C80_below_half for numbers and -Inf. False for NaN: the whole text is returned as one line (C80_nan_fails, with any scale factor). On paragraphs with sane options and without escape sequences. C80_negative_any and C80_below_half_any: the same for words of any runes, after any history on any words.",
 "C81": "On the calls of `Call` with spaces of one column, additive measurers, a tolerance of at least 1/2 and hyphens with their own penalty; C81_default for the default options.",
 "C82": "False for lines of 65536 bytes or more, carriage return included: among the patterns, the file is ignored from such a line on (C82_long_line_fails, for every such file); among the exceptions, the first 65536 bytes of the line are read as patterns and the rest of the file is ignored (C82_long_exception_fails, for every such file). No error is returned. The theorems together cover every file (every_file). Invalid UTF-8 is included (lines are decoded as Go does).",
 "C83": "Supposes of the Unicode functions only what UsualRunes says (digits and capital letters among the characters of the patterns).",
 "C84": "Proved for all exceptions of the American file and all but the last of the British one. The last British exception is lost, because the closing brace is on the same line (C84_something_fails).",
 "C85": "spanish_calle and french_alcool break actual words.",
 "C87": "Exceptions are cut where the file says, see C13. minRight 0 is false of the code (C87_both_ends_fails): the two ends are the branches of one switch, so only one of them is cleared.",
 "C88": "Puts C50, C51, C54, C55, C69 and C83 together, for float64 and the shipped American file. The conditions on marks and on 51 columns are needed (C69_leading_mark_fails, C69_wide_words_fails).",
 "C89": "Changes in place are proved not to reach the other parts, for memory modelled explicitly. False for append (C89_append_hyphen_fails, C89_append_field_fails): parts are cut with two indices, so their capacity reaches into the next part. The line breaker never appends to parts.",
 "C90": "Opening and creating files are not modelled. The exceptions are compared for words that are not empty (an empty line below the marker defines the empty word).",
 "C91": "Fetching the files is not modelled; the printing of the tables is in C99; `fmt.Sscanf` is modelled for the four formats in use. Class H (half-width) is in no table, which gives width 1 by default.",
 "C92": "Partial: parameters have at most two digits (C92_measured_partial, C92_default_partial, for words as in C64 to C68). C92_any_partial and C92_any_default_partial drop the other limits: words are any mix of text and of start and stop sequences, nested, repeated, unbalanced or without text, after any history of words of any runes (C92_found: whatever these are, the sequences found in them are of the known kinds). With parameters of three digits the sequence is taken for text (C92_three_digits_fails).",
 "C93": "Partial: excluded are words that end within a sequence, in a parameter of three digits (C93_cut_fails: for every paragraph with such a word the call panics, or runes from behind the word are set, according to the unused capacity), a first word without text, and, for the statement on lines, words without any text (C93_no_text_fails: the sequence is lost and two spaces are left). C93_reads says from the runes alone what is found in a word, by C102.",
 "C94": "Partial: proved as an exact condition, when no line of empty tokens would be accepted as the first one (in particular in wide lines). It shows that the statement fails: the first line of an indented paragraph has no stretch (unless it is the last one), and a third of the empty tokens count as spaces, so that text that can be set cannot be set any more (C94_indented_fails).",
 "C95": "Exact for words with neither marks nor hyphens, whose pieces are at most 50 columns wide (default tolerance) and not narrower than a hyphen, in widths up to 86000 (C95_default_partial), or for any tolerance with the corresponding bounds (C95_letters_iff_partial). C95_pieces_partial gives the sufficient part for any words and any choice of the places. False for wide pieces: C95_wide_pieces_fails. C95_any_partial: the equivalence for words with sequences in which StripToken finds one text each, after any history on any words.",
 "C96": "Proved for the paragraphs of C95_letters_iff_partial. False in general: words of 9 and 60 letters are set in a width of 60, not of 61 (C96_wider_fails). C96_any_partial: the same for words with sequences in which StripToken finds one text each.",
 "C97": "C97_not_too_short and C97_number_of_lines for any sane options and measures that add up runes, C97_default for the default options in float64. The bound of 51 columns is reached (see the cases). C97_any and C97_default_any: words of any runes, in terms of the texts that the lines show.",
 "C98": "C98_first_words for any tolerance, in widths W with 10 W <= 9994 times the tolerance in tenths; C98_default for the default options. Removing words at the start may hurt (see the cases). C98_any: words of any runes; only the first and the last of the words that are left need some text.",
 "C99": "The source is specified by a small grammar (`GoSource`): white space, comments, the package clause, and declarations of tables of pairs of hexadecimal numbers. The text is the one before `go/format`, which is not modelled; the file of the repository is compared, byte by byte, with the text made from the tables of the model: it has one empty line less.",
 "C100": "A round is one passage in the body of any of the loops of knuth_plass.go; `Model/Steps` repeats the search with a counter, and C100_counted says that it has the same result. Work done outside these loops (measuring, splitting, writing the lines) is not counted. C100_any, C100_places_any and C100_words_any: the same bounds for words of any runes, after any history on any words; for C100_words_any, StripToken finds one text in each word.",
 "C101": "The sequences around lines for all words and histories; the cases where they are not the ones a reader expects are the failures of C47, C48, C61, C65 and C68.",
 "C102": "Exact for every text that does not end within a control sequence, in a parameter of three digits; these are exactly the texts that can be read (C102_readable). For the others see C37 and C43. `Reads` is a grammar of units and `results` an automaton on them with three states; neither mentions the code's scanner.",
 "C103": "Whether a paragraph is set, not which lines are chosen: the classes of lines change with the unit too. Factors that make the widths inexact are not covered (see C56_float64_scale_matters). C103_finer_any_partial and C103_tolerance_any_partial: the same for words of any runes with the same texts, after any histories on any words.",
 "C104": "For every number of empty tokens and every positive width, on the calls of `Call`: integral widths represented exactly, custom splitters that lose no text, any history of calls on escape-free text, any walk over the classes. One empty line if and only if a third of the spaces between them fits, with the stretch of a last line.",
 "C105": "Counted are the calls of ReadRune and the runes copied by append (`Model/AnsiSteps`; C105_counted: the results are those of the model of C37 to C43). Not counted: the growth of the slice of results, which is the Go runtime's.",
 "C106": "Counted are the rounds of all loops (`Model/HyphSteps`; C106_counted: the results are those of the model of C09 to C14). Not counted: what the Go runtime does to look up a key of a map, to grow a slice and to clear it.",
 "C107": "Counted are the rounds of the loops of render and of the iterator over the renderers (`Model/RenderSteps`; C107_counted: the results are those of render). Not counted: growing and copying slices, and writing a sequence or the text of a node, which is one round whatever its length. C107_slower is stated for calls with exactly represented widths, to know that each of them returns lines.",
 "C108": "Counted are the rounds of the loops, and for StripToken the runes read and copied as in C105 (`Model/AlignSteps`; C108_counted: the results are those of LeftAlignUniform). Not counted: calls of the measurer, growing and copying slices, the hash table of a node of a trie, and writing a sequence or the text of a node, which is one round whatever its length. One walk over the map of candidates visits each class once (OneWalk, as in C100).",
 "C109": "`Model/Panics` repeats the functions that push renderers, with the renderers that are in the list when they return or panic; C109_model: its results, and the line breaker after a call that returns, are those of leftAlignUniform. A panic of the measurer is not modelled. The other fields set by a call (nodes, lineWidths) are set again by the next one before they are read.",
 "C110": "For runes that have an encoding. ReadRune returns the size -1 for others, and offsets counted from these select other runes (example at the end of Props/ByteRange).",
 "C111": "False for append (C111_append_fails, for every text): slices are cut with two indices, so their capacity reaches into the next one. Texts that end within a sequence, in a parameter of three digits, are excluded (see C37, C43). The line breaker does not append to these slices.",
 "C112": "C112_nothing_lost for any numbers with the laws of `Go/Float` where 0 divided by the scale gives no spaces; C112_float64 has no such condition. The last equality on letters supposes that the split functions given as options lose no text (the built-in ones lose none). The number of spaces between words is the rounded width of a space (`spacesShown`); it may be 0 (C112_odd_widths). C112_edges is on spaces at the edges for any split functions whose parts are neither empty nor contain spaces; C112_trimmed for the built-in ones. C112_full: when the first word has a part, every line but possibly the last has a part of a word (the last one too, when the last word has a part: C112_every), and hyphens are added wherever a word is cut; with a penalty of hyphens in [0, 10000] and a tolerance of at most 50.",
 "C113": "`Model/Width64` repeats Widths with additions of 64 bits. C113_held and C113_exact_iff hold for all slices and options; C113_exact for runes from 0 to 0x10FFFF. On 32-bit machines int has 32 bits; this is not modelled.",
 "C114": "Proved when every renderer is pushed once and its stop sequence is set before the next push to its State (C114_once_partial; C114_values_partial: States are then those of C45 to C49), and, on influence, when each renderer is pushed to one State only (C114_independent). False otherwise, because Push writes the level into the renderer: C114_again_fails (pushed twice), C114_two_states_fails, C114_late_stop_fails. C114_exact gives the levels for renderers pushed again to one State, C114_right_iff tells exactly when these are right. C114_line_breaker: the line breaker allocates a renderer for each push, so that pointers are positions in its list, as Model/Linebreak has it.",
 "C115": "C115_render, C115_renderers: exactly which texts are sent. C115_start_of_line, C115_end_of_line: texts that are start (stop) sequences of renderers of the State and, put end to end, what C47 (C48) is about. Runes have 32 bits. C115_refused_case: a writer without room for the text.",
 "C116": "Proved when the first and the last word have some text, and under the conditions of C50_any: a penalty of hyphens in [0, 10000] other than 0, 200 and 400, a tolerance of at most 50, split functions that lose no text. C116_default is float64 with the default options and has no such condition.",
 "C117": "Proved. Calls are those of `Call`: integral widths represented exactly, custom splitters that lose no text, any history of calls on escape-free text. C117_any is for any words of which the first and the last one have some text, styled or not, measurers, widths and histories, under the conditions of C50_any; C117_default_any is float64 with the default options. C54 and C94 are on paragraphs that start with empty tokens, C104 on those that have no other."
}