{"id": "C01", "title": "Splitting on separators loses nothing", "statement": "FieldsFunc(in, f) and Tokenizer.BreakWord return parts whose concatenation, in order, is exactly the input with the separator runes removed.", "quantifier": "every rune slice and every separator predicate (tokenizer: unicode.IsSpace)", "why_tests_cant": "A test fixes a handful of strings; the start/^start bookkeeping must be right for every arrangement of separators, including leading, trailing and consecutive ones.", "anchors": ["terminal/runes/fields.go:FieldsFunc", "wordbreak/tokenizer/tokenizer.go:BreakWord"]}
{"id": "C02", "title": "Tokens are exactly the maximal separator-free runs", "statement": "The parts of FieldsFunc, as index ranges of the input, are in increasing order and are exactly the ranges [i,j) that are non-empty, contain no separator, and cannot be extended on either side.", "quantifier": "every rune slice, every separator predicate, every index range", "why_tests_cant": "Exactness (nothing missing, nothing extra, nothing merged) is a statement over all ranges of all inputs.", "anchors": ["terminal/runes/fields.go:FieldsFunc"]}
{"id": "C03", "title": "Tokenizing is stable under re-joining", "statement": "Joining the tokens of a text with any one separator rune and tokenizing again yields the same tokens; and any list of non-empty separator-free words joined with one separator tokenizes to that list.", "quantifier": "every list of words and every separator rune", "why_tests_cant": "Round trip over all word lists.", "anchors": ["terminal/runes/fields.go:FieldsFunc", "wordbreak/tokenizer/tokenizer.go:BreakWord"]}
{"id": "C04", "title": "Punctuator output is a partition of the word", "statement": "The concatenation of the parts returned by Punctuator.BreakWord is the input word: separators are retained and no rune is lost, duplicated or reordered.", "quantifier": "every word and every notion of punctuation", "why_tests_cant": "Any interleaving of separators and text, including words made of separators only.", "anchors": ["wordbreak/punctuator/punctuator.go:breakAtFunc", "wordbreak/punctuator/punctuator.go:BreakWord"]}
{"id": "C05", "title": "Punctuator parts are single separators or maximal separator-free runs", "statement": "Every part is either one single separator rune or a non-empty run without separators, and no two runs without separators are adjacent; the output is the only list of parts with these properties whose concatenation is the word.", "quantifier": "every word", "why_tests_cant": "Uniqueness and maximality range over all possible decompositions of all words.", "anchors": ["wordbreak/punctuator/punctuator.go:breakAtFunc"]}
{"id": "C06", "title": "IsPunctuation recognises exactly the separators that BreakWord isolates", "statement": "A part returned by Punctuator.BreakWord satisfies IsPunctuation iff it is an isolated separator; the pipe is always a separator, and a hyphen rune never is.", "quantifier": "every word, every part; every rune of class Hyphen", "why_tests_cant": "The line breaker dispatches on IsPunctuation for every part it gets; agreement must hold for all of them.", "anchors": ["wordbreak/punctuator/punctuator.go:IsPunctuation", "wordbreak/punctuator/punctuator.go:punctSplitFunc"]}
{"id": "C07", "title": "SplitWord partitions a word on explicit hyphens", "statement": "The concatenation of SplitWord(word) is word; each hyphen is isolated as a one-rune part, every other part is non-empty and hyphen-free, and IsHyphen holds exactly for the hyphen parts.", "quantifier": "every word", "why_tests_cant": "Consecutive, leading, trailing hyphens in all combinations.", "anchors": ["wordbreak/hyphenator/hyphenator.go:SplitWord", "wordbreak/hyphenator/hyphenator.go:IsHyphen"]}
{"id": "C08", "title": "Word breaking pipeline is lossless and unambiguous", "statement": "Splitting a text on punctuation, then on hyphens, then at hyphenation points and concatenating everything gives the text back, and no part is both a punctuation mark and a hyphen.", "quantifier": "every text, every dictionary, every option setting with non-negative minima", "why_tests_cant": "Composition of three splitters over all texts.", "anchors": ["linebreak/linebreaker.go:boxNodes", "wordbreak/punctuator/punctuator.go:BreakWord", "wordbreak/hyphenator/hyphenator.go:SplitWord", "wordbreak/hyphenator/hyphenator.go:BreakWord"]}
{"id": "C09", "title": "Hyphenation never alters or drops letters and never panics", "statement": "Hyphenator.BreakWord returns at least one part and the parts concatenate to the input word, for any dictionary; it does not panic when minLeft and minRight are not negative.", "quantifier": "every word, every dictionary (any patterns, any exceptions, even malformed ones), every non-negative minLeft/minRight and every minLength", "why_tests_cant": "Positions come from merging arbitrary dictionary rows at arbitrary offsets; index safety must hold for all of them.", "anchors": ["wordbreak/hyphenator/hyphenator.go:BreakWord", "wordbreak/hyphenator/hyphenator.go:mergeBreakPoints", "wordbreak/hyphenator/hyphenator.go:splitAtPositions"]}
{"id": "C10", "title": "Minimum part lengths are honoured", "statement": "When a word is broken, every part but the last has at least minLeft runes and the last part has at least minRight runes; so with minLeft, minRight >= 1 no part of a non-empty word is empty.", "quantifier": "every word, dictionary and option setting with non-negative minima", "why_tests_cant": "Holds for all positions arrays, including odd values next to each other or at the word edges.", "anchors": ["wordbreak/hyphenator/hyphenator.go:splitAtPositions", "wordbreak/hyphenator/options.go:WithMinLeft", "wordbreak/hyphenator/options.go:WithMinRight"]}
{"id": "C11", "title": "Short words and words with an explicit hyphen are left whole", "statement": "A word shorter than minLength, or containing a hyphen rune, is returned as a single part.", "quantifier": "every word, dictionary and option setting", "why_tests_cant": "All words.", "anchors": ["wordbreak/hyphenator/hyphenator.go:BreakWord", "wordbreak/hyphenator/hyphenator.go:containsHyphen"]}
{"id": "C12", "title": "Hyphenation points are Liang's", "statement": "For a word that is not an exception, BreakWord cuts exactly where Frank Liang's algorithm does: the value of an inter-letter gap is the maximum over every occurrence of every pattern in '.word.', odd values allow a break, and allowed gaps are taken from left to right subject to minLeft/minRight.", "quantifier": "every word, every dictionary, every minLeft >= 1 and minRight >= 2", "why_tests_cant": "Agreement of an optimised incremental algorithm with the declarative maximum over all pattern occurrences.", "anchors": ["wordbreak/hyphenator/hyphenator.go:BreakWord", "wordbreak/hyphenator/hyphenator.go:isPattern", "wordbreak/hyphenator/hyphenator.go:mergeBreakPoints"]}
{"id": "C13", "title": "Listed exceptions are hyphenated exactly as listed", "statement": "If the dictionary's exception list contains a hyphenated word (e.g. as-so-ciate), BreakWord of the word without hyphens returns the listed parts, whatever the patterns say, as long as the listed parts satisfy the minimum lengths.", "quantifier": "every exception entry, every dictionary containing it, every option setting compatible with the parts", "why_tests_cant": "Round trip of the exception encoding for all entries.", "anchors": ["wordbreak/hyphenator/hyphenator.go:isException", "wordbreak/hyphenator/dictionary.go:readException", "wordbreak/hyphenator/hyphenator.go:splitAtPositions"]}
{"id": "C14", "title": "Hyphenation does not depend on letter case", "statement": "BreakWord cuts a word and its lower-cased form at the same places.", "quantifier": "every word and dictionary", "why_tests_cant": "All words; the exception list and the patterns take different code paths.", "anchors": ["wordbreak/hyphenator/hyphenator.go:BreakWord", "wordbreak/hyphenator/hyphenator.go:isPattern", "wordbreak/hyphenator/hyphenator.go:isException"]}
{"id": "C15", "title": "Patterns decode to letters and inter-letter values", "statement": "Reading a TeX pattern yields its letters (lower-cased, digits removed) and, for every pattern in which no two digits are adjacent, the array whose k-th entry is the digit written before the k-th letter (0 if none), plus one final entry when a digit ends the pattern.", "quantifier": "every pattern string", "why_tests_cant": "All pattern strings, not just the documented a5ban example.", "anchors": ["wordbreak/hyphenator/dictionary.go:readPattern", "wordbreak/hyphenator/dictionary.go:atoiRune"]}
{"id": "C16", "title": "A loaded dictionary contains exactly the file's entries", "statement": "After LoadPatterns, looking up a fragment gives the value of the last pattern in the file with these letters, and nothing for a fragment that no pattern line defines; every line after the hyphenation marker is an exception entry; the dictionary's Identifier is what follows \\message{ on the last such line, or the default one.", "quantifier": "every sequence of lines of a pattern file", "why_tests_cant": "All files, repeated and overlapping patterns.", "anchors": ["wordbreak/hyphenator/dictionary.go:LoadPatterns"]}
{"id": "C17", "title": "The trie is a map from rune strings to values", "statement": "After any sequence of Put and Delete, Get(k) returns the value of the last Put of k not followed by a Delete of k, and nil otherwise.", "quantifier": "every operation history and every key", "why_tests_cant": "Unbounded histories of interleaved operations on keys that share prefixes.", "anchors": ["wordbreak/hyphenator/internal/trie/rune_trie.go:Get", "wordbreak/hyphenator/internal/trie/rune_trie.go:Put", "wordbreak/hyphenator/internal/trie/rune_trie.go:Delete"]}
{"id": "C18", "title": "Trie results report and leave no garbage", "statement": "Put returns true iff the key had no value; Delete of a non-empty key returns true iff the key is a prefix of some stored key (itself included), and Delete of the empty key always returns true; in every reachable trie each branch leads to a stored value, so deleting everything leaves an empty trie.", "quantifier": "every history of Put (non-nil values) and Delete", "why_tests_cant": "Pruning after every possible history.", "anchors": ["wordbreak/hyphenator/internal/trie/rune_trie.go:Put", "wordbreak/hyphenator/internal/trie/rune_trie.go:Delete"]}
{"id": "C19", "title": "Concurrent hyphenators share one dictionary per language", "statement": "Under any interleaving of any number of goroutines creating hyphenators, a pattern file is loaded at most once, and all callers for that file receive the same dictionary.", "quantifier": "every number of goroutines, every assignment of languages, every schedule", "why_tests_cant": "Schedules cannot be enumerated by tests.", "anchors": ["wordbreak/hyphenator/cache.go:loadDictFromCache"]}
{"id": "C20", "title": "Every language resolves to a shipped pattern file", "statement": "Whatever tag the language matcher returns, the chosen pattern file is one of the embedded files; British/plain English, Spanish, French, German - in any regional variant - get the file of their language and everything else gets American English.", "quantifier": "every language tag and every result of the matcher", "why_tests_cant": "All tags.", "anchors": ["wordbreak/hyphenator/languages.go:langToPattern"]}
{"id": "C21", "title": "The packed lookup table agrees with the classification", "statement": "Without options, Width(r) obtained from the 2-bit packed table equals the width computed directly from the Unicode range tables.", "quantifier": "every rune (all of int32)", "why_tests_cant": "1.1 million code points, packing of 4 widths per byte, and one width that does not fit in 2 bits.", "anchors": ["terminal/runes/width.go:Width", "terminal/runes/lookup.go:buildLookupTable", "terminal/runes/width.go:runeWidth"]}
{"id": "C22", "title": "Widths are small non-negative and 0 for invalid runes", "statement": "Width(r) is between 0 and 4 without options; it is 0 for every invalid rune, control character and U+FFFD, under any options.", "quantifier": "every rune, every options list", "why_tests_cant": "All of int32.", "anchors": ["terminal/runes/width.go:Width", "terminal/runes/width.go:runeWidth"]}
{"id": "C23", "title": "The width of a slice is the sum of the widths of its runes", "statement": "Widths(rs, opts...) equals the sum of Width(r, opts...) over the slice.", "quantifier": "every rune slice, every options list", "why_tests_cant": "All slices; special code points and invalid runes.", "anchors": ["terminal/runes/width.go:Widths", "terminal/runes/width.go:Width"]}
{"id": "C24", "title": "Slice width is additive", "statement": "Widths(a ++ b) = Widths(a) + Widths(b), the width does not depend on the order of the runes, and it is between 0 and three columns by rune (four in East-Asian mode, or the width set for ambiguous runes), so that the sum does not overflow.", "quantifier": "every pair of slices of valid runes, every options list", "why_tests_cant": "All splits of all texts: what line breaking relies on.", "anchors": ["terminal/runes/width.go:Widths"]}
{"id": "C25", "title": "East-Asian mode only changes ambiguous runes", "statement": "Turning WithEastAsian on changes the width only of runes for which IsAmbiguous is true (or of emojis when WithSkipStrictEmojiNeutral is set); an ambiguous printable rune gets exactly the configured ambiguous width, and wide runes have width 2 in both modes.", "quantifier": "every rune, every ambiguous width", "why_tests_cant": "All code points against overlapping range tables.", "anchors": ["terminal/runes/width.go:runeWidth", "terminal/runes/options.go:WithEastAsian"]}
{"id": "C26", "title": "Table membership is exact", "statement": "The binary search finds a rune iff some interval of the table contains it; in particular IsAmbiguous(r) holds iff r lies in a listed ambiguous range.", "quantifier": "every rune and every sorted non-overlapping interval table; the shipped tables are of that form", "why_tests_cant": "All runes, all tables; off-by-one bounds are invisible on sampled runes.", "anchors": ["terminal/runes/lookup.go:inTable", "terminal/runes/width.go:IsAmbiguous"]}
{"id": "C27", "title": "Options are local to a call", "statement": "Options given to one call never affect another call: the result of a call depends only on its own arguments, the last option of a kind wins, and emoji/ambiguous options have no effect when East-Asian mode is off.", "quantifier": "every history of calls with arbitrary options", "why_tests_cant": "All histories.", "anchors": ["terminal/runes/options.go:optionsWithDefaults"]}
{"id": "C28", "title": "Concurrent first use of Width is safe", "statement": "Under any interleaving of concurrent calls, the lookup table is built exactly once before any lookup reads it, and every call returns the sequential result.", "quantifier": "every number of goroutines, every schedule", "why_tests_cant": "Schedules cannot be enumerated by tests.", "anchors": ["terminal/runes/width.go:Width", "terminal/runes/lookup.go:initLookupTable"]}
{"id": "C29", "title": "String width equals rune width", "statement": "StringWidth of the UTF-8 encoding of valid runes equals Widths of these runes; each invalid byte of a string counts 0.", "quantifier": "every list of valid runes, every byte string", "why_tests_cant": "All byte strings.", "anchors": ["terminal/runes/width.go:StringWidth"]}
{"id": "C30", "title": "Runes written are the runes read back", "statement": "The bytes produced by WriteRunes are the UTF-8 encoding: decoding them gives the runes back, invalid runes being replaced by U+FFFD.", "quantifier": "every rune slice", "why_tests_cant": "All runes at all encoding-length boundaries.", "anchors": ["terminal/runes/runesio/writer.go:writeRunes", "terminal/runes/runesio/writer.go:writeRune"]}
{"id": "C31", "title": "Writing a slice is writing its runes", "statement": "WriteRunes(rs) hands the underlying writer, in a single Write, the same bytes as WriteRune called on each rune in turn; the returned count and error are those of the underlying writer.", "quantifier": "every rune slice, every underlying writer behaviour", "why_tests_cant": "All slices and writers, including failing ones.", "anchors": ["terminal/runes/runesio/writer.go:WriteRunes", "terminal/runes/runesio/writer.go:WriteRune"]}
{"id": "C32", "title": "The reader position is always within the slice and reads are sequential", "statement": "After any sequence of ReadRune, Seek, Runes and Slice calls the position is between 0 and the length; ReadRune returns the rune at the position and advances by one, and at the end returns io.EOF forever without moving.", "quantifier": "every rune slice, every operation history", "why_tests_cant": "Unbounded histories.", "anchors": ["terminal/runes/runesio/slice_reader.go:ReadRune", "terminal/runes/runesio/slice_reader.go:Seek"]}
{"id": "C33", "title": "Seek moves exactly where asked or not at all", "statement": "Seek succeeds iff the target (relative to start, current position or end) lies in [0, length] and then returns and sets that position; otherwise it returns ErrSeekOutOfRange and the position is unchanged. This includes offsets whose addition overflows 64 bits.", "quantifier": "every int64 offset, every whence, every reader state", "why_tests_cant": "All 64-bit offsets, including wrap-around.", "anchors": ["terminal/runes/runesio/slice_reader.go:Seek"]}
{"id": "C34", "title": "Looking at runes does not consume them", "statement": "Runes returns exactly the unread runes; Slice and Slices return the requested ranges regardless of the position; none of them changes the position; Slices panics on an odd number of offsets.", "quantifier": "every reader state, every list of offsets", "why_tests_cant": "All states and ranges.", "anchors": ["terminal/runes/runesio/slice_reader.go:Runes", "terminal/runes/runesio/slice_reader.go:Slice", "terminal/runes/runesio/slice_reader.go:Slices"]}
{"id": "C35", "title": "Byte ranges map to rune ranges", "statement": "SliceFromByteOffsets on byte offsets that fall on rune boundaries returns, for each pair, exactly the runes whose UTF-8 encoding is that byte range.", "quantifier": "every slice of valid runes, every list of boundary pairs", "why_tests_cant": "All mixes of 1 to 4 byte runes.", "anchors": ["terminal/runes/runesio/slice_reader.go:SliceFromByteOffsets"]}
{"id": "C36", "title": "Stripping always terminates", "statement": "StripToken returns (or panics) after finitely many steps for every input, with at most one result per input rune (one result for the empty input).", "quantifier": "every rune slice, every capacity of its backing array", "why_tests_cant": "A loop on Remainder has no syntactic bound: each step must make progress for every input.", "anchors": ["terminal/ansi/ansi.go:StripToken", "terminal/ansi/ansi.go:StripANSIFromRunes"]}
{"id": "C37", "title": "Stripping is lossless", "statement": "Concatenating, over the results of StripToken, the start sequence, the text and the stop sequence gives back the input runes.", "quantifier": "every rune slice", "why_tests_cant": "All inputs, including truncated and nested escape sequences.", "anchors": ["terminal/ansi/ansi.go:StripToken", "terminal/ansi/ansi.go:StripANSIFromRunes"]}
{"id": "C38", "title": "Stripping does not modify the caller's runes", "statement": "StripANSIFromRunes leaves the backing array of its argument unchanged, although it appends to a sub-slice of it.", "quantifier": "every rune slice and every spare capacity", "why_tests_cant": "Aliasing through append depends on capacity and offsets for all inputs.", "anchors": ["terminal/ansi/ansi.go:StripANSIFromRunes"]}
{"id": "C39", "title": "Text without escape sequences is untouched", "statement": "If a token contains no ESC [ introducer, StripToken returns one result with that text, no sequences and no remainder.", "quantifier": "every rune slice without introducer", "why_tests_cant": "All texts, including those with stray ESC runes.", "anchors": ["terminal/ansi/ansi.go:StripANSIFromRunes", "terminal/ansi/ansi.go:decodeText"]}
{"id": "C40", "title": "A styled word is split into its parts", "statement": "For any well-formed start sequence (SGR with a non-zero first parameter and any number of parameters, or s/h), any text without ESC and any well-formed stop sequence (SGR 0 or empty, or u/l), StripANSIFromRunes of their concatenation returns exactly these three parts and an empty remainder.", "quantifier": "every parameter list, every text, every stop sequence", "why_tests_cant": "Unbounded parameter lists and texts.", "anchors": ["terminal/ansi/ansi.go:StripANSIFromRunes", "terminal/ansi/ansi.go:decodeANSISequence"]}
{"id": "C41", "title": "Reported sequences are control sequences of the announced kind", "statement": "Each StartSequence returned is empty or begins with ESC [ and ends with s, h or m (m: with a non-zero first parameter); each StopSequence is empty or begins with ESC [ and ends with u, l or m (m: first parameter zero or absent).", "quantifier": "every rune slice", "why_tests_cant": "All inputs.", "anchors": ["terminal/ansi/ansi.go:StripANSIFromRunes", "terminal/ansi/ansi.go:decodeANSISequence"]}
{"id": "C42", "title": "Stripped text contains no start or stop sequence", "statement": "No Text returned by StripToken contains a start or stop sequence.", "quantifier": "every rune slice", "why_tests_cant": "All inputs.", "anchors": ["terminal/ansi/ansi.go:StripToken", "terminal/ansi/ansi.go:decodeText"]}
{"id": "C43", "title": "Stripping never panics", "statement": "StripANSIFromRunes returns normally for every input.", "quantifier": "every rune slice and every capacity of its backing array", "why_tests_cant": "Slice bounds depend on the input's tail.", "anchors": ["terminal/ansi/ansi.go:decodeANSISequence"]}
{"id": "C44", "title": "Rendering an attribute writes start, text, stop", "statement": "Attribute.Render writes the start sequence, the text and the stop sequence in this order, and nothing else; Renderers.Render writes its non-nil members in order.", "quantifier": "every attribute and list of renderers", "why_tests_cant": "All values.", "anchors": ["attributes/attribute.go:Render", "attributes/iface.go:Render"]}
{"id": "C45", "title": "Nesting levels count the open sequences", "statement": "After pushing any sequence of attributes, the level of the k-th is the number of starts among the first k minus the number of stops among the first k-1.", "quantifier": "every sequence of pushed attributes", "why_tests_cant": "Unbounded histories.", "anchors": ["attributes/state.go:Push"]}
{"id": "C46", "title": "The iterator visits every renderer once in order", "statement": "Iterating with Next/Item yields the pushed renderers in order, each once; after the last, Next returns false for ever. Renderers pushed while iterating are visited too, unless Next was false before; an iterator made on an empty State never visits anything.", "quantifier": "every pushed sequence, every number of Next calls, with pushes in between", "why_tests_cant": "Unbounded histories.", "anchors": ["attributes/state.go:Iterator", "attributes/state.go:Next", "attributes/state.go:Item"]}
{"id": "C47", "title": "Starting a line resumes exactly the open sequences", "statement": "StartOfLine writes exactly the start sequences that are open after the current renderer.", "quantifier": "every pushed sequence, every current position", "why_tests_cant": "All nestings.", "anchors": ["attributes/state.go:StartOfLine", "attributes/state.go:backtrack"]}
{"id": "C48", "title": "Ending a line closes the open sequences", "statement": "When a sequence is open after the current renderer and it is closed later by a stop sequence, EndOfLine writes that stop sequence, and nothing belonging to another sequence.", "quantifier": "every pushed sequence, every current position", "why_tests_cant": "All nestings.", "anchors": ["attributes/state.go:EndOfLine"]}
{"id": "C49", "title": "Unstyled text gets no escape sequences", "statement": "When no sequence is open after the current renderer (level 0), StartOfLine and EndOfLine write nothing; for paragraphs without escape sequences the line breaker writes none.", "quantifier": "every pushed sequence at level 0; every paragraph without ESC", "why_tests_cant": "All paragraphs.", "anchors": ["attributes/state.go:StartOfLine", "attributes/state.go:EndOfLine"]}
{"id": "C50", "title": "Line breaking loses no text", "statement": "If LeftAlignUniform succeeds on escape-free non-empty tokens, the lines put end to end - with one space where a line ended between two words, nothing where it ended after a mark or inside a word, and the rendered soft hyphen removed - are the tokens joined by single spaces.", "quantifier": "every list of non-empty tokens, every positive width, every map iteration order, every history of calls, every option setting with integral widths", "why_tests_cant": "All paragraphs and all break decisions.", "anchors": ["linebreak/linebreaker.go:LeftAlignUniform", "linebreak/linebreaker.go:render", "linebreak/linebreaker.go:boxNodes", "linebreak/knuth_plass.go:breakPoints"]}
{"id": "C51", "title": "No line is wider than requested", "statement": "If LeftAlignUniform succeeds, every line's measured width (words, spaces and rendered hyphen) is at most maxWidth.", "quantifier": "every list of tokens, every width, every map iteration order", "why_tests_cant": "All paragraphs and all break decisions.", "anchors": ["linebreak/linebreaker.go:LeftAlignUniform", "linebreak/knuth_plass.go:adjustmentRatio", "linebreak/knuth_plass.go:mainLoop"]}
{"id": "C52", "title": "Failure means no acceptable setting exists", "statement": "LeftAlignUniform returns ErrCannotBeSet iff there is no way to choose legal break points such that each line fits the width and its adjustment ratio is within the tolerance; success or failure does not depend on the map iteration order.", "quantifier": "every list of tokens, every width", "why_tests_cant": "Existential over exponentially many break choices.", "anchors": ["linebreak/linebreaker.go:LeftAlignUniform", "linebreak/knuth_plass.go:mainLoop", "linebreak/knuth_plass.go:insertNewActiveBreak"]}
{"id": "C53", "title": "Lines end only at legal break points", "statement": "Every line of a result ends between two words, after a punctuation mark or an explicit hyphen, at a hyphenation point, or with the paragraph; lines are consecutive stretches of the paragraph and the last one ends with it.", "quantifier": "every list of tokens, width, options, map order", "why_tests_cant": "All paths of the search.", "anchors": ["linebreak/knuth_plass.go:breakPoints", "linebreak/knuth_plass.go:mainLoop"]}
{"id": "C54", "title": "Line breaking does not panic", "statement": "LeftAlignUniform returns normally for every paragraph of escape-free tokens with a positive width and default options.", "quantifier": "every list of tokens, every positive width, every map iteration order", "why_tests_cant": "Rendering slices nodes between breaks; a break pair without text between would panic.", "anchors": ["linebreak/linebreaker.go:render", "linebreak/linebreaker.go:skipNodes"]}
{"id": "C55", "title": "A paragraph that fits stays on one line", "statement": "If the whole paragraph fits in maxWidth, LeftAlignUniform returns a single line.", "quantifier": "every list of tokens that does not start with an empty one, every width from 1 to 4997, every tolerance of at least 1/2", "why_tests_cant": "All paragraphs; depends on the order in which candidates are explored.", "anchors": ["linebreak/knuth_plass.go:mainLoop", "linebreak/knuth_plass.go:findBestBreak"]}
{"id": "C56", "title": "Words are separated by exactly one space", "statement": "In left-aligned output each gap between two words on a line is exactly one space, whatever stretch the chosen breaks imply.", "quantifier": "every list of non-empty tokens, every positive width, every map order, every scale under which a space takes one blank", "why_tests_cant": "The ratio used for rendering comes from the whole chain of break points.", "anchors": ["linebreak/linebreaker.go:render", "linebreak/knuth_plass.go:insertNewActiveBreak"]}
{"id": "C57", "title": "A hyphen is added only where a word was cut", "statement": "A line ends with an added hyphen only if it ended at a soft hyphenation point.", "quantifier": "every list of tokens, width, hyphen penalty, map order", "why_tests_cant": "The renderer recognises soft hyphens by comparing penalty values.", "anchors": ["linebreak/linebreaker.go:render", "linebreak/linebreaker.go:pushHyphen", "linebreak/options.go:WithHyphenPenalty"]}
{"id": "C58", "title": "Line breaking is deterministic", "statement": "LeftAlignUniform called on the same input gives the same lines.", "quantifier": "every list of tokens, every pair of map iteration orders", "why_tests_cant": "Tests observe only a few of the orders in which Go may iterate a map.", "anchors": ["linebreak/knuth_plass.go:insertNewActiveBreak"]}
{"id": "C59", "title": "The chosen breaks have minimal demerits", "statement": "The lines returned have the least total demerits among all acceptable settings of the paragraph.", "quantifier": "every list of tokens, every width", "why_tests_cant": "Optimality over exponentially many settings.", "anchors": ["linebreak/knuth_plass.go:mainLoop", "linebreak/knuth_plass.go:insertNewActiveBreak", "linebreak/knuth_plass.go:findBestBreak"]}
{"id": "C60", "title": "A paragraph without text cannot be set", "statement": "LeftAlignUniform returns ErrCannotBeSet for no tokens, and for tokens that contain no text when the width is positive.", "quantifier": "every list of empty tokens, every positive width", "why_tests_cant": "All lengths.", "anchors": ["linebreak/linebreaker.go:LeftAlignUniform", "linebreak/knuth_plass.go:breakPoints"]}
{"id": "C61", "title": "A line breaker can be reused", "statement": "The result of LeftAlignUniform does not depend on earlier calls on the same LineBreaker.", "quantifier": "every history of earlier calls", "why_tests_cant": "Unbounded histories.", "anchors": ["linebreak/linebreaker.go:LeftAlignUniform", "linebreak/linebreaker.go:New"]}
{"id": "C62", "title": "No line is empty", "statement": "Every line of a successful result contains at least one word part.", "quantifier": "every list of tokens that does not start with an empty one, every positive width, every map order", "why_tests_cant": "All paths of the search.", "anchors": ["linebreak/linebreaker.go:render", "linebreak/knuth_plass.go:mainLoop"]}
{"id": "C63", "title": "Words are not cut when word breaking is off", "statement": "With WithWordBreak(false) a line never ends inside a word except right after a punctuation mark, and no hyphen is added.", "quantifier": "every list of non-empty tokens, every positive width, every map order", "why_tests_cant": "All paragraphs.", "anchors": ["linebreak/linebreaker.go:boxNodes"]}
{"id": "C64", "title": "Escape sequences of the input reach the output", "statement": "Every start or stop sequence of the input tokens is written in the output.", "quantifier": "every list of tokens", "why_tests_cant": "All arrangements of escape sequences.", "anchors": ["linebreak/linebreaker.go:boxNodes", "linebreak/knuth_plass_types.go:tokenState"]}
{"id": "C65", "title": "Each line opens and closes its own styling", "statement": "When styled runs are separated by unstyled text, each output line that ends inside a styled run writes the run's stop sequence at its end, and the next line begins with the run's start sequence.", "quantifier": "every such paragraph, every break choice", "why_tests_cant": "All break choices.", "anchors": ["linebreak/linebreaker.go:render", "attributes/state.go:StartOfLine", "attributes/state.go:EndOfLine"]}
{"id": "C66", "title": "Hyphenator options: the last one wins", "statement": "Each setting of a hyphenator (language, minimum length, left and right minima) has the value of the last option given for it, and its documented default (en-US, 4, 2, 2) when there is none.", "quantifier": "every list of options", "why_tests_cant": "All lists of options in all orders.", "anchors": ["wordbreak/hyphenator/options.go:defaultOptions", "wordbreak/hyphenator/options.go:WithMinLength"]}
{"id": "C67", "title": "Styling does not change where lines are broken", "statement": "Two lists of tokens that differ only by their escape sequences are both set or none is, and each line holds the same text; taking the sequences out of the styled lines gives exactly the lines of the unstyled text.", "quantifier": "every list of tokens, every placement of sequences, every width and map order, every history of calls", "why_tests_cant": "All placements of sequences and all paths of the search.", "anchors": ["linebreak/linebreaker.go:LeftAlignUniform", "linebreak/linebreaker.go:boxNodes", "linebreak/linebreaker.go:render"]}
{"id": "C68", "title": "Each line shows its text in the style of the input", "statement": "Shown alone on a terminal, each output line displays its part of the text, every rune in the style it has in the input text, and leaves no style in force at its end; no text is lost or added but hyphens and the spaces replaced by line ends.", "quantifier": "every list of styled tokens, every width, every map order, every history of calls", "why_tests_cant": "All placements of sequences and all break choices.", "anchors": ["linebreak/linebreaker.go:render", "attributes/state.go:StartOfLine", "attributes/state.go:EndOfLine", "linebreak/knuth_plass_types.go:tokenState"]}
{"id": "C69", "title": "Words that fit are set", "statement": "If each word of a paragraph is not wider than the lines, LeftAlignUniform sets the paragraph; if some part that may not be divided is wider than the lines, it returns ErrCannotBeSet.", "quantifier": "every list of words, every width, every map order, every history of calls", "why_tests_cant": "The search prunes candidates by ratios that depend on all the words of a line: no sample of paragraphs covers them.", "anchors": ["linebreak/linebreaker.go:LeftAlignUniform", "linebreak/linebreaker.go:computeAdjustmentRatio"]}
{"id": "C70", "title": "More tolerance never hurts", "statement": "A paragraph that is set with some tolerance is also set with any higher tolerance.", "quantifier": "every list of words, every width, every two tolerances, every two histories", "why_tests_cant": "A relation between two runs of the search over all paragraphs.", "anchors": ["linebreak/linebreaker.go:LeftAlignUniform", "linebreak/options.go:WithTolerance"]}
{"id": "C71", "title": "Allowing words to be broken never hurts", "statement": "A paragraph that is set with WithWordBreak(false) is also set with WithWordBreak(true).", "quantifier": "every list of words, every dictionary, every width", "why_tests_cant": "A relation between two runs on different lists of nodes.", "anchors": ["linebreak/linebreaker.go:LeftAlignUniform", "linebreak/options.go:WithWordBreak", "linebreak/linebreaker.go:boxNodes"]}
{"id": "C72", "title": "Not writing hyphens never hurts", "statement": "A paragraph that is set with WithRenderHyphens(true) is also set with WithRenderHyphens(false), as its lines are not wider.", "quantifier": "every list of words, every dictionary, every width", "why_tests_cant": "A relation between two runs of the search.", "anchors": ["linebreak/linebreaker.go:LeftAlignUniform", "linebreak/options.go:WithRenderHyphens", "linebreak/linebreaker.go:boxNodes"]}
{"id": "C73", "title": "The last option wins", "statement": "Each setting of a line breaker is the one of the last option given for it, its default if none; WithHyphenator implies WithWordBreak(true); a nil function given to WithHyphenator or WithPunctuator stands for the default one; WithLooseness has no effect on the line breaker.", "quantifier": "every list of options", "why_tests_cant": "All lists of options, with repetitions and in every order.", "anchors": ["linebreak/options.go:defaultOptions", "linebreak/options.go:WithHyphenator", "linebreak/options.go:WithLooseness", "linebreak/linebreaker.go:New"]}
{"id": "C74", "title": "Strings in, UTF-8 strings out", "statement": "For strings with any bytes, each line returned is valid UTF-8; decoded, the lines hold the words given, where bytes that are not UTF-8 are replaced by U+FFFD. For words that are UTF-8, the lines are the encodings of the lines of the runes.", "quantifier": "every list of non-empty byte strings (each with some text, if it has escape sequences), every width and history", "why_tests_cant": "All byte strings, valid or not.", "anchors": ["linebreak/linebreaker.go:LeftAlignUniform", "terminal/runes/runesio/writer.go:WriteRunes"]}
{"id": "C75", "title": "Wrapping a text keeps its words", "statement": "When a text is divided into words by the tokenizer and set, the lines without their spaces and without the hyphens added at their ends are the text without its spaces; when words are not broken and have no punctuation mark, dividing the lines into words again gives the words of the text.", "quantifier": "every text, every width, every map order, every history of calls", "why_tests_cant": "The composition of two algorithms on all texts.", "anchors": ["linebreak/linebreaker.go:LeftAlignUniform", "wordbreak/tokenizer/tokenizer.go:BreakWord"]}
{"id": "C76", "title": "The rule that chooses the lines", "statement": "The settings a paragraph may be given, over all iteration orders of the map of candidates, are exactly the settings made of acceptable lines where each line starts as early as possible given where it ends and its looseness class, and ends as early as possible given what is left to set after it. Moreover the last line is as long as it can be: the last line of any acceptable setting is the end of the last line returned.", "quantifier": "every paragraph, width, measurer and map order, every history of calls", "why_tests_cant": "Compares the lines returned with all acceptable settings, whose number is exponential in the number of words.", "anchors": ["linebreak/linebreaker.go:LeftAlignUniform", "linebreak/knuth_plass.go:mainLoop", "linebreak/knuth_plass.go:findBestBreak"]}
{"id": "C77", "title": "A larger penalty never adds hyphens", "statement": "Two line breakers that differ only by WithHyphenPenalty (penalties from 0 up to that of a forbidden break, excluded) give the same results to the same calls, one after the other: raising the penalty never adds a hyphen, and never removes one. (Negative penalties do change the lines.)", "quantifier": "every list of calls, all words (escape sequences included), widths, measurers, split functions, map orders, every two penalties", "why_tests_cant": "A relation between two runs, for all paragraphs and all pairs of penalties.", "anchors": ["linebreak/options.go:WithHyphenPenalty", "linebreak/knuth_plass.go:mainLoop", "linebreak/linebreaker.go:pushHyphen"]}
{"id": "C78", "title": "A width counts as the nearest whole number", "statement": "Without scaling, LeftAlignUniform returns for a fractional maxWidth of at least half a column what it returns for the nearest integer (halves go up): so no line exceeds maxWidth by more than half a column.", "quantifier": "every float64 from 0.5 to 2^53, every text and every state of the line breaker", "why_tests_cant": "All values of type float64 and all paragraphs.", "anchors": ["linebreak/linebreaker.go:LeftAlignUniform", "linebreak/options.go:scale"]}
{"id": "C79", "title": "A wide limit is not an error", "statement": "A text that fits on a line of width maxWidth is set, however large maxWidth is, including +Inf.", "quantifier": "every text, every float64 not less than its width, every history of calls", "why_tests_cant": "All paragraphs and all values of type float64.", "anchors": ["linebreak/linebreaker.go:LeftAlignUniform", "linebreak/knuth_plass.go:adjustmentRatio", "linebreak/knuth_plass.go:mainLoop"]}
{"id": "C80", "title": "A width that is not positive is refused", "statement": "If maxWidth is not a positive number (zero, negative, -Inf or NaN), LeftAlignUniform returns ErrCannotBeSet for any text that has a width, and does not panic.", "quantifier": "every text, every such float64, every map order, every history of calls", "why_tests_cant": "All paragraphs; comparisons with NaN take unusual branches everywhere in the search.", "anchors": ["linebreak/linebreaker.go:LeftAlignUniform", "linebreak/knuth_plass.go:adjustmentRatio", "linebreak/knuth_plass.go:mainLoop"]}
{"id": "C81", "title": "A line set again is unchanged", "statement": "If a line returned by LeftAlignUniform is divided into words by the tokenizer and set again with the same width and options, by the same or another line breaker, the result is this very line.", "quantifier": "every list of words without spaces, every width up to 4997, every map order, every history of calls", "why_tests_cant": "A fixed point over all texts and all lines that may be returned, with hyphens added by the first run as input of the second.", "anchors": ["linebreak/linebreaker.go:LeftAlignUniform", "wordbreak/tokenizer/tokenizer.go:BreakWord", "linebreak/knuth_plass.go:mainLoop"]}
{"id": "C82", "title": "Line endings and length of lines do not matter in a pattern file", "statement": "LoadPatterns gives the dictionary of the lines of the file, whether they end with LF, with CRLF, or (for the last one) with the end of the file, and however long they are.", "quantifier": "every file content", "why_tests_cant": "All byte contents; the scanner moves and grows its buffer at places that depend on the sizes of all lines.", "anchors": ["wordbreak/hyphenator/dictionary.go:LoadPatterns"]}
{"id": "C83", "title": "The shipped dictionaries work for every word", "statement": "SupportedPatterns lists exactly the files that LoadPatterns can load, in order; in each of them every pattern has at most one value more than letters; a hyphenator made by New with any options returns, for any word, parts that make up the word, and never panics.", "quantifier": "every language tag, every option list with minRight >= 0, every word", "why_tests_cant": "All words and all options over the whole content of five files.", "anchors": ["wordbreak/hyphenator/dictionary.go:SupportedPatterns", "wordbreak/hyphenator/dictionary.go:LoadPatterns", "wordbreak/hyphenator/hyphenator.go:New", "wordbreak/hyphenator/hyphenator.go:BreakWord"]}
{"id": "C84", "title": "The exceptions of the shipped files are honoured", "statement": "A hyphenator made by New for American or British English breaks each word listed in the hyphenation section of its pattern file exactly as listed, for all minima that the listed parts respect.", "quantifier": "every listed word, every option list compatible with its parts", "why_tests_cant": "All option settings; depends on how the end of the file is written.", "anchors": ["wordbreak/hyphenator/languages/ushyphmax.tex", "wordbreak/hyphenator/languages/hyph-en-gb.tex", "wordbreak/hyphenator/dictionary.go:LoadPatterns", "wordbreak/hyphenator/hyphenator.go:isException"]}
{"id": "C85", "title": "Groups of letters that are never divided", "statement": "A hyphenator made by New for Spanish never divides a word between the letters of cr, dr, fr, gr, kr, pr, vr, tx, tz or ll; for French, never between those of cr, dr, fr, gr, kr, pr, vr, cl, fl, gl, pl, ch or ph, and never after an apostrophe unless d or p follows. Capital letters count as small ones.", "quantifier": "every word of any length, every option list with minLeft >= 1 and minRight >= 2", "why_tests_cant": "All words: follows from all patterns of the file at once.", "anchors": ["wordbreak/hyphenator/languages/hyph-es.tex", "wordbreak/hyphenator/languages/hyph-fr.tex", "wordbreak/hyphenator/hyphenator.go:BreakWord"]}
{"id": "C86", "title": "Patterns and exceptions are local", "statement": "Adding a line of patterns to a pattern file does not change how a word is broken if none of these patterns occurs in '.word.'; adding an exception does not change how other words are broken.", "quantifier": "every pattern file, every added line, every word, every option setting", "why_tests_cant": "Pairs of dictionaries and all words.", "anchors": ["wordbreak/hyphenator/hyphenator.go:isPattern", "wordbreak/hyphenator/hyphenator.go:BreakWord", "wordbreak/hyphenator/dictionary.go:LoadPatterns"]}
{"id": "C87", "title": "Words are not cut at their ends", "statement": "BreakWord cuts a non-empty word in non-empty parts that read together give the word, whatever minLeft and minRight are. Proved for minRight >= 1 and any minLeft (0 and negative values included); false for minRight = 0.", "quantifier": "every dictionary, every word that is not an exception, every minLength and minLeft, every minRight >= 1", "why_tests_cant": "All words and dictionaries; the values of several patterns combine at the ends of a word.", "anchors": ["wordbreak/hyphenator/hyphenator.go:BreakWord", "wordbreak/hyphenator/hyphenator.go:splitAtPositions", "wordbreak/hyphenator/options.go:WithMinLeft", "wordbreak/hyphenator/options.go:WithMinRight"]}
{"id": "C88", "title": "A line breaker with the default options, on any text", "statement": "Take any string without ESC, its words found by the tokenizer, and a line breaker made by New() (American patterns, default measurer, float64). LeftAlignUniform returns lines or ErrCannotBeSet without panic and may be called again. Lines are at most as wide as requested and are the words in order, cut between words or inside words, with at most a hyphen added at the end of a line. There are lines if words fit in the width, and those after the first are at most 51 columns wide and start with neither a mark nor a hyphen. There is one line if the whole text fits, when the width is at most 4997 or 53 columns are left.", "quantifier": "every string of at most 2^49 bytes (valid UTF-8 or not) without ESC, every whole width from 1 to 86000, every earlier use of the line breaker, every order of the walk of maps", "why_tests_cant": "All texts, all histories and all map orders at once, through all the packages of the library together.", "anchors": ["linebreak/linebreaker.go:New", "linebreak/linebreaker.go:LeftAlignUniform", "wordbreak/tokenizer/tokenizer.go:BreakWordString", "wordbreak/hyphenator/hyphenator.go:New", "terminal/runes/width.go:Widths"]}
{"id": "C89", "title": "Parts can be modified one by one", "statement": "The parts returned by FieldsFunc, Tokenizer.BreakWord, Punctuator.BreakWord, SplitWord and Hyphenator.BreakWord are the same whatever capacity the argument has beyond its length, and changing one part, in place or with append, does not change the others. Proved for changes in place; false for append: appending a hyphen to a part overwrites the first letter of the next part, in the argument as well.", "quantifier": "every word, every memory around it, every cutting rule, every position of every part, every rune written", "why_tests_cant": "Tests compare returned values; sharing of memory between them, and the memory beyond the argument, cannot be seen in values.", "anchors": ["terminal/runes/fields.go:FieldsFunc", "wordbreak/punctuator/punctuator.go:breakAtFunc", "wordbreak/hyphenator/hyphenator.go:splitAtPositions", "wordbreak/hyphenator/hyphenator.go:SplitWord", "wordbreak/tokenizer/tokenizer.go:BreakWord"]}
{"id": "C90", "title": "Comments are taken out of pattern files, and nothing else", "statement": "The file written by strip_comments has, one per line and in order, the lines of the original which are neither empty nor comments as a whole, without the comment at their end and without white space around. LoadPatterns reads exactly these lines from it. If all comments of the original are on lines of their own and the other lines have no white space around, LoadPatterns makes the same patterns and exceptions of both files.", "quantifier": "every UTF-8 file with lines of at most 65534 bytes, with any line endings, every word", "why_tests_cant": "All files; the lazy regular expression, the trimming and the buffered reading of lines work together.", "anchors": ["wordbreak/hyphenator/languages/strip_comments.go:strip", "wordbreak/hyphenator/languages/strip_comments.go:isTeXComment", "wordbreak/hyphenator/dictionary.go:LoadPatterns"]}
{"id": "C91", "title": "Tables of widths are made of the right runes", "statement": "From a file in the format of EastAsianWidth.txt (entries in increasing order), build_tables makes tables that hold exactly the code points of their class: W and F in doublewidth, A in ambiguous, Na in narrow, N in neutral, and the entries with the word COMBINING in combining. From a file in the format of emoji-data.txt, the emoji table holds exactly the code points of the entries with Extended_Pictographic that do not end below U+00FF. Tables are in order, without overlap, in as few ranges as possible, and the lookup of package runes finds exactly their code points.", "quantifier": "every UTF-8 file in these formats with lines of at most 65534 bytes, any line endings, any comments; every code point", "why_tests_cant": "All files, that is all versions of Unicode to come; merging of ranges happens in place while the loop goes on.", "anchors": ["terminal/runes/build_tables.go:shapeup", "terminal/runes/build_tables.go:eastasian", "terminal/runes/build_tables.go:emoji", "terminal/runes/lookup.go:inTable"]}
{"id": "C92", "title": "The width of a styled line is that of its text", "statement": "When styled text is wrapped, each returned line can be measured by calling ansi.StripToken on it and adding up the widths of the Texts found: the call returns, these Texts are the line without its sequences, and the total is at most the requested width, so that lines can be padded or framed.", "quantifier": "every paragraph of words with sequences, every sane options and measurer that adds up, every width represented exactly, every earlier use of the line breaker, every order of maps", "why_tests_cant": "The test helper that measures lines in this way only prints them. Lines carry sequences of other words, repeated at their start and at their end, so that what StripToken finds in a line is not what it found in the words.", "anchors": ["linebreak/linebreaker.go:LeftAlignUniform", "terminal/ansi/ansi.go:StripToken", "terminal/runes/width.go:Widths"]}
{"id": "C93", "title": "Words of any runes can be wrapped", "statement": "LeftAlignUniform returns normally on words made of any runes: malformed, unknown, nested, repeated or unbalanced sequences included, after any history of calls. It returns lines exactly when the texts that StripToken finds in the words can be set within the tolerance. The lines are these texts, all of them and in order, broken only where a break is legal; apart from these and the spaces and hyphens they hold only start and stop sequences found in words of this or earlier calls. The texts of each line are at most as wide as requested.", "quantifier": "every list of words over all runes, every sane options, every width represented exactly, every earlier use of the line breaker with any words, every order of maps", "why_tests_cant": "Unit tests use a handful of well-formed sequences; the scan of sequences has states that only malformed input reaches, and its result drives the cutting of slices.", "anchors": ["linebreak/linebreaker.go:LeftAlignUniform", "linebreak/linebreaker.go:boxNodes", "terminal/ansi/ansi.go:StripToken"]}
{"id": "C94", "title": "Indented paragraphs are set like others", "statement": "When a paragraph starts with empty tokens (as strings.Split gives for an indented text), LeftAlignUniform does not panic, adds no blank line, sets nothing for the empty tokens, and returns lines whenever it would without them.", "quantifier": "every number of empty tokens, every paragraph of escape-free tokens, every sane options and width represented exactly, every earlier use of the line breaker, every order of maps", "why_tests_cant": "Empty tokens leave glue with opposite stretch before the first box; which part of it is counted depends on their number modulo three. The unit tests have no empty token.", "anchors": ["linebreak/linebreaker.go:LeftAlignUniform", "linebreak/knuth_plass.go:breakPoints", "linebreak/knuth_plass.go:findStartNode"]}
{"id": "C95", "title": "A paragraph is set exactly when its pieces fit", "statement": "Words longer than the lines are divided at their hyphenation points: LeftAlignUniform sets a paragraph if and only if each piece of its words (between the places where the word may be cut) fits in the width, together with the hyphen that is added when the word is cut after it. Otherwise the result is ErrCannotBeSet.", "quantifier": "every list of words, every dictionary or hyphenator, every sane options and width represented exactly, every earlier use of the line breaker, every order of maps", "why_tests_cant": "The search drops candidates by demerits and tolerance; that it always keeps one leading to the end depends on all words, pieces and widths at once.", "anchors": ["linebreak/linebreaker.go:LeftAlignUniform", "linebreak/knuth_plass.go:breakPoints", "linebreak/linebreaker.go:boxNodes"]}
{"id": "C96", "title": "Wider lines never hurt", "statement": "A paragraph that LeftAlignUniform sets in some width is also set in any larger width.", "quantifier": "every list of words, all pairs of widths, every dictionary or hyphenator, every sane options, every earlier use of the line breakers, every order of maps", "why_tests_cant": "A relation between two runs, for all pairs of widths.", "anchors": ["linebreak/linebreaker.go:LeftAlignUniform", "linebreak/knuth_plass.go:breakPoints"]}
{"id": "C97", "title": "Lines are not too short", "statement": "In the lines returned by LeftAlignUniform, every line but the last leaves at most 51 columns free with the default options (in general, no more than 6 times the tolerance), so that a text of N columns makes at most 1 + N/(W-52) lines in a width W greater than 52.", "quantifier": "every paragraph of tokens of any runes, with some text in the first one, every sane options and width represented exactly, every earlier use of the line breaker, every order of maps; float64 for the default options", "why_tests_cant": "A bound on all lines of all results.", "anchors": ["linebreak/linebreaker.go:LeftAlignUniform", "linebreak/knuth_plass.go:breakPoints"]}
{"id": "C98", "title": "Removing words at the end never hurts", "statement": "A paragraph that LeftAlignUniform sets is still set, in the same width, when some words at its end are removed; with the default tolerance in widths up to 85900.", "quantifier": "every list of words of any runes and every way to cut it in two such that the first and the last of the kept words have some text, every sane options and width represented exactly, all earlier uses of the line breakers, every order of maps", "why_tests_cant": "A relation between the runs on a paragraph and on all its beginnings.", "anchors": ["linebreak/linebreaker.go:LeftAlignUniform", "linebreak/knuth_plass.go:breakPoints"]}
{"id": "C99", "title": "The file of the tables of widths declares the right tables", "statement": "The text that build_tables writes is Go source that declares six tables (combining, doublewidth, ambiguous, narrow, neutral, emoji), each with exactly the ranges that were computed for it (hence exactly the code points of its class, by C91), and can be read in no other way. The file runes_tables.go of the repository declares exactly the tables on which the properties of widths are stated.", "quantifier": "every pair of data files in the formats of EastAsianWidth.txt and emoji-data.txt; for generate, every name made of letters and every list of ranges of runes", "why_tests_cant": "A round trip through a printed text, for tables of any length and numbers of any size, needs a proof that the notation is unambiguous.", "anchors": ["terminal/runes/build_tables.go:generate", "terminal/runes/build_tables.go:main", "terminal/runes/build_tables.go:eastasian", "terminal/runes/build_tables.go:emoji", "terminal/runes/runes_tables.go"]}
{"id": "C100", "title": "The search for line breaks takes quadratic time", "statement": "For a paragraph of N runes and words, in lines of any width, the loops of the search for break points make at most 75 N^2 + 60 N + 2 rounds in all; for any list of nodes, at most 3 n^2 + 12 n + 2. This is the right order: for k words that may each be set alone on a line (with the default options: words no wider than lines of at most 51 columns), they make at least (k - 1)(k - 2) / 2 rounds, since no break point is given up before the end of the paragraph.", "quantifier": "every options whose split functions lose nothing, every list of words of any runes (N counts the runes of text that StripToken finds), every history of calls, every width; for the search alone, every list of nodes and all options", "why_tests_cant": "A bound on the work holds for all sizes of paragraphs; tests measure a few, and depend on the machine.", "anchors": ["linebreak/knuth_plass.go:breakPoints", "linebreak/knuth_plass.go:mainLoop", "linebreak/knuth_plass.go:insertNewActiveBreak", "linebreak/knuth_plass.go:sumFromNode", "linebreak/knuth_plass.go:findBestBreak", "linebreak/knuth_plass.go:reverseBreakPoints"]}
{"id": "C101", "title": "The sequences around each line come from one group of pieces", "statement": "Each line returned by LeftAlignUniform is made of the start sequences of a group of pieces of styled text, the pieces of its parts of words with their own sequences, its hyphen, and the stop sequences of a group. A group is the longest stretch of pieces around a position in which the nesting level never goes below the number of open styles there; at nesting 0 nothing is added. Positions are counted from the first piece of the first call on the line breaker, so that a line breaker that has set enough unstyled text never closes or resumes a style.", "quantifier": "every list of words of any runes with some text in the first word, every width, every history of calls, every map order", "why_tests_cant": "All nestings of sequences, all places of line ends and all histories.", "anchors": ["linebreak/linebreaker.go:render", "attributes/state.go:StartOfLine", "attributes/state.go:EndOfLine", "attributes/state.go:Iterator"]}
{"id": "C102", "title": "What StripToken returns, for any text", "statement": "A text that does not end within a control sequence, in a parameter of three digits, is read in exactly one way, from the left to the right, as units: stretches of text (in which an ESC takes the next rune with it), start sequences, stop sequences, and other sequences (another key code, a parameter of three digits with the rune after it, or an unfinished sequence at the end). StripToken returns exactly one result per group of units. A group is an optional start sequence, then either a stretch of text with all other sequences right behind it, or nothing, and then a stop sequence if one follows; or an optional start sequence and one other sequence, without the stop sequence that may follow. So two stretches of text are never joined, and a start sequence followed by another one, or a stop sequence that follows no text, has a result of its own without text. The empty text has one empty result.", "quantifier": "every slice of runes (of any content and length) within any array, that does not end in such a parameter", "why_tests_cant": "All runes in all orders: nested, repeated, malformed and unfinished sequences, of any number.", "anchors": ["terminal/ansi/ansi.go:StripANSIFromRunes", "terminal/ansi/ansi.go:decodeANSISequence"]}
{"id": "C103", "title": "The scale factor only changes the unit", "statement": "With a scale factor, all widths (of texts, spaces, hyphens and lines) are multiplied by it before lines are broken, so the same paragraphs should be set in the same width whatever the factor. A paragraph that is set when an integral factor multiplies the widths by k is also set without. The converse fails with the same tolerance, since the stretch of a line is not scaled: two words, of which the second fills a line and the first leaves d columns, are refused if k * d columns are too many for the tolerance. When the tolerance accepts k times the missing widths as it did the widths, the same paragraphs are set.", "quantifier": "every paragraph, width, tolerance, measurer with integral widths, and factor k > 0, for exact widths", "why_tests_cant": "The claim compares two runs for every text, width, measure and factor; it holds of most small examples.", "anchors": ["linebreak/options.go:WithScaleFactor", "linebreak/linebreaker.go:scale", "linebreak/knuth_plass.go:adjustmentRatio"]}
{"id": "C104", "title": "A paragraph of empty tokens gives at most one empty line", "statement": "For tokens that are all empty and a positive width, LeftAlignUniform does not panic and returns either ErrCannotBeSet or exactly one empty line. With none or one of them it is ErrCannotBeSet. With k of them, k at least 2, it is one empty line if and only if k/3 (rounded down) spaces are as wide as the line, or narrower with the rest within the tolerance of the final stretch.", "quantifier": "every number of empty tokens, every positive width, every tolerance and width of the space, every history of calls", "why_tests_cant": "The number of tokens and the widths are unbounded, and the result depends on the count modulo three in a way no sample suggests.", "anchors": ["linebreak/linebreaker.go:LeftAlignUniform", "linebreak/knuth_plass.go:breakPoints", "linebreak/knuth_plass.go:findStartNode", "linebreak/knuth_plass.go:sumFromNode"]}
{"id": "C105", "title": "Finding the escape sequences of a token takes linear time", "statement": "For a token of n runes, whatever they are, StripToken reads and copies at most 3 n + 3 runes in all, before it returns or panics, however many results there are: no input makes it go over the same runes again and again. The same bound holds for StripANSIFromRunes. A call of StripToken that returns reads and copies no less than 5 n / 6 runes, and that is reached: after three digits one rune of a sequence is never looked at.", "quantifier": "every token, in memory with any unused capacity", "why_tests_cant": "A bound on the work holds for all tokens of all lengths; sequences that are read and given back to the next result could, for some tokens, be read many times.", "anchors": ["terminal/ansi/ansi.go:StripToken", "terminal/ansi/ansi.go:StripANSIFromRunes", "terminal/ansi/ansi.go:decodeANSISequence", "terminal/ansi/ansi.go:decodeText"]}
{"id": "C106", "title": "Hyphenating a word takes quadratic time", "statement": "With the dictionary of a file whose lines have at most L runes, BreakWord makes at most n (1 + (n + 1)(L + 2) + L (L + 1)) + 4n + 2L + 60 rounds of loops for a word of n runes, those of the lookups in the dictionary included: for a given dictionary the time is at most proportional to the square of the length. It is no less than half the square, for any dictionary, if the word has no hyphen, is long enough to be hyphenated and is not an exception: long words are not cut short by the length of the longest pattern.", "quantifier": "every pattern file, every setting of the minima, every word", "why_tests_cant": "A bound on the work holds for all words of all lengths and all dictionaries; timings of a few words show neither the worst case nor its order.", "anchors": ["wordbreak/hyphenator/hyphenator.go:BreakWord", "wordbreak/hyphenator/hyphenator.go:isPattern", "wordbreak/hyphenator/hyphenator.go:mergeBreakPoints", "wordbreak/hyphenator/hyphenator.go:splitAtPositions", "internal/trie/rune_trie.go:Get"]}
{"id": "C107", "title": "A line breaker keeps a renderer for every piece it ever set, and slows down", "statement": "A line breaker keeps, for its whole life, one renderer for each part of a word set in any call, in their order, whatever the calls returned; none is ever dropped. Rendering n lines with r runes in all takes at most n (10 p + 6 t + 4 k + 2) + r rounds of loops, for t words, p renderers added by the call and k kept after it. The dependence on the calls before is real: if the first piece ever set opens a style and nothing closes any, each call takes at least one round for each renderer kept from earlier calls, so setting the same short text again and again takes longer each time, without bound.", "quantifier": "every line breaker with any options, every history of calls, every list of words of any runes, every width; the lower bound with sane options and for words in which no sequence closes a style", "why_tests_cant": "The growth shows only over the life of a line breaker: a test makes one and calls it once or twice. A bound for every history and text needs induction over the calls and over the loops.", "anchors": ["linebreak/linebreaker.go:render", "linebreak/linebreaker.go:LeftAlignUniform", "attributes/state.go:EndOfLine", "attributes/state.go:StartOfLine", "attributes/state.go:Push", "attributes/state.go:Iterator"]}
{"id": "C108", "title": "The work of a whole call is bounded", "statement": "A call of LeftAlignUniform on words of any runes, escape sequences included, with the default punctuator, and the default hyphenator with a pattern file whose lines have at most L runes, on a line breaker that keeps h renderers of earlier calls: if it returns n lines with r runes in all, or an error, the loops of all the functions called (StripToken, the punctuator, the hyphenator, the search, the rendering) have made at most N (N + 1) (L + 2) + N (L (L + 3) + 134) + 75 N^2 + 2 + n (14 N + 4 h + 2) + r rounds, where N is the number of runes and three more for each word. No text and no width makes the search exponential. No call that returns does with less than a round for each rune of words without escape sequences (five for six runes otherwise), and two for each line, besides those of the search.", "quantifier": "every list of words of any runes, every width, all other options, every history of calls that returned, every pattern file", "why_tests_cant": "A bound on the work holds for all texts of all lengths, all widths and all dictionaries; timings of a few texts show neither the worst case nor its order.", "anchors": ["linebreak/linebreaker.go:LeftAlignUniform", "linebreak/linebreaker.go:leftAlignedNodes", "linebreak/linebreaker.go:boxNodes", "linebreak/linebreaker.go:render", "linebreak/knuth_plass.go:breakPoints", "wordbreak/punctuator/punctuator.go:BreakWord", "wordbreak/hyphenator/hyphenator.go:BreakWord", "terminal/ansi/ansi.go:StripToken"]}
{"id": "C109", "title": "A line breaker can be used after a panic", "statement": "If LeftAlignUniform panics (for instance in a split function given by the caller, or on words that start with empty ones) and the caller recovers, the line breaker can still be used: it has the same options, it keeps all its renderers, and its next call panics, returns ErrCannotBeSet or gives lines exactly when one of a new line breaker does, with the same lines but for escape sequences of the words and of words of earlier calls. If no escape sequence was found in any of these words, the results are those of a new line breaker.", "quantifier": "every history of calls, those that panic included; every list of words of any runes, every width, all options, any numbers", "why_tests_cant": "The panic may come after any number of words of any call, and what it leaves behind is only seen in later calls; the claim is about all histories.", "anchors": ["linebreak/linebreaker.go:LeftAlignUniform", "linebreak/linebreaker.go:boxNodes", "linebreak/linebreaker.go:leftAlignedNodes", "linebreak/knuth_plass_types.go:Start", "attributes/state.go:Push"]}
{"id": "C110", "title": "Any byte offsets select whole runes", "statement": "For any integers given in pairs, SliceFromByteOffsets returns, for each pair (a, b), the runes whose UTF-8 bytes all lie from a on and before b: offsets may be negative (the -1, -1 of a group without a match gives an empty slice), beyond the end, or within a rune. It panics exactly when the number of offsets is odd, or when some rune starts before a and ends after b. Offsets counted from the sizes returned by ReadRune give back the runes read between them.", "quantifier": "every slice of valid runes, every state of the reader, every list of offsets", "why_tests_cant": "All mixes of 1 to 4 byte runes with all pairs of integers, and the exact set of calls that panic.", "anchors": ["terminal/runes/runesio/slice_reader.go:SliceFromByteOffsets", "terminal/runes/runesio/slice_reader.go:ReadRune"]}
{"id": "C111", "title": "The slices found by StripToken can be changed one by one", "statement": "The start sequences, texts and stop sequences returned by StripToken are windows of the argument, in order and without overlap, and read together they are the argument. Changing one of them in place does not change the others, nor anything outside of the argument. The same holds for append. Proved for changes in place; false for append: a rune appended to a Text overwrites the escape of the stop sequence behind it, in the argument as well.", "quantifier": "every text that does not end within a sequence in a parameter of three digits, every memory around it, every capacity, every part, every rune written", "why_tests_cant": "Sharing of memory between results, and with the memory behind the argument, is not seen in the values that tests compare.", "anchors": ["terminal/ansi/ansi.go:StripToken", "terminal/ansi/ansi.go:StripANSIFromRunes"]}
{"id": "C112", "title": "No text is lost, whatever the widths and the options", "statement": "If LeftAlignUniform returns lines, these show all parts of the words in order, each whole and on one line, whatever the measurer returns (negative, infinite or no numbers), the options, the width, the scale, and the words set before on the same line breaker. A line ends where a word may be cut, at a space between words, or with the last word, and spaces where a line is broken are dropped: for words with some text and no spaces, and with the built-in split functions, no line starts or ends with a space. The rest of a line is: between two words, always the same number of spaces; the escape sequences found in the words and in those of earlier calls; and possibly a hyphen at its end. Hence the runes of the lines other than spaces, hyphens and sequences are those of the words. Hyphens are only added where a word is cut, if the penalty of hyphenation differs from 0, 200, 400 and -10000.", "quantifier": "every list of words, all options, every measurer, every width, every history of calls, every walk of the map of candidates", "why_tests_cant": "Measurers and widths are arbitrary functions and numbers; the choice of breaks differs for each.", "anchors": ["linebreak/linebreaker.go:LeftAlignUniform", "linebreak/knuth_plass.go:breakPoints", "linebreak/linebreaker.go:leftAlignedNodes"]}
{"id": "C113", "title": "Sums of widths are exact as long as 64 bits hold them", "statement": "With the additions of Go's int (64 bits), Widths panics exactly as with unbounded integers and otherwise returns the number that 64 bits hold for the sum of widths. It is the sum itself if and only if the sum lies from -2^63 to 2^63-1: for every slice of less than 2^61 runes in range, without East-Asian mode or with a width from 0 to 4 for ambiguous runes; otherwise as long as the number of runes times the largest width is below 2^63. Two ambiguous runes for which a width of 2^62 is set have the width -2^63.", "quantifier": "every slice of runes, all options, every earlier call", "why_tests_cant": "All lengths and all widths of ambiguous runes.", "anchors": ["terminal/runes/width.go:Widths", "terminal/runes/options.go:WithEastAsianAmbiguousWidth"]}
{"id": "C114", "title": "Renderers can be kept and shared by the caller", "statement": "A State holds the renderers of the caller, not copies. The level of each renderer of a State is the number of styles open at it (starts up to it minus stops before it), and States do not influence each other, whatever renderers are pushed, to which of several States, in which order, and whenever their stop sequences are set.", "quantifier": "every number of States and renderers, every sequence of calls of Push, SetStop and SetLevel", "why_tests_cant": "Unbounded histories of calls through shared pointers.", "anchors": ["attributes/state.go:Push", "attributes/attribute.go:SetLevel", "attributes/attribute.go:SetStop", "linebreak/knuth_plass_types.go:Start", "linebreak/knuth_plass_types.go:Stop"]}
{"id": "C115", "title": "Renderers write the same whatever the writer answers", "statement": "Start, Stop and Render of a renderer or of a list of renderers, StartOfLine and EndOfLine hand the writer each start sequence, text and stop sequence that is not empty in one call, in UTF-8 and in order, and nothing else. Counts and errors returned by the writer are ignored: the calls that follow a failed one are made all the same, so that a writer that refuses a text still gets the stop sequence after it.", "quantifier": "every renderer, list of renderers, State and iterator; every io.Writer, whatever it returns at each call", "why_tests_cant": "Every writer, with every pattern of failures.", "anchors": ["attributes/attribute.go:Render", "attributes/iface.go:Render", "attributes/state.go:StartOfLine", "attributes/state.go:EndOfLine", "terminal/runes/runesio/writer.go:writeRunes"]}
{"id": "C116", "title": "The size of a paragraph is bounded by its text", "statement": "A paragraph never has more lines than its words have letters. The text shown on all its lines, escape sequences aside, is at most the letters of the words, the spaces between the words, and one hyphen for each line but the last.", "quantifier": "every list of words of which the first and the last one have some text, styled or not, every measurer, width and history of calls, every map order", "why_tests_cant": "A bound on all outputs of the search, for all measurers and widths, including negative ones and NaN.", "anchors": ["linebreak/linebreaker.go:LeftAlignUniform", "linebreak/linebreaker.go:render", "linebreak/knuth_plass.go:mainLoop"]}
{"id": "C117", "title": "An empty word is one more space", "statement": "Empty tokens among the words stand for further spaces: on a line, k empty tokens between two words give k + 1 spaces; where a line is broken at a space, the spaces that follow are dropped. At the end of the paragraph nothing is dropped: the last line ends with the last word that has some text followed by one space for each empty token after it, and the paragraph cannot be set if there is no room for these spaces.", "quantifier": "every list of tokens that does not start with an empty one, every positive width, every map order", "why_tests_cant": "All numbers and places of empty tokens, all widths; the tests have no empty token.", "anchors": ["linebreak/linebreaker.go:leftAlignedNodes", "linebreak/linebreaker.go:LeftAlignUniform", "linebreak/knuth_plass.go:breakPoints"]}
