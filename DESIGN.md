# Design

Formal model, in Lean 4, of the Go packages of `/repo` (fredbi/go-typeset), and proofs of the
properties of `properties.jsonl`. Nothing in `/repo` is built or executed: the model is a
hand transcription, function by function, and every definition cites the lines it models.

## Layout

* `lean/Verif/Go/*`     – Go notions used everywhere: runes, panics, slices.
* `lean/Verif/Model/*`  – the transcription of the code. Each definition cites file and lines.
* `lean/Verif/Spec/*`   – small, independent specifications (no use of the model's helpers).
* `lean/Verif/Proofs/*` – lemmas.
* `lean/Verif/Props/*`  – the property theorems, named `Cnn_*`, each followed by a concrete
  case meeting its hypotheses.

Naming: `Cnn_…` full statement; `Cnn_…_partial` part of it, with a comment on what is missing;
`Cnn_…_fails` a proof that the English statement is false of the code as it is (a defect found
by the modelling), by a concrete witness.

## Trusted base

* Lean's kernel, and the axioms `propext`, `Quot.sound`, `Classical.choice`; nothing else. No
  `sorry`, no `native_decide`, no `bv_decide`, no added axiom.
* The transcription of the code into `Verif/Model`. `Verif/Checks/UnitTests` runs the tests of the repository
  (`*_test.go`) on the model while it is built, with the results that these tests expect: a check of the
  transcription, on which no theorem rests.
* What is read from the Go language and library:
  runes are 32-bit integers modelled as `Int` (values outside of int32 are harmless: theorems hold
  for them too); slices are lists, except where aliasing or capacity is observable (package `ansi`
  and `SliceReader.Slice`, modelled over an explicit backing memory); panics are an explicit result;
  map iteration order is an arbitrary oracle; goroutines are arbitrary interleavings of atomic
  steps; `sync.Mutex` and `sync.Once` have their documented meaning.
* Unicode predicates of the Go library (`unicode.IsSpace`, `IsDigit`, `IsPunct`, `ToLower`, `Hyphen`):
  `IsSpace` and `Hyphen` are transcribed in full; `IsDigit`, `IsPunct`, `ToLower` are parameters of
  the model (theorems hold for any such functions, with explicitly stated ASCII laws where needed).
* Floating point: package `linebreak` computes in `float64`. `Go/Float` has two classes. `Arith` gives the
  operations without any law: the model and the structural theorems are about an arbitrary `Arith`, hence
  about `float64`. `Laws` lists the facts used about widths and comparisons: integers up to a bound (2^53 for
  `float64`) are exact under `+`, `-` and comparisons; the order is transitive and asymmetric; operations on
  nonnegative numbers stay within the integral bounds of exact arithmetic (rounding is monotone and leaves
  integers alone); literals with one decimal are in order; the quotient of two integers is at most the literal
  that bounds the exact quotient. `Go/Round64` and `Go/Float64` define IEEE 754 binary64 (NaN, infinities,
  signed zeros, subnormals, rounding to nearest with ties to even; `nearest` and `tie_even` check that definition)
  and `F64.laws` proves all these facts for it, with the bound 2^53. So the theorems that assume `Laws F` hold for
  `float64` as defined there; they also hold for `Rat`. `MoreLaws` (`Go/FloatMore`) has a few more facts, on any
  numbers, proved there for both. What is trusted is that a Go program computes as `F64`
  does: no fused multiply-add, `math.Pow(x, 2)` and `math.Pow(x, 3)` computed as products in the order of
  the library's algorithm, and the conversion `int(x)` only used for values in range. `Sane` (`Spec/Linebreak`) and
  `Usual` (`Proofs/LBUsual`)
  say which option values are in the range of those facts.
* The content of the five embedded pattern files is in `Model/HyphUS`, `HyphGB`, `HyphES`, `HyphFR` and `HyphDE`,
  as numbers written in hexadecimal, made by `tools/gen_patterns.py` from the files of `/repo`. `Model/Scanner` is
  the part of `bufio.Scanner` (standard library) that LoadPatterns uses, for a reader that returns as many bytes as
  asked for while there are some, which is how embedded files behave.
* Demerits (C59) are computed in `Rat`, in the theorems and in the counterexample. The other counterexamples about lines are
  computed both in `Rat` and in `F64` (`Props/Float64Cases`).

## What is not modelled

* The mechanism of `go:embed` and of opening a file; `language.Matcher` (its result is a parameter),
  logging/debug code, `examples/`, `cmd`.
* Overflow of sums of widths on 32-bit machines (C113 is for 64 bits); the difference between a nil and an
  empty argument of package `ansi` (the results then differ only in being nil or empty).
* Of the programs that builds ignore: in `terminal/runes/build_tables.go`, fetching the files and formatting the
  source with `go/format`; in
  `wordbreak/hyphenator/languages/strip_comments.go`, the walk over the files.
* Lack of memory: allocations succeed. The one `make` whose size comes from the caller (`repeatRunes`, the spaces between
  words) panics above 2^46 runes, as on 64-bit machines.
* Helpers without logic: `String` methods for debugging.
* `runesio.AsRunesWriter`, called in `linebreak/linebreaker.go:156`, does not exist at this commit (only
  `NewWriter`): package `linebreak` does not compile as it is. It is modelled as `NewWriter`.

## Plan, property by property

| id | model | how |
|----|-------|-----|
| C01–C03 | `Model/Fields`: the index loop of FieldsFunc with its `start`/`^start` encoding | loop invariant relating (start, produced parts) to the scanned prefix; index characterisation by induction |
| C04–C08 | `Model/Punctuator`, `SplitWord`: the `breakAtFunc` loop | loop invariant; uniqueness of decomposition by induction on parts |
| C09–C14 | `Model/Hyphenator`: mergeBreakPoints, isPattern, splitAtPositions over growable positions | invariants on positions (length, pointwise max); independent Liang specification in `Spec/Liang` |
| C15–C16 | `Model/Dictionary`: readPattern, readException, LoadPatterns over lines | induction over runes/lines; spec = fold "last definition wins" |
| C17–C18 | `Model/Trie`: nodes with value and children | refinement of finite maps by induction on keys, then on histories |
| C19 | `Model/Cache`: transition system, threads × mutex × cache | inductive invariant over all interleavings |
| C20 | `Model/Languages` | case analysis; embedded file list |
| C21–C27, C29 | `Model/Width`, generated `Model/Tables` | binary search invariant; sortedness of literal tables by kernel evaluation (the tables are data of the program, not a sample); packing by bit arithmetic for all indices |
| C28 | `Model/Once`: transition system | inductive invariant |
| C30–C31 | `Model/Utf8`, `Model/Writer` | arithmetic on the four encoding lengths, induction |
| C32–C35 | `Model/SliceReader` with 64-bit wrap-around of Seek | invariant over histories |
| C36–C43 | `Model/Ansi` over explicit backing memory | invariants of the scanning loops, strong induction on unread length. Defects expected: parameters of 3 digits or more |
| C44–C49 | `Model/Attributes` | induction over pushes; independent "open sequences" spec. Defects expected: nested/adjacent runs |
| C50–C63 | `Model/Linebreak` (arithmetic-generic, map order oracle), `Spec/Layout`, `Spec/Linebreak` | the nodes of a paragraph are the symbols of an independent description (`paraSyms`); invariants of the main loop over chains of breakpoints; completeness by dominance over the active list. Defects: C51, C54, C57–C61 |
| C64, C65, C67, C68 | the same with attributes; `Spec/StyledCall`, `Spec/Display` | a call on styled text is the call on the bare text, plus start and stop sequences written around the runes; a terminal that interprets the sequences (`Shows`) reads the lines back. For any options and any arithmetic, `Proofs/LBHistory` compares two runs node by node: renderers are not read before the lines are written. Defects: adjacent, unclosed and nested runs, reuse |
| C69–C72 | `Proofs/LBFit`; two runs of `LeftAlignUniform` | C52 turns success into the existence of a layout; greedy filling gives one when words fit, and a layout for one set of options is turned into one for the other. Words with sequences (`Props/AnyWords`) have the symbols of their texts. Defects: wide words, leading marks, hyphens not rendered |
| C73 | `Opt`, `defaultOptions` | induction on the list of options from its end |
| C74 | `Model/Strings`, UTF-8 | C50 for the decoded words, every rune of a line is a scalar value; with escape sequences (`AnyStrings`), the sequences are made of runes of the words too |
| C75 | tokenizer followed by the line breaker | C01, C03 with C50 and C63; with escape sequences (`AnyStrings`), C50 for any words |
| C76 | `Spec/Choice`: which of the acceptable settings is chosen | the invariant of the main loop (`LBExact`) also says that every active breakpoint comes from the earliest start of its class; `LBChoice`. Demerits are never accumulated, so they play no part. For the exact set of settings: the point kept at each place has the first class in the order of the walk (`LBWalk`), and settings that make the same choices are the same (`LBUnique`) |
| C77, C58 | two runs of the main loop, that differ by the penalty (`LBPenalty`; `LBAnyPenalty` for any words, widths and split functions) or by the walk of the map (`LBTwo`) | simulation: the lists of active breakpoints have the same positions, ratios and classes |
| C58, C70 | two runs of the main loop on the same nodes, with any numbers, another walk of the map and a higher tolerance (`LBReach`) | simulation: the places and totals of the active breakpoints of one run are those of the other |
| C54, C70 | the main loop and the rendering of its chain, with any numbers (`LBSafe`, `AnySafe`) | invariant: two places without a word between them have the same totals, so that the first is always preferred and no line begins at the second |
| C50, C62 | the last line, with any numbers (`LBLast`, `LBTally`) | invariant: no break point leaves the list before the end, and one without text behind it comes after the one it was reached from, which also reaches the end with a line of the same class |
| C50, C57, C63, C112 | the same, with the text of the lines (`LBFills`, `AnyReflow`) | from lines made of symbols (`Fills`) to lines made of runes (`Reflow`), by induction on the lines |
| C78–C80 | `Spec/Limit`, with `F64` for the numbers | the rounding of `scale`; the ratio of each line for an ideal width that is far too large, too small (`align_refused`) or unordered (`align_unordered`: an invariant of the main loop where every line is a perfect match); `Props/LimitExact` finds the exact width at which the ratio rounds past the tolerance |
| C81 | the tokenizer on a line that was returned | C50 gives the words of each line, C51 that they fit, C55 that they are set on one line |
| C82 | `Model/Scanner`: bytes to lines | invariant of the buffer (its content followed by what is not read yet is what remains of the file). Defect: long lines |
| C83–C85 | `Model/Embedded`, generated `Model/Hyph*` | the kernel reads each file once (`Proofs/Check*`) with a checker whose soundness is proved for any file (`pieceOk_sound`, `loaded_file`); what is concluded is for all words: values between letters by `never_between`, single words by `breakWord_congr`. Defect: last British exception |
| C86 | BreakWord with two dictionaries | only the patterns that occur in ".word." are looked up (`breakWord_congr`) |
| C87 | clearEdges | position 0 of the merged values is never odd after it. Defect: the two ends are not both cleared |
| C88 | all packages together | C50, C51, C54, C55, C69 and C83 for `F64`, after bounding the width of the words of a string by its length |
| C89 | `Model/Windows`: parts as windows of a memory | the functions on windows simulate those on lists; the windows are in order and do not overlap (`Spec/Memory`). Defect: append reaches the next part |
| C90 | `Model/StripComments`, `Spec/Comments` | the lazy group of the regular expression ends before the white space in front of the first `%`; then C82 on the file read and on the file written |
| C91 | `Model/BuildTables` (with the formats of `fmt.Sscanf` in use), `Spec/Ucd` | the loop of shapeup merges a range with those that follow (`mergeRanges`), by induction; then C82's reading of lines |
| C92 | C64's lines, C36's StripToken | every line written is made of texts and sequences with short parameters (`wrapped_madeOf`); StripToken on such a slice finds what is visible (`strip_visible`), which is unique; then C51's widths. For words of any runes, the same from `Sprinkled` (C93) when no text found holds ESC |
| C93 | C43's StripToken on any runes, `Spec/AnyCall` | what StripToken finds in a word (`Found`) replaces the assumption on its form; the node list is that of the texts with attribute entries between (`styledPieces_seqs`), the written lines are the plain lines with known sequences inserted (`wrapped_sprinkled`) |
| C94 | the exact search of C52, from any root (`RootNB`) | the nodes of empty words (`gapsT`): which of them are skipped, the stretch lost and the spaces counted by the first line (`Indent`); no break before the first box |
| C95, C96 | C52, `Spec/Pieces`, `Proofs/LBPieces` | lines are filled one piece after the other (`fill_pieces`); conversely two pieces with a place between them are on one line, or a line ends there (`layout_pair`); words with sequences as for C69 |
| C97, C98 | C52, C57, `Proofs/LBRagged` | a line inside the paragraph has stretch 6 or its exact width; a layout restricted to the first words is a layout whose last line is shorter (`layout_prefix`). `Props/AnyFit`: C52, C55, C58, C97 and C98 for words of any runes |
| C99 | `Model/PrintTables`, `Model/TablesFile` (the bytes of runes_tables.go), `Spec/GoTables` | the printed elements by induction; the notation is read in one way only (`goPairs_unique`, `goSource_unique`) |
| C100 | `Model/Steps` (the search with a counter of rounds), `Spec/Steps` | the counter does not change the result; from above by induction over the nodes (at most 4 new break points at each node); from below, all places reached so far are still active (`Inv`); words of any runes in `Props/AnySteps` |
| C47, C48 exact; C101 | `Spec/Levels` (groups), `Spec/Written` (lines) | the loops of StartOfLine and EndOfLine by induction over the list; a group is unique; then the lines by induction over them |
| C102 | `Spec/Reading`: a grammar of units and an automaton on them | the scanner decodes one unit of the grammar at each place, by induction over the length (`reads_exists`, `reads_unique`); StripToken's loops follow the automaton (`run_results`) |
| C103 | the relation of C52 in both units | acceptable lines in the scaled unit are those of the first with another tolerance (`acceptable_scaled`); quotients of integers are in order |
| C104 | the outcome computed from the count alone (`BlankFits`) | the start stays active to the end (`loop_root`), no line follows a break inside the blanks (`blank_no_step`), so that a path is one line (`align_blank`) |
| C105 | the numbers of `Model/AnsiSteps`, which repeats the functions with a counter | the counts are functions of the runes (`loops_steps`, `endLoopC_steps`, `stripC_steps`); what is read twice is paid for by the next result (`credit`, `round_work`), by induction over the results; from below, each round reads five sixths of what it takes (`round_ge`) |
| C106 | the numbers of `Model/HyphSteps`, which repeats the functions with a counter | inductions over the loops with the depth of the trie and the length of its values (`Bounded`); every node of a loaded trie begins an entry of the file (`loaded_bounded`, from the invariant `WF` of C18) |
| C107 | the numbers of `Model/RenderSteps`, which repeats the functions with a counter; `AnyHist` of `Spec/Written` for the pieces of earlier calls | inductions over the loops (`renderC_steps`); as many renderers as boxes (`tokensLoop_count`); with no stop sequence EndOfLine walks to the end of the whole list (`renderC_open`) |
| C108 | the numbers of `Model/AlignSteps`, which repeats the functions with a counter | one lemma for each loop (`Tame` split functions: no loss, no empty part, a bounded number of rounds for each rune); the results of StripToken have at most two runes more than the token (`run_size`); then C100, C105, C106 and C107; the lower bounds follow the same loops (`Props/AlignLower`) |
| C109 | `Model/Panics`: the loops with the renderers left when they return or panic; `Spec/Survived` | an invariant of the list of renderers (texts only added, sequences among those found), then the comparison of two runs of C61 |
| C110 | `Model/SliceReader`; `Spec/ByteRange`: the runes that lie within two offsets | induction on the text, for any two integers |
| C111 | `Model/Ansi` over the array of the argument; `Spec/Memory` | the windows of the results, from the description of the results in `Proofs/AnsiRun` |
| C112 | `Model/Linebreak`; `Spec/Fills`: lines that set symbols in order | the nodes of a paragraph, and the chain of break points, for any numbers; the symbols before the first box of a line hold no part; a line breaks at a cut, before a gap or at the end |
| C113 | `Model/Width64`: Widths with additions of 64 bits | induction over the runes; C24_bounds |
| C114 | `Model/Shared`: renderers by address, lists of addresses | invariant of histories; states show the renderers as they are now, whatever the calls (`C114_not_copies`); the pointers of the line breaker are positions in its list (simulation). Defect: levels are written into renderers that may be elsewhere too |
| C115 | `Model/AttrWriter`: the functions of `Model/Attributes` over any `io.Writer` | induction over the loops, for all writers at once |
| C116 | the lines of C112, counted (`Props/OutputSize`) | induction over the lines: each one has a letter of its own |
| C117 | the layouts of C50, with empty words (`Spec/EmptyWords`, `Props/EmptyWords`); the lines of C112 (`Props/EmptyAny`) | induction over the lines; the last line is a suffix of the paragraph |
| C66 | options of the hyphenator | induction over the option list |

Nothing in the list is given up as inexpressible. Not attempted: memory use (allocations succeed, but for slices that `make` refuses).
