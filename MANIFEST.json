{
 "claims": [
  {
   "property": "C01",
   "status": "proved",
   "theorems": [
    "Verif.Props.C01_fields_content",
    "Verif.Props.C01_tokenizer_content"
   ],
   "note": ""
  },
  {
   "property": "C02",
   "status": "proved",
   "theorems": [
    "Verif.Props.C02_fields_maximal_runs"
   ],
   "note": ""
  },
  {
   "property": "C03",
   "status": "proved",
   "theorems": [
    "Verif.Props.C03_fields_join",
    "Verif.Props.C03_fields_stable"
   ],
   "note": ""
  },
  {
   "property": "C04",
   "status": "proved",
   "theorems": [
    "Verif.Props.C04_punctuator_partition"
   ],
   "note": ""
  },
  {
   "property": "C05",
   "status": "proved",
   "theorems": [
    "Verif.Props.C05_punctuator_unique_split"
   ],
   "note": ""
  },
  {
   "property": "C06",
   "status": "proved",
   "theorems": [
    "Verif.Props.C06_isPunctuation_iff",
    "Verif.Props.C06_other_parts_free",
    "Verif.Props.C06_pipe_and_hyphens"
   ],
   "note": ""
  },
  {
   "property": "C07",
   "status": "proved",
   "theorems": [
    "Verif.Props.C07_splitWord"
   ],
   "note": ""
  },
  {
   "property": "C08",
   "status": "proved",
   "theorems": [
    "Verif.Props.C08_pipeline_lossless",
    "Verif.Props.C08_marks_not_hyphens"
   ],
   "note": ""
  },
  {
   "property": "C09",
   "status": "proved",
   "theorems": [
    "Verif.Props.C09_negative_minRight_panics",
    "Verif.Props.C09_hyphenator_partition"
   ],
   "note": "C09_negative_minRight_panics shows that the hypothesis minRight >= 0 is needed."
  },
  {
   "property": "C10",
   "status": "proved",
   "theorems": [
    "Verif.Props.C10_min_lengths",
    "Verif.Props.C10_no_empty_part"
   ],
   "note": ""
  },
  {
   "property": "C11",
   "status": "proved",
   "theorems": [
    "Verif.Props.C11_not_eligible"
   ],
   "note": ""
  },
  {
   "property": "C12",
   "status": "partial",
   "theorems": [
    "Verif.Props.C12_liang_partial",
    "Verif.Props.C12_liang_long_partial",
    "Verif.Props.C12_exact_partial",
    "Verif.Props.C12_sound_partial",
    "Verif.Props.C12_cuts_unique",
    "Verif.Props.C12_long_word_fails",
    "Verif.Props.C12_shipped_partial"
   ],
   "note": "Proved for words of at most 29 letters, and for longer ones when a pattern reaches the end of the word; C12_exact_partial says exactly what happens for words of any length, C12_sound_partial that no other cut is ever made, C12_shipped_partial is about the shipped files. False beyond: the last of the preallocated positions is dropped (C12_long_word_fails)."
  },
  {
   "property": "C13",
   "status": "partial",
   "theorems": [
    "Verif.Props.C13_exception_round_trip",
    "Verif.Props.C13_closing_brace_fails"
   ],
   "note": "Proved for every entry on a line of its own, below the marker. C13_closing_brace_fails: an entry followed by the closing brace on the same line, as in the shipped en-gb file, is not recognised."
  },
  {
   "property": "C14",
   "status": "partial",
   "theorems": [
    "Verif.Props.C14_case_insensitive_partial",
    "Verif.Props.C14_exception_case_fails"
   ],
   "note": "Proved for words which are not exceptions. The exception list is case sensitive (C14_exception_case_fails)."
  },
  {
   "property": "C15",
   "status": "proved",
   "theorems": [
    "Verif.Props.C15_letters",
    "Verif.Props.C15_digit_value",
    "Verif.Props.C15_no_digit_value",
    "Verif.Props.C15_value_count"
   ],
   "note": ""
  },
  {
   "property": "C16",
   "status": "proved",
   "theorems": [
    "Verif.Props.C16_loaded_dictionary",
    "Verif.Props.C16_loaded_well_formed",
    "Verif.Props.C16_identifier"
   ],
   "note": "C16_loaded_well_formed discharges the hypothesis of C12 for loaded dictionaries."
  },
  {
   "property": "C17",
   "status": "proved",
   "theorems": [
    "Verif.Props.C17_trie_is_map"
   ],
   "note": ""
  },
  {
   "property": "C18",
   "status": "proved",
   "theorems": [
    "Verif.Props.C18_put_result",
    "Verif.Props.C18_delete_result",
    "Verif.Props.C18_delete_empty_key",
    "Verif.Props.C18_branches_live",
    "Verif.Props.C18_no_garbage"
   ],
   "note": ""
  },
  {
   "property": "C19",
   "status": "proved",
   "theorems": [
    "Verif.Props.C19_loaded_once",
    "Verif.Props.C19_same_dictionary",
    "Verif.Props.C19_right_dictionary",
    "Verif.Props.C19_no_race",
    "Verif.Props.C19_no_deadlock"
   ],
   "note": ""
  },
  {
   "property": "C20",
   "status": "partial",
   "theorems": [
    "Verif.Props.C20_embedded",
    "Verif.Props.C20_supported_partial",
    "Verif.Props.C20_others_american",
    "Verif.Props.C20_regional_variant_fails"
   ],
   "note": "Any answer of the matcher gives an embedded file, and the supported tags give the file of their language. Regional variants, for which the matcher answers with a completed tag, get American English (C20_regional_variant_fails)."
  },
  {
   "property": "C21",
   "status": "proved",
   "theorems": [
    "Verif.Props.C21_lookup_agrees",
    "Verif.Props.C21_lookup_spec",
    "Verif.Props.C21_width_spec"
   ],
   "note": "The table keeps two bits per rune: the lookup result is the classified width modulo 4, and equal to it except for U+2E3B, of width 4, for which the table is bypassed by Width (not by Widths, see C23)."
  },
  {
   "property": "C22",
   "status": "proved",
   "theorems": [
    "Verif.Props.C22_bounds",
    "Verif.Props.C22_zero",
    "Verif.Props.C22_nonneg"
   ],
   "note": ""
  },
  {
   "property": "C23",
   "status": "partial",
   "theorems": [
    "Verif.Props.C23_sum_partial",
    "Verif.Props.C23_three_em_dash_fails",
    "Verif.Props.C23_invalid_rune_fails"
   ],
   "note": "Proved for slices of runes in 0..0x10FFFF without U+2E3B, and for all slices in East-Asian mode. False of U+2E3B, whose width 4 is stored as 0 in the 2-bit table (C23_three_em_dash_fails), and of runes out of range, on which Widths panics while Width returns 0 (C23_invalid_rune_fails). Overflow of the sum of widths is in C113."
  },
  {
   "property": "C24",
   "status": "proved",
   "theorems": [
    "Verif.Props.C24_append",
    "Verif.Props.C24_perm",
    "Verif.Props.C24_empty",
    "Verif.Props.C24_bounds"
   ],
   "note": ""
  },
  {
   "property": "C25",
   "status": "proved",
   "theorems": [
    "Verif.Props.C25_only_ambiguous",
    "Verif.Props.C25_emoji",
    "Verif.Props.C25_ambiguous_width",
    "Verif.Props.C25_wide"
   ],
   "note": ""
  },
  {
   "property": "C26",
   "status": "proved",
   "theorems": [
    "Verif.Props.C26_search_exact",
    "Verif.Props.C26_tables_sorted",
    "Verif.Props.C26_isAmbiguous"
   ],
   "note": ""
  },
  {
   "property": "C27",
   "status": "proved",
   "theorems": [
    "Verif.Props.C27_width_history",
    "Verif.Props.C27_widths_history",
    "Verif.Props.C27_last_wins",
    "Verif.Props.C27_no_effect_when_off"
   ],
   "note": ""
  },
  {
   "property": "C28",
   "status": "proved",
   "theorems": [
    "Verif.Props.Once.C28_built_once",
    "Verif.Props.Once.C28_no_race",
    "Verif.Props.Once.C28_reads_complete_table",
    "Verif.Props.Once.C28_sequential_result",
    "Verif.Props.Once.C28_no_deadlock"
   ],
   "note": "Transition system over any number of goroutines and any schedule. sync.Once has its documented meaning."
  },
  {
   "property": "C29",
   "status": "proved",
   "theorems": [
    "Verif.Props.C29_encoded_text",
    "Verif.Props.C29_any_string"
   ],
   "note": ""
  },
  {
   "property": "C30",
   "status": "proved",
   "theorems": [
    "Verif.Props.C30_written_bytes",
    "Verif.Props.C30_read_back",
    "Verif.Props.C30_round_trip",
    "Verif.Props.C30_write_rune"
   ],
   "note": ""
  },
  {
   "property": "C31",
   "status": "proved",
   "theorems": [
    "Verif.Props.C31_same_bytes",
    "Verif.Props.C31_passes_result"
   ],
   "note": ""
  },
  {
   "property": "C32",
   "status": "proved",
   "theorems": [
    "Verif.Props.C32_history",
    "Verif.Props.C32_sequential"
   ],
   "note": ""
  },
  {
   "property": "C33",
   "status": "proved",
   "theorems": [
    "Verif.Props.C33_seek",
    "Verif.Props.C33_unknown_whence"
   ],
   "note": ""
  },
  {
   "property": "C34",
   "status": "proved",
   "theorems": [
    "Verif.Props.C34_look",
    "Verif.Props.C34_slices",
    "Verif.Props.C34_odd_panics"
   ],
   "note": ""
  },
  {
   "property": "C35",
   "status": "proved",
   "theorems": [
    "Verif.Props.C35_byte_ranges"
   ],
   "note": ""
  },
  {
   "property": "C36",
   "status": "proved",
   "theorems": [
    "Verif.Props.C36_progress",
    "Verif.Props.C36_terminates"
   ],
   "note": "Non-termination would show as exhaustion of the fuel of the model's loops, which is proved not to occur."
  },
  {
   "property": "C37",
   "status": "partial",
   "theorems": [
    "Verif.Props.C37_lossless_partial",
    "Verif.Props.C37_one_call_partial",
    "Verif.Props.C37_cut_short_fails"
   ],
   "note": "Exact: lossless if and only if the text, read from the left to the right, does not end within a control sequence, in a parameter of three digits (`EndsLong`). There, with unused capacity in the slice, a rune from beyond the end of the input gets into the result (C37_cut_short_fails); without, the call panics (C43)."
  },
  {
   "property": "C38",
   "status": "proved",
   "theorems": [
    "Verif.Props.C38_array_unchanged"
   ],
   "note": "The append in StripANSIFromRunes always writes in place, and always the runes which are there already."
  },
  {
   "property": "C39",
   "status": "proved",
   "theorems": [
    "Verif.Props.C39_plain_text"
   ],
   "note": ""
  },
  {
   "property": "C40",
   "status": "partial",
   "theorems": [
    "Verif.Props.C40_words_partial",
    "Verif.Props.C40_chunks_partial",
    "Verif.Props.C40_one_word_partial",
    "Verif.Props.C40_three_digits_fails"
   ],
   "note": "Proved for parameters of at most two digits, for one word, for any number of styled words with unstyled text between them, and for any texts with a sequence between two of them. False of longer parameters: ESC[38;5;123m is taken as text (C40_three_digits_fails)."
  },
  {
   "property": "C41",
   "status": "proved",
   "theorems": [
    "Verif.Props.C41_sequences"
   ],
   "note": ""
  },
  {
   "property": "C42",
   "status": "partial",
   "theorems": [
    "Verif.Props.C42_no_sequence_partial",
    "Verif.Props.C42_double_escape_fails",
    "Verif.Props.C42_units_partial"
   ],
   "note": "C42_no_sequence_partial: inputs made of runes other than ESC and well-formed sequences with parameters of at most two digits. C42_units_partial: for any input that does not end within a sequence, in a parameter of three digits, every start or stop sequence met when reading from the left to the right is reported as such, once and in order, and texts are made of the other units only. False after a lone ESC, which takes the next rune with it (C42_double_escape_fails), and for longer parameters (C40)."
  },
  {
   "property": "C43",
   "status": "partial",
   "theorems": [
    "Verif.Props.C43_no_panic_partial",
    "Verif.Props.C43_cut_short_fails"
   ],
   "note": "Exact: StripToken returns normally if and only if the slice has unused capacity or the text does not end within a control sequence, in a parameter of three digits (`EndsLong`). False otherwise (C43_cut_short_fails)."
  },
  {
   "property": "C44",
   "status": "proved",
   "theorems": [
    "Verif.Props.C44_attribute",
    "Verif.Props.C44_renderers",
    "Verif.Props.C44_renderers_start_stop"
   ],
   "note": ""
  },
  {
   "property": "C45",
   "status": "proved",
   "theorems": [
    "Verif.Props.C45_levels"
   ],
   "note": ""
  },
  {
   "property": "C46",
   "status": "proved",
   "theorems": [
    "Verif.Props.C46_growing",
    "Verif.Props.C46_iterator",
    "Verif.Props.C46_first"
   ],
   "note": ""
  },
  {
   "property": "C47",
   "status": "partial",
   "theorems": [
    "Verif.Props.C47_resume_partial",
    "Verif.Props.C47_nested_fails",
    "Verif.Props.C47_adjacent_fails",
    "Verif.Props.C47_fresh_fails",
    "Verif.Props.C47_exact",
    "Verif.Props.C47_right_iff",
    "Verif.Props.C47_stray_stop_fails"
   ],
   "note": "What StartOfLine writes is described exactly for every text (C47_exact): the start sequences of the group of the current renderer. It is what the property asks for separated styled runs (C47_resume_partial), and, in a text without stray stops where the start sequences can be told apart, exactly when at most one style is open and no other was closed just before it or within it (C47_right_iff). False otherwise: the outer of two nested styles is not resumed, a closed run that touches the current one is resumed, a fresh iterator resumes a style that was never opened, and after a stop sequence that closes nothing all earlier start sequences are written (C47_stray_stop_fails)."
  },
  {
   "property": "C48",
   "status": "partial",
   "theorems": [
    "Verif.Props.C48_close_partial",
    "Verif.Props.C48_nested_fails",
    "Verif.Props.C48_adjacent_fails",
    "Verif.Props.C48_exact"
   ],
   "note": "What EndOfLine writes is described exactly for every text (C48_exact): the stop sequences of the whole group of the current renderer. It is what the property asks for separated styled runs. False otherwise: only the innermost style is closed, and the stops of a touching earlier run are written again."
  },
  {
   "property": "C49",
   "status": "proved",
   "theorems": [
    "Verif.Props.C49_level_zero",
    "Verif.Props.C49_paragraph"
   ],
   "note": "Both parts are proved: renderers at level 0, and whole paragraphs."
  },
  {
   "property": "C50",
   "status": "proved",
   "theorems": [
    "Verif.Props.C50_any",
    "Verif.Props.C50_default_any",
    "Verif.Props.C50_text_kept"
   ],
   "note": "Proved for all walks of the map and all histories. Calls are those of `Call`: integral widths represented exactly, custom splitters that lose no text, any history of calls on escape-free text. C50_any drops these conditions for words with some text each: any measurer, width, escape sequences and history, with a penalty of hyphens in [0, 10000] other than 0, 200 and 400, a tolerance of at most 50 and split functions that lose no text. C50_default_any is float64 with the default options, where words are separated by one space; in general `spacesBetween` says how many there are."
  },
  {
   "property": "C51",
   "status": "partial",
   "theorems": [
    "Verif.Props.C51_any_partial",
    "Verif.Props.C51_default_any_partial",
    "Verif.Props.C51_fraction_fails",
    "Verif.Props.C51_width_partial",
    "Verif.Props.C51_rounded_fails",
    "Verif.Props.C51_default_partial"
   ],
   "note": "Proved for integral widths (after scaling), additive measurers and a hyphen penalty that differs from 0, 200, 400; C51_default_partial is for the default options. False for other widths, because they are rounded (C51_fraction_fails: for every text whose width exceeds maxWidth by at most half a column), and for the other penalties. Calls are those of `Call`: integral widths represented exactly, custom splitters that lose no text, any history of calls on escape-free text. C51_any_partial and C51_default_any_partial are for words of any runes, escape sequences too, and histories of such words: the text shown on a line is not wider than requested."
  },
  {
   "property": "C52",
   "status": "proved",
   "theorems": [
    "Verif.Props.C52_any",
    "Verif.Props.C52_set_iff"
   ],
   "note": "Proved as an equivalence with an independent definition of acceptable settings. Calls are those of `Call`: integral widths represented exactly, custom splitters that lose no text, any history of calls on escape-free text. C52_any: the same for words of any runes, after any history on any words (calls of `AnyCall`), in terms of the texts that StripToken finds."
  },
  {
   "property": "C53",
   "status": "proved",
   "theorems": [
    "Verif.Props.C53_legal_breaks",
    "Verif.Props.C53_any_words"
   ],
   "note": "Also for empty words and any width, with blank lines. Calls are those of `Call`: integral widths represented exactly, custom splitters that lose no text, any history of calls on escape-free text."
  },
  {
   "property": "C54",
   "status": "partial",
   "theorems": [
    "Verif.Props.C54_any_partial",
    "Verif.Props.C54_default_any_partial",
    "Verif.Props.C54_narrow_space_fails",
    "Verif.Props.C54_huge_space_fails",
    "Verif.Props.C54_blank_partial",
    "Verif.Props.C54_float64_fails",
    "Verif.Props.C54_indent_narrow_partial",
    "Verif.Props.C54_wide_partial",
    "Verif.Props.C54_wide_default_partial",
    "Verif.Props.C54_no_panic_partial",
    "Verif.Props.C54_leading_empty_fails"
   ],
   "note": "Proved when the first token is not empty; for any tokens in lines that are wide compared with their number (60 columns more, with the default options); for any number of empty tokens without text; and for two counts of empty tokens out of three before the text, in narrow lines as well. False otherwise: three empty tokens at the start make the call panic in a width of 4. Calls are those of `Call`: integral widths represented exactly, custom splitters that lose no text, any history of calls on escape-free text. C54_any_partial drops these conditions when the first word has a part: any measurer (negative, not a number), any splitters that return, escape sequences, any width, any history, provided that a space is measured as 0 to 2^46 columns, the penalty of hyphens is in [0, 10000] and the tolerance at most 50; C54_default_any_partial is the default options. C54_narrow_space_fails, C54_huge_space_fails: with a space of negative width, or of more than 2^46 columns, two words on a line panic."
  },
  {
   "property": "C55",
   "status": "proved",
   "theorems": [
    "Verif.Props.C55_any",
    "Verif.Props.C55_any_text",
    "Verif.Props.C55_default_any",
    "Verif.Props.C55_single_line",
    "Verif.Props.C55_text_fits",
    "Verif.Props.C55_wide_lines_differ",
    "Verif.Props.C55_default"
   ],
   "note": "Proved, also for the default options in terms of runes.Widths. Wider lines may be split. Calls are those of `Call`: integral widths represented exactly, custom splitters that lose no text, any history of calls on escape-free text. C55_any, C55_any_text and C55_default_any: words of any runes, after any history; the line is the text with sequences inserted."
  },
  {
   "property": "C56",
   "status": "proved",
   "theorems": [
    "Verif.Props.C56_any",
    "Verif.Props.C56_default_any",
    "Verif.Props.C56_float64_scale_matters",
    "Verif.Props.C56_one_space",
    "Verif.Props.C56_scale_matters"
   ],
   "note": "Proved. Other scales give no blank or several. Calls are those of `Call`: integral widths represented exactly, custom splitters that lose no text, any history of calls on escape-free text. C50_any and C50_default_any give the spaces between words without these conditions. C56_any and C56_default_any: any words with some text, any widths, measurers and histories, in terms of the texts that the lines show."
  },
  {
   "property": "C57",
   "status": "partial",
   "theorems": [
    "Verif.Props.C57_any_partial",
    "Verif.Props.C57_float64_fails",
    "Verif.Props.C57_hyphens_at_cuts",
    "Verif.Props.C57_hyphens_in_text",
    "Verif.Props.C57_penalty_fails"
   ],
   "note": "Proved for hyphen penalties other than 0, 200, 400. False for these: hyphens are recognised by their penalty. Calls are those of `Call`: integral widths represented exactly, custom splitters that lose no text, any history of calls on escape-free text. C57_any_partial is for any words with some text, measurers, widths and histories, under the conditions of C50_any."
  },
  {
   "property": "C58",
   "status": "partial",
   "theorems": [
    "Verif.Props.C58_success_any_partial",
    "Verif.Props.C58_refused_partial",
    "Verif.Props.C58_exact",
    "Verif.Props.C58_tight_partial",
    "Verif.Props.C58_float64_fails",
    "Verif.Props.C58_success_partial",
    "Verif.Props.C58_walk_fails"
   ],
   "note": "Success is independent of the walk of the map (C58_success_partial), and so are the lines with a tolerance of at most one half (C58_tight_partial); C58_exact tells exactly when the lines are the same for all walks; with larger tolerances the lines may differ between two walks (C58_walk_fails). Those are for the calls of `Call`: integral widths represented exactly, custom splitters that lose no text, any history of calls on escape-free text. C58_refused_partial needs none of that: for any words (escape sequences included), measurer, splitters, widths and histories, the refusals depend neither on the walk of the map, nor on the history, nor on the escape sequences; it needs only a penalty of hyphens in [0, 10000] and a tolerance of at most 50. C58_success_any_partial: success is independent of the walk, of earlier calls and of the sequences for words of any runes."
  },
  {
   "property": "C59",
   "status": "partial",
   "theorems": [
    "Verif.Props.C59_float64_fails",
    "Verif.Props.C59_single_line_partial",
    "Verif.Props.C59_minimal_fails"
   ],
   "note": "Proved for paragraphs on one line of at most 3000 units. False in general, for every walk of the map. Calls are those of `Call`: integral widths represented exactly, custom splitters that lose no text, any history of calls on escape-free text."
  },
  {
   "property": "C60",
   "status": "partial",
   "theorems": [
    "Verif.Props.C60_float64_fails",
    "Verif.Props.C60_no_words",
    "Verif.Props.C60_empty_word_partial",
    "Verif.Props.C60_empty_words_fails"
   ],
   "note": "Proved for no token and for one empty token. False for two empty tokens, which give a blank line. C104 settles every number of empty tokens and every positive width. Calls are those of `Call`: integral widths represented exactly, custom splitters that lose no text, any history of calls on escape-free text."
  },
  {
   "property": "C61",
   "status": "partial",
   "theorems": [
    "Verif.Props.C61_float64_fails",
    "Verif.Props.C61_any_partial",
    "Verif.Props.C61_unstyled_words_partial",
    "Verif.Props.C61_reuse_partial",
    "Verif.Props.C61_styled_fails",
    "Verif.Props.C61_styled_text_fails"
   ],
   "note": "Proved for every option setting and every history of calls on text without escape sequences, for lines, errors and panics alike. False after a call on styled text, whose sequences are written again, and false of styled text after any call: the iterator over the attributes restarts from the first call. C61_any_partial takes any words and any history, for any options, widths and numbers: a used line breaker panics as a new one, returns nil as a new one, or returns the same lines in which sequences of the words and of earlier calls are put. C61_unstyled_words_partial: for words without sequences, the lines are the ones of a new line breaker with sequences of earlier calls put in, and exactly those if there was none."
  },
  {
   "property": "C62",
   "status": "proved",
   "theorems": [
    "Verif.Props.C62_any",
    "Verif.Props.C62_default_any",
    "Verif.Props.C62_no_empty_line",
    "Verif.Props.C62_first_word_matters"
   ],
   "note": "Proved. Calls are those of `Call`: integral widths represented exactly, custom splitters that lose no text, any history of calls on escape-free text. C62_any is for any words of which the first and the last one have some text, measurers, widths and histories, under the conditions of C50_any; C62_default_any is float64 with the default options."
  },
  {
   "property": "C63",
   "status": "proved",
   "theorems": [
    "Verif.Props.C63_any",
    "Verif.Props.C63_words_whole"
   ],
   "note": "Proved. Calls are those of `Call`: integral widths represented exactly, custom splitters that lose no text, any history of calls on escape-free text. C63_any is for any words with some text, measurers, widths and histories, under the conditions of C50_any."
  },
  {
   "property": "C64",
   "status": "partial",
   "theorems": [
    "Verif.Props.C64_any_partial",
    "Verif.Props.C64_no_text_fails",
    "Verif.Props.C64_float64_fails",
    "Verif.Props.C64_order_partial",
    "Verif.Props.C64_sequences_partial",
    "Verif.Props.C64_sequence_alone_fails"
   ],
   "note": "Proved after any history, for non-empty texts with start and stop sequences of at most two digits by parameter (C64_order_partial, C64_sequences_partial), and for the sequences found with some text in words of any runes (C64_any_partial). False for every sequence found without text: the call does exactly the same without it (C64_no_text_fails, for all words, widths, histories and sane options; C64_sequence_alone_fails for examples)."
  },
  {
   "property": "C65",
   "status": "partial",
   "theorems": [
    "Verif.Props.C65_words_partial",
    "Verif.Props.C65_float64_fails",
    "Verif.Props.C65_lines_partial",
    "Verif.Props.C65_separated_partial",
    "Verif.Props.C65_first_line_fails",
    "Verif.Props.C65_adjacent_fails",
    "Verif.Props.C65_unclosed_fails",
    "Verif.Props.C65_stray_stop_fails"
   ],
   "note": "Proved for a new line breaker: the exact lines, when each line ends outside of styled runs or in a run with unstyled text on both sides, hence for separated runs. False for adjacent runs, for a run that opens the paragraph (start sequence twice) and for a run never closed. The styled lines of a reused line breaker are wrong (C61_styled_text_fails). C65_words_partial: also when words are styled one by one and styled words are not divided, even if styled words follow each other. False after a stop sequence that closes nothing (C65_stray_stop_fails). For all texts and histories, the exact lines are in C101."
  },
  {
   "property": "C66",
   "status": "proved",
   "theorems": [
    "Verif.Props.C66_options_last_wins"
   ],
   "note": ""
  },
  {
   "property": "C67",
   "status": "partial",
   "theorems": [
    "Verif.Props.C67_any_partial",
    "Verif.Props.C67_any_alone_partial",
    "Verif.Props.C67_visible_partial",
    "Verif.Props.C67_unstyled_partial",
    "Verif.Props.C67_all_options_partial",
    "Verif.Props.C67_inside_fails",
    "Verif.Props.C67_same_breaks_partial"
   ],
   "note": "C67_visible_partial: after any history, two texts that differ by their sequences only are both set or none is, and the lines without their sequences are equal. C67_unstyled_partial: for words made of one text each, they are the lines of the unstyled words. C67_same_breaks_partial gives the breaks. Partial: parameters of at most two digits, no empty text between sequences, usual options and exact widths. Taking out a sequence inside a word joins two texts, which may then be divided otherwise. C67_any_partial takes words of any runes, after any history: two texts with the same non-empty stretches of text between the sequences are both set or none is, and both outputs are the same lines with sequences put in. C67_any_alone_partial compares with the words without sequences, as a fresh LineBreaker would. C67_all_options_partial is the same for any options, any width and any numbers, float64 included, and two different histories; it needs a punctuator that splits the empty text into nothing, as the default one does. C67_inside_fails: a sequence inside a word can make a paragraph impossible to set."
  },
  {
   "property": "C68",
   "status": "partial",
   "theorems": [
    "Verif.Props.C68_text_partial",
    "Verif.Props.C68_separated_partial",
    "Verif.Props.C68_words_partial",
    "Verif.Props.C68_adjacent_fails",
    "Verif.Props.C68_unclosed_fails",
    "Verif.Props.C68_history_fails",
    "Verif.Props.C68_stray_stop_fails"
   ],
   "note": "Proved for a new line breaker, when styled runs are separated by unstyled text (C68_separated_partial) or when words are styled one by one and styled words are not divided (C68_words_partial); after any history the visible text is the text of the words (C68_text_partial). It fails in the code for adjacent runs, for unclosed runs and on a line breaker used before (C68_*_fails). It fails too after a stop sequence that closes nothing, such as a reset written twice (C68_stray_stop_fails)."
  },
  {
   "property": "C69",
   "status": "partial",
   "theorems": [
    "Verif.Props.C69_any_partial",
    "Verif.Props.C69_too_wide_any",
    "Verif.Props.C69_words_fit_partial",
    "Verif.Props.C69_default_partial",
    "Verif.Props.C69_too_wide",
    "Verif.Props.C69_wide_words_fails",
    "Verif.Props.C69_leading_mark_fails",
    "Verif.Props.C69_float64_fails"
   ],
   "note": "Set: proved when words after the first do not start with a mark or a hyphen and are at most 51 columns wide (default tolerance), in widths up to 86000 (C69_default_partial), or for any tolerance with the corresponding bounds (C69_words_fit_partial). False without these conditions: C69_wide_words_fails, C69_leading_mark_fails. Not set: C69_too_wide, for every paragraph of `Call`. C69_any_partial and C69_too_wide_any: the same for words with sequences, after any history on any words (calls of `AnyCall`); the first one for words in which StripToken finds one text each."
  },
  {
   "property": "C70",
   "status": "proved",
   "theorems": [
    "Verif.Props.C70_any",
    "Verif.Props.C70_set_any",
    "Verif.Props.C70_tolerance"
   ],
   "note": "C70_tolerance is for the calls of `Call` (usual options, exact widths, no escape sequences), where there are no panics. C70_any is for any words, measurers, splitters, widths, histories and map orders, with a penalty of hyphens in [0, 10000] and tolerances of at most 50: what is not refused is not refused with a higher tolerance; C70_set_any adds that it is set, when the first word has a part and a space is not measured as negative (by C54_any_partial)."
  },
  {
   "property": "C71",
   "status": "partial",
   "theorems": [
    "Verif.Props.C71_any_partial",
    "Verif.Props.C71_word_break_partial",
    "Verif.Props.C71_leading_hyphen_fails",
    "Verif.Props.C71_float64_fails"
   ],
   "note": "Proved when no word starts with a hyphen, also after a mark in the word; false otherwise (C71_leading_hyphen_fails): a division point after a leading hyphen takes the stretch of the line. C71_any_partial: the same for words with sequences in which StripToken finds one text each, after any histories on any words."
  },
  {
   "property": "C72",
   "status": "partial",
   "theorems": [
    "Verif.Props.C72_any_partial",
    "Verif.Props.C72_whole_words_partial",
    "Verif.Props.C72_hyphens_fails",
    "Verif.Props.C72_float64_fails"
   ],
   "note": "Proved without word breaking (both directions). With word breaking it is false (C72_hyphens_fails): without rendered hyphens, lines that end at a hyphenation point have no stretch and must have the exact width. C72_any_partial: the same for words with sequences in which StripToken finds one text each, after any histories on any words."
  },
  {
   "property": "C73",
   "status": "proved",
   "theorems": [
    "Verif.Props.C73_options_last_wins",
    "Verif.Props.C73_looseness_ignored",
    "Verif.Props.C73_nil_is_default"
   ],
   "note": "Every list of options, nil split functions included (C73_nil_is_default). C73_looseness_ignored: a finding, WithLooseness is never read."
  },
  {
   "property": "C74",
   "status": "proved",
   "theorems": [
    "Verif.Props.C74_default_any",
    "Verif.Props.C74_strings",
    "Verif.Props.C74_encoded_words"
   ],
   "note": "C74_strings and C74_encoded_words on the calls of `Call` (usual options, exact widths, no escape sequences). C74_default_any for strings of any bytes, escape sequences too, each with some text, with the default options in float64, any width and history; the spans are those StripToken finds, and `h2` is C93_found for words that do not end in a sequence cut in a parameter."
  },
  {
   "property": "C75",
   "status": "proved",
   "theorems": [
    "Verif.Props.C75_default_any",
    "Verif.Props.C75_content",
    "Verif.Props.C75_words"
   ],
   "note": "C75_content for all texts; C75_words without word breaking and marks, where a line break may be inside of a word otherwise. On the calls of `Call`. C75_default_any for texts with escape sequences, with the default options in float64: the lines without sequences, spaces and added hyphens are the texts found in the words."
  },
  {
   "property": "C76",
   "status": "proved",
   "theorems": [
    "Verif.Props.C76_any",
    "Verif.Props.C76_choice",
    "Verif.Props.C76_last_line",
    "Verif.Props.C76_chosen",
    "Verif.Props.C76_every",
    "Verif.Props.C76_exactly"
   ],
   "note": "On the calls of `Call` (usual options, exact widths, no escape sequences); the last line for widths up to 4997. C76_choice, C76_chosen, C76_every and C76_exactly when hyphens have their own penalty (the default) or are not rendered. C76_every needs only walks that start at some class and go round. C76_any states the choice of breaks for words of any runes, escape sequences included, after any history, on the texts found between the sequences."
  },
  {
   "property": "C77",
   "status": "proved",
   "theorems": [
    "Verif.Props.C77_sessions",
    "Verif.Props.C77_bonus_changes",
    "Verif.Props.C77_penalty_ignored"
   ],
   "note": "`C77_sessions` is for all words (escape sequences included), measurers (negative widths, NaN), split functions (losing text or panicking), widths and lists of calls, with a tolerance of at most 50; the results are the same, panics included. `C77_penalty_ignored` adds, on the calls of `Call`, different histories for the two line breakers. Penalties are from 0 to 10000 (excluded), and differ from those of spaces, marks and explicit hyphens when hyphens are rendered. `C77_bonus_changes`: negative penalties do change the lines, and remove hyphens. The reason is that the demerits of all breaks stay at zero, see DESIGN.md."
  },
  {
   "property": "C78",
   "status": "proved",
   "theorems": [
    "Verif.Props.C78_half_column_any",
    "Verif.Props.C78_nearest",
    "Verif.Props.C78_half_column"
   ],
   "note": "For the float64 of `Go/Float64`. C78_nearest for any line breaker without scaling in any state, and any texts; C78_half_column for the default options and escape-free text; C78_half_column_any for words of any runes (the first of which does not start with ESC)."
  },
  {
   "property": "C79",
   "status": "partial",
   "theorems": [
    "Verif.Props.C79_too_wide_any_fails",
    "Verif.Props.C79_exact_any_partial",
    "Verif.Props.C79_too_wide_fails",
    "Verif.Props.C79_default_partial",
    "Verif.Props.C79_default_fails",
    "Verif.Props.C79_exact_partial",
    "Verif.Props.C79_one_line",
    "Verif.Props.C79_any_width_partial"
   ],
   "note": "With the default options the exact range is proved for every float64 width at least that of the text, +Inf included: set if and only if the width exceeds that of the text by less than 86000.5 (C79_any_width_partial; C79_exact_partial for whole widths), and on one line when 53 columns are left (C79_one_line) or up to 4997 columns (C79_default_partial). So the statement is false of larger widths, for every text: C79_too_wide_fails (any sane options), C79_default_fails. On paragraphs without escape sequences. C79_exact_any_partial: the exact range of whole widths for words with sequences in which StripToken finds one text each, after any history; C79_too_wide_any_fails for words of any runes."
  },
  {
   "property": "C80",
   "status": "partial",
   "theorems": [
    "Verif.Props.C80_negative_any",
    "Verif.Props.C80_below_half_any",
    "Verif.Props.C80_negative",
    "Verif.Props.C80_below_half",
    "Verif.Props.C80_nan_fails",
    "Verif.Props.C80_default_fails"
   ],
   "note": "C80_negative and C80_below_half for numbers and -Inf. False for NaN: the whole text is returned as one line (C80_nan_fails, with any scale factor). On paragraphs with sane options and without escape sequences. C80_negative_any and C80_below_half_any: the same for words of any runes, after any history on any words."
  },
  {
   "property": "C81",
   "status": "proved",
   "theorems": [
    "Verif.Props.C81_line_again",
    "Verif.Props.C81_default"
   ],
   "note": "On the calls of `Call` with spaces of one column, additive measurers, a tolerance of at least 1/2 and hyphens with their own penalty; C81_default for the default options."
  },
  {
   "property": "C82",
   "status": "partial",
   "theorems": [
    "Verif.Props.C82_file_lines_partial",
    "Verif.Props.C82_line_ends_partial",
    "Verif.Props.C82_long_line_fails",
    "Verif.Props.C82_long_exception_fails"
   ],
   "note": "False for lines of 65536 bytes or more, carriage return included: among the patterns, the file is ignored from such a line on (C82_long_line_fails, for every such file); among the exceptions, the first 65536 bytes of the line are read as patterns and the rest of the file is ignored (C82_long_exception_fails, for every such file). No error is returned. The theorems together cover every file (every_file). Invalid UTF-8 is included (lines are decoded as Go does)."
  },
  {
   "property": "C83",
   "status": "proved",
   "theorems": [
    "Verif.Props.C83_supported_patterns",
    "Verif.Props.C83_well_formed",
    "Verif.Props.C83_new_breaks_any_word"
   ],
   "note": "Supposes of the Unicode functions only what UsualRunes says (digits and capital letters among the characters of the patterns)."
  },
  {
   "property": "C84",
   "status": "partial",
   "theorems": [
    "Verif.Props.C84_american_exceptions",
    "Verif.Props.C84_british_exceptions_partial",
    "Verif.Props.C84_something_fails"
   ],
   "note": "Proved for all exceptions of the American file and all but the last of the British one. The last British exception is lost, because the closing brace is on the same line (C84_something_fails)."
  },
  {
   "property": "C85",
   "status": "proved",
   "theorems": [
    "Verif.Props.C85_spanish_groups",
    "Verif.Props.C85_french_groups"
   ],
   "note": "spanish_calle and french_alcool break actual words."
  },
  {
   "property": "C86",
   "status": "proved",
   "theorems": [
    "Verif.Props.C86_patterns_are_local",
    "Verif.Props.C86_exceptions_are_local"
   ],
   "note": ""
  },
  {
   "property": "C87",
   "status": "partial",
   "theorems": [
    "Verif.Props.C87_no_empty_part_partial",
    "Verif.Props.C87_both_ends_fails"
   ],
   "note": "Exceptions are cut where the file says, see C13. minRight 0 is false of the code (C87_both_ends_fails): the two ends are the branches of one switch, so only one of them is cleared."
  },
  {
   "property": "C88",
   "status": "proved",
   "theorems": [
    "Verif.Props.C88_ready_made"
   ],
   "note": "Puts C50, C51, C54, C55, C69 and C83 together, for float64 and the shipped American file. The conditions on marks and on 51 columns are needed (C69_leading_mark_fails, C69_wide_words_fails)."
  },
  {
   "property": "C89",
   "status": "partial",
   "theorems": [
    "Verif.Props.C89_fields_partial",
    "Verif.Props.C89_tokenizer_partial",
    "Verif.Props.C89_punctuator_partial",
    "Verif.Props.C89_splitWord_partial",
    "Verif.Props.C89_hyphenator_partial",
    "Verif.Props.C89_append_hyphen_fails",
    "Verif.Props.C89_append_field_fails"
   ],
   "note": "Changes in place are proved not to reach the other parts, for memory modelled explicitly. False for append (C89_append_hyphen_fails, C89_append_field_fails): parts are cut with two indices, so their capacity reaches into the next part. The line breaker never appends to parts."
  },
  {
   "property": "C90",
   "status": "proved",
   "theorems": [
    "Verif.Props.C90_lines",
    "Verif.Props.C90_same_dictionary"
   ],
   "note": "Opening and creating files are not modelled. The exceptions are compared for words that are not empty (an empty line below the marker defines the empty word)."
  },
  {
   "property": "C91",
   "status": "proved",
   "theorems": [
    "Verif.Props.C91_width_tables",
    "Verif.Props.C91_emoji_table",
    "Verif.Props.C91_lookup"
   ],
   "note": "Fetching the files is not modelled; the printing of the tables is in C99; `fmt.Sscanf` is modelled for the four formats in use. Class H (half-width) is in no table, which gives width 1 by default."
  },
  {
   "property": "C92",
   "status": "partial",
   "theorems": [
    "Verif.Props.C92_found",
    "Verif.Props.C92_any_partial",
    "Verif.Props.C92_any_default_partial",
    "Verif.Props.C92_measured_partial",
    "Verif.Props.C92_default_partial",
    "Verif.Props.C92_three_digits_fails"
   ],
   "note": "Partial: parameters have at most two digits (C92_measured_partial, C92_default_partial, for words as in C64 to C68). C92_any_partial and C92_any_default_partial drop the other limits: words are any mix of text and of start and stop sequences, nested, repeated, unbalanced or without text, after any history of words of any runes (C92_found: whatever these are, the sequences found in them are of the known kinds). With parameters of three digits the sequence is taken for text (C92_three_digits_fails)."
  },
  {
   "property": "C93",
   "status": "partial",
   "theorems": [
    "Verif.Props.C93_found",
    "Verif.Props.C93_history",
    "Verif.Props.C93_no_panic_partial",
    "Verif.Props.C93_lines_partial",
    "Verif.Props.C93_default_partial",
    "Verif.Props.C93_cut_fails",
    "Verif.Props.C93_no_text_fails",
    "Verif.Props.C93_reads"
   ],
   "note": "Partial: excluded are words that end within a sequence, in a parameter of three digits (C93_cut_fails: for every paragraph with such a word the call panics, or runes from behind the word are set, according to the unused capacity), a first word without text, and, for the statement on lines, words without any text (C93_no_text_fails: the sequence is lost and two spaces are left). C93_reads says from the runes alone what is found in a word, by C102."
  },
  {
   "property": "C94",
   "status": "partial",
   "theorems": [
    "Verif.Props.C94_indented_partial",
    "Verif.Props.C94_fits_partial",
    "Verif.Props.C94_indented_fails"
   ],
   "note": "Partial: proved as an exact condition, when no line of empty tokens would be accepted as the first one (in particular in wide lines). It shows that the statement fails: the first line of an indented paragraph has no stretch (unless it is the last one), and a third of the empty tokens count as spaces, so that text that can be set cannot be set any more (C94_indented_fails)."
  },
  {
   "property": "C95",
   "status": "partial",
   "theorems": [
    "Verif.Props.C95_any_partial",
    "Verif.Props.C95_pieces_partial",
    "Verif.Props.C95_letters_iff_partial",
    "Verif.Props.C95_default_partial",
    "Verif.Props.C95_wide_pieces_fails"
   ],
   "note": "Exact for words with neither marks nor hyphens, whose pieces are at most 50 columns wide (default tolerance) and not narrower than a hyphen, in widths up to 86000 (C95_default_partial), or for any tolerance with the corresponding bounds (C95_letters_iff_partial). C95_pieces_partial gives the sufficient part for any words and any choice of the places. False for wide pieces: C95_wide_pieces_fails. C95_any_partial: the equivalence for words with sequences in which StripToken finds one text each, after any history on any words."
  },
  {
   "property": "C96",
   "status": "partial",
   "theorems": [
    "Verif.Props.C96_any_partial",
    "Verif.Props.C96_wider_partial",
    "Verif.Props.C96_wider_fails"
   ],
   "note": "Proved for the paragraphs of C95_letters_iff_partial. False in general: words of 9 and 60 letters are set in a width of 60, not of 61 (C96_wider_fails). C96_any_partial: the same for words with sequences in which StripToken finds one text each."
  },
  {
   "property": "C97",
   "status": "proved",
   "theorems": [
    "Verif.Props.C97_any",
    "Verif.Props.C97_default_any",
    "Verif.Props.C97_not_too_short",
    "Verif.Props.C97_number_of_lines",
    "Verif.Props.C97_default"
   ],
   "note": "C97_not_too_short and C97_number_of_lines for any sane options and measures that add up runes, C97_default for the default options in float64. The bound of 51 columns is reached (see the cases). C97_any and C97_default_any: words of any runes, in terms of the texts that the lines show."
  },
  {
   "property": "C98",
   "status": "proved",
   "theorems": [
    "Verif.Props.C98_any",
    "Verif.Props.C98_first_words",
    "Verif.Props.C98_default"
   ],
   "note": "C98_first_words for any tolerance, in widths W with 10 W <= 9994 times the tolerance in tenths; C98_default for the default options. Removing words at the start may hurt (see the cases). C98_any: words of any runes; only the first and the last of the words that are left need some text."
  },
  {
   "property": "C99",
   "status": "proved",
   "theorems": [
    "Verif.Props.C99_generate",
    "Verif.Props.C99_program",
    "Verif.Props.C99_shipped"
   ],
   "note": "The source is specified by a small grammar (`GoSource`): white space, comments, the package clause, and declarations of tables of pairs of hexadecimal numbers. The text is the one before `go/format`, which is not modelled; the file of the repository is compared, byte by byte, with the text made from the tables of the model: it has one empty line less."
  },
  {
   "property": "C100",
   "status": "proved",
   "theorems": [
    "Verif.Props.C100_any",
    "Verif.Props.C100_places_any",
    "Verif.Props.C100_words_any",
    "Verif.Props.C100_counted",
    "Verif.Props.C100_search",
    "Verif.Props.C100_paragraph",
    "Verif.Props.C100_places",
    "Verif.Props.C100_words",
    "Verif.Props.C100_default"
   ],
   "note": "A round is one passage in the body of any of the loops of knuth_plass.go; `Model/Steps` repeats the search with a counter, and C100_counted says that it has the same result. Work done outside these loops (measuring, splitting, writing the lines) is not counted. C100_any, C100_places_any and C100_words_any: the same bounds for words of any runes, after any history on any words; for C100_words_any, StripToken finds one text in each word."
  },
  {
   "property": "C101",
   "status": "proved",
   "theorems": [
    "Verif.Props.C101_written",
    "Verif.Props.C101_history",
    "Verif.Props.C101_after_plain"
   ],
   "note": "The sequences around lines for all words and histories; the cases where they are not the ones a reader expects are the failures of C47, C48, C61, C65 and C68."
  },
  {
   "property": "C102",
   "status": "proved",
   "theorems": [
    "Verif.Props.C102_readable",
    "Verif.Props.C102_results"
   ],
   "note": "Exact for every text that does not end within a control sequence, in a parameter of three digits; these are exactly the texts that can be read (C102_readable). For the others see C37 and C43. `Reads` is a grammar of units and `results` an automaton on them with three states; neither mentions the code's scanner."
  },
  {
   "property": "C103",
   "status": "partial",
   "theorems": [
    "Verif.Props.C103_finer_any_partial",
    "Verif.Props.C103_tolerance_any_partial",
    "Verif.Props.C103_finer_partial",
    "Verif.Props.C103_tolerance_partial",
    "Verif.Props.C103_refused_fails",
    "Verif.Props.C103_float64_fails"
   ],
   "note": "Whether a paragraph is set, not which lines are chosen: the classes of lines change with the unit too. Factors that make the widths inexact are not covered (see C56_float64_scale_matters). C103_finer_any_partial and C103_tolerance_any_partial: the same for words of any runes with the same texts, after any histories on any words."
  },
  {
   "property": "C104",
   "status": "proved",
   "theorems": [
    "Verif.Props.C104_exact",
    "Verif.Props.C104_narrow",
    "Verif.Props.C104_one_line"
   ],
   "note": "For every number of empty tokens and every positive width, on the calls of `Call`: integral widths represented exactly, custom splitters that lose no text, any history of calls on escape-free text, any walk over the classes. One empty line if and only if a third of the spaces between them fits, with the stretch of a last line."
  },
  {
   "property": "C105",
   "status": "proved",
   "theorems": [
    "Verif.Props.C105_counted",
    "Verif.Props.C105_linear",
    "Verif.Props.C105_single",
    "Verif.Props.C105_no_less"
   ],
   "note": "Counted are the calls of ReadRune and the runes copied by append (`Model/AnsiSteps`; C105_counted: the results are those of the model of C37 to C43). Not counted: the growth of the slice of results, which is the Go runtime's."
  },
  {
   "property": "C106",
   "status": "proved",
   "theorems": [
    "Verif.Props.C106_counted",
    "Verif.Props.C106_quadratic",
    "Verif.Props.C106_no_less"
   ],
   "note": "Counted are the rounds of all loops (`Model/HyphSteps`; C106_counted: the results are those of the model of C09 to C14). Not counted: what the Go runtime does to look up a key of a map, to grow a slice and to clear it."
  },
  {
   "property": "C107",
   "status": "proved",
   "theorems": [
    "Verif.Props.C107_counted",
    "Verif.Props.C107_work",
    "Verif.Props.C107_kept",
    "Verif.Props.C107_history",
    "Verif.Props.C107_slower"
   ],
   "note": "Counted are the rounds of the loops of render and of the iterator over the renderers (`Model/RenderSteps`; C107_counted: the results are those of render). Not counted: growing and copying slices, and writing a sequence or the text of a node, which is one round whatever its length. C107_slower is stated for calls with exactly represented widths, to know that each of them returns lines."
  },
  {
   "property": "C108",
   "status": "proved",
   "theorems": [
    "Verif.Props.C108_parts",
    "Verif.Props.C108_no_less",
    "Verif.Props.C108_no_less_any",
    "Verif.Props.C108_counted",
    "Verif.Props.C108_work"
   ],
   "note": "Counted are the rounds of the loops, and for StripToken the runes read and copied as in C105 (`Model/AlignSteps`; C108_counted: the results are those of LeftAlignUniform). Not counted: calls of the measurer, growing and copying slices, the hash table of a node of a trie, and writing a sequence or the text of a node, which is one round whatever its length. One walk over the map of candidates visits each class once (OneWalk, as in C100)."
  },
  {
   "property": "C109",
   "status": "proved",
   "theorems": [
    "Verif.Props.C109_model",
    "Verif.Props.C109_usable",
    "Verif.Props.C109_as_new",
    "Verif.Props.C109_left"
   ],
   "note": "`Model/Panics` repeats the functions that push renderers, with the renderers that are in the list when they return or panic; C109_model: its results, and the line breaker after a call that returns, are those of leftAlignUniform. A panic of the measurer is not modelled. The other fields set by a call (nodes, lineWidths) are set again by the next one before they are read."
  },
  {
   "property": "C110",
   "status": "proved",
   "theorems": [
    "Verif.Props.C110_whole_runes",
    "Verif.Props.C110_panics",
    "Verif.Props.C110_no_match",
    "Verif.Props.C110_read_offsets"
   ],
   "note": "For runes that have an encoding. ReadRune returns the size -1 for others, and offsets counted from these select other runes (example at the end of Props/ByteRange)."
  },
  {
   "property": "C111",
   "status": "partial",
   "theorems": [
    "Verif.Props.C111_in_place_partial",
    "Verif.Props.C111_append_fails"
   ],
   "note": "False for append (C111_append_fails, for every text): slices are cut with two indices, so their capacity reaches into the next one. Texts that end within a sequence, in a parameter of three digits, are excluded (see C37, C43). The line breaker does not append to these slices."
  },
  {
   "property": "C112",
   "status": "proved",
   "theorems": [
    "Verif.Props.C112_full",
    "Verif.Props.C112_every",
    "Verif.Props.C112_nothing_lost",
    "Verif.Props.C112_hyphens",
    "Verif.Props.C112_letters",
    "Verif.Props.C112_edges",
    "Verif.Props.C112_trimmed",
    "Verif.Props.C112_float64",
    "Verif.Props.C112_odd_widths"
   ],
   "note": "C112_nothing_lost for any numbers with the laws of `Go/Float` where 0 divided by the scale gives no spaces; C112_float64 has no such condition. The last equality on letters supposes that the split functions given as options lose no text (the built-in ones lose none). The number of spaces between words is the rounded width of a space (`spacesShown`); it may be 0 (C112_odd_widths). C112_edges is on spaces at the edges for any split functions whose parts are neither empty nor contain spaces; C112_trimmed for the built-in ones. C112_full: when the first word has a part, every line but possibly the last has a part of a word (the last one too, when the last word has a part: C112_every), and hyphens are added wherever a word is cut; with a penalty of hyphens in [0, 10000] and a tolerance of at most 50."
  },
  {
   "property": "C113",
   "status": "proved",
   "theorems": [
    "Verif.Props.C113_held",
    "Verif.Props.C113_exact_iff",
    "Verif.Props.C113_exact",
    "Verif.Props.C113_overflow"
   ],
   "note": "`Model/Width64` repeats Widths with additions of 64 bits. C113_held and C113_exact_iff hold for all slices and options; C113_exact for runes from 0 to 0x10FFFF. On 32-bit machines int has 32 bits; this is not modelled."
  },
  {
   "property": "C114",
   "status": "partial",
   "theorems": [
    "Verif.Props.C114_independent",
    "Verif.Props.C114_not_copies",
    "Verif.Props.C114_once_partial",
    "Verif.Props.C114_values_partial",
    "Verif.Props.C114_exact",
    "Verif.Props.C114_right_iff",
    "Verif.Props.C114_again_fails",
    "Verif.Props.C114_two_states_fails",
    "Verif.Props.C114_late_stop_fails",
    "Verif.Props.C114_line_breaker"
   ],
   "note": "That a State holds the renderers of the caller, not copies, is proved for all calls (C114_not_copies). Levels: proved when every renderer is pushed once and its stop sequence is set before the next push to its State (C114_once_partial; C114_values_partial: States are then those of C45 to C49), and, on influence, when each renderer is pushed to one State only (C114_independent). False otherwise, because Push writes the level into the renderer: C114_again_fails (pushed twice), C114_two_states_fails, C114_late_stop_fails. C114_exact gives the levels for renderers pushed again to one State, C114_right_iff tells exactly when these are right. C114_line_breaker: the line breaker allocates a renderer for each push, so that pointers are positions in its list, as Model/Linebreak has it."
  },
  {
   "property": "C115",
   "status": "proved",
   "theorems": [
    "Verif.Props.C115_render",
    "Verif.Props.C115_renderers",
    "Verif.Props.C115_start_of_line",
    "Verif.Props.C115_end_of_line"
   ],
   "note": "C115_render, C115_renderers: exactly which texts are sent. C115_start_of_line, C115_end_of_line: texts that are start (stop) sequences of renderers of the State and, put end to end, what C47 (C48) is about. Runes have 32 bits. C115_refused_case: a writer without room for the text."
  },
  {
   "property": "C116",
   "status": "proved",
   "theorems": [
    "Verif.Props.C116_size",
    "Verif.Props.C116_default"
   ],
   "note": "Proved when the first and the last word have some text, and under the conditions of C50_any: a penalty of hyphens in [0, 10000] other than 0, 200 and 400, a tolerance of at most 50, split functions that lose no text. C116_default is float64 with the default options and has no such condition."
  },
  {
   "property": "C117",
   "status": "proved",
   "theorems": [
    "Verif.Props.C117_any",
    "Verif.Props.C117_default_any",
    "Verif.Props.C117_text_kept",
    "Verif.Props.C117_trailing",
    "Verif.Props.C117_no_room"
   ],
   "note": "Proved. Calls are those of `Call`: integral widths represented exactly, custom splitters that lose no text, any history of calls on escape-free text. C117_any is for any words of which the first and the last one have some text, styled or not, measurers, widths and histories, under the conditions of C50_any; C117_default_any is float64 with the default options. C54 and C94 are on paragraphs that start with empty tokens, C104 on those that have no other."
  }
 ]
}