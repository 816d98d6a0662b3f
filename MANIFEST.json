{"claims": [
 {"property": "C01", "status": "proved", "theorems": ["Verif.C01_run", "Verif.C01_entry", "Verif.C01_parse", "Verif.C01_slice", "Verif.C01_str", "Verif.C01_partial_slice"], "note": "for every parser composed from the modelled combinators (inductive Built), every lawful stream; laws proved for slices, str, iterators and all wrappers"},
 {"property": "C02", "status": "proved", "theorems": ["Verif.C02_commit_status", "Verif.C02_reused", "Verif.C02_entry_points", "Verif.C02_fragment", "Verif.C02_empty_range", "Verif.C02_take_until_end", "Verif.C02_escaped", "Verif.C02_stale_sep_end_by1", "Verif.C02_stale_sep_end_by1_in_many", "Verif.C02_stale_chainl1", "Verif.C02_stale_iterate", "Verif.C02_resumed_many"], "note": "For every composition listed in Spec/Commitment.lean (all modelled combinators, with side conditions exactly where the code violates the property), every lawful stream and input. The side conditions are necessary: the witnesses C02_empty_range, C02_take_until_end, C02_escaped and C02_stale_* show the statement false without them."},
 {"property": "C03", "status": "proved", "theorems": ["Verif.C03_choice", "Verif.C03_or", "Verif.C03_slice"], "note": "Answers (value, commitment, rest) of choice, or and slice choice equal the ordered-choice reference, for all alternatives, inputs and streams that satisfy the stream laws."},
 {"property": "C04", "status": "proved", "theorems": ["Verif.C04_attempt", "Verif.C04_attempt_any", "Verif.C04_or"], "note": "attempt never commits to a failure and gives all input back; alternatives after it are tried."},
 {"property": "C05", "status": "proved", "theorems": ["Verif.C05_lookAhead", "Verif.C05_lookAhead_input", "Verif.C05_notFollowedBy", "Verif.C05_notFollowedBy_input"], "note": ""},
 {"property": "C06", "status": "proved", "theorems": ["Verif.C06_optional", "Verif.C06_optional_any"], "note": ""},
 {"property": "C07", "status": "proved", "theorems": ["Verif.C07_unique", "Verif.C07_many", "Verif.C07_skip_many", "Verif.C07_stale_state"], "note": "many(p)/skip_many(p) are greedy repetition for every reusable, consuming p on every lawful stream; the hypothesis Reusable is necessary: C07_stale_state is a witness."},
 {"property": "C08", "status": "proved", "theorems": ["Verif.C08_many1", "Verif.C08_skip_many1", "Verif.C08_nonempty"], "note": "many1 is many where p succeeds; otherwise it fails like p; a success has at least one value."},
 {"property": "C09", "status": "proved", "theorems": ["Verif.C09_count_min_max", "Verif.C09_count", "Verif.C09_bounds", "Verif.C09_skip_count_min_max", "Verif.C09_skip_count"], "note": "count/count_min_max: as many as possible up to the upper bound, fails below the lower one."},
 {"property": "C10", "status": "proved", "theorems": ["Verif.C10_sep_by1", "Verif.C10_sep_by", "Verif.C10_sep_end_by1", "Verif.C10_sep_end_by"], "note": "sep_by*, sep_end_by* equal the reference semantics built from the answers of element and separator."},
 {"property": "C11", "status": "proved", "theorems": ["Verif.C11_chainl1", "Verif.C11_chainr1", "Verif.C11_chainr1_trailing", "Verif.C11_chainr1_none", "Verif.C11_chainr1_exact"], "note": "chainl1 folds left, chainr1 folds right. Deviation of the code: chainr1 consumes and drops a trailing operator (C11_chainr1_trailing)."},
 {"property": "C12", "status": "proved", "theorems": ["Verif.C12_no_missing_value", "Verif.C12_tuple", "Verif.C12_with", "Verif.C12_skip", "Verif.C12_between", "Verif.C12_error_input"], "note": "Sequences: the tuple answers like the monadic composition of its members in order; the values are all present."},
 {"property": "C13", "status": "proved", "theorems": ["Verif.C13_map", "Verif.C13_map_map", "Verif.C13_flatMap", "Verif.C13_then", "Verif.C13_thenPartial", "Verif.C13_thenRef", "Verif.C13_left_unit", "Verif.C13_right_unit", "Verif.C13_assoc"], "note": ""},
 {"property": "C14", "status": "proved", "theorems": ["Verif.C14_denotes", "Verif.C14_chunks", "Verif.C14_parse", "Verif.C14_more", "Verif.C14_reject", "Verif.C14_same", "Verif.C14_count_loses", "Verif.C14_tokens_fail", "Verif.C14_length_prefix_fails", "Verif.C14_sep_by1_fails", "Verif.C14_attempt_fails", "Verif.C14_hard_failure_lost", "Verif.C14_stale_sequence", "Verif.C14_array_choice_fails", "Verif.C14_stale_then", "Verif.C14_take_until_range_fails", "Verif.C14_stale_take_until_range", "Verif.C14_take_until_fails", "Verif.C14_repeat_until_fails", "Verif.C14_take_until_seek", "Verif.C14_take_until_stateless", "Verif.C14_sees", "Verif.C14_sees_string", "Verif.C14_take_until_bytes_fails", "Verif.C14_take_until_byte_fails", "Verif.C14_range_fails", "Verif.C14_take_fails", "Verif.C14_regex_fails", "Verif.C14_chainr1_fails", "Verif.C14_escaped_fails", "Verif.C14_eof_fails", "Verif.C14_not_followed_by_fails", "Verif.C14_from_str", "Verif.C14_repeat_until_seek", "Verif.C14_repeat_until_stateless", "Verif.C14_skip_until", "Verif.C14_repeat_skip_until", "Verif.C14_skip_until_stateless", "Verif.C14_repeat_skip_until_stateless"], "note": "For every parser of the fragment Frag (Spec/Fragment.lean: tokens, sequences, choices, repetitions, sep_end_by(1), chainl1, ranges, ...), every lawful stream that can be fed (slices, str, and their position/convert/maybe-partial wrappers) and every cutting of the input. take_until may have any end parser without state, also attempt(string(..)) (C14_take_until_stateless); so may repeat_until over any consuming parser of Frag (C14_repeat_until_stateless). The _fails/_loses/_lost/_stale theorems are witnesses of parsers outside the fragment for which the claim is false. Violated by take_until_byte and take_until_bytes on a partial &str (witnesses): they take too much where a stored offset is inside a character of several bytes. Violated by range and take in a choice on a partial &str (witnesses): a size that ends inside a character is a committed failure there. The regex parsers are not chunk independent (witness)."},
 {"property": "C15", "status": "proved", "theorems": ["Verif.C15_stable", "Verif.C15_no_guess", "Verif.C15_eof_guesses", "Verif.C15_not_followed_by_guesses", "Verif.C15_and_then_guesses"], "note": "For every parser of the fragment, not only primitives. The _guesses theorems are witnesses that eof, not_followed_by and and_then on a parser that consumes nothing deviate."},
 {"property": "C16", "status": "proved", "theorems": ["Verif.C16_slice_in_bounds", "Verif.C16_slice_calls", "Verif.C16_slice_calls1", "Verif.C16_str_calls", "Verif.C16_take_while", "Verif.C16_take_while1", "Verif.C16_slice_take_while", "Verif.C16_slice_take_while1", "Verif.C16_str_take_while", "Verif.C16_default_while1"], "note": "Longest prefix on any lawful range stream, in list terms on slices and strings, in-bounds unrolled scan and exact predicate calls. C16_default_while1: the default uncons_while1 (token by token) meets the same law."},
 {"property": "C17", "status": "proved", "theorems": ["Verif.C17_take_until_range", "Verif.C17_take_until_byte", "Verif.C17_memslice", "Verif.C17_take_until_bytes", "Verif.C17_take_until_bytes_text", "Verif.C17_take_until_byte_text", "Verif.C17_take_until_byte_text_fails"], "note": "take_until_range on any lawful range stream; byte variants on byte slices, and on &str: for the bytes of a text (UTF-8 synchronizes) and for ASCII bytes. A byte inside a character makes the parser fail (witness)."},
 {"property": "C18", "status": "proved", "theorems": ["Verif.C18_recognize_with_value", "Verif.C18_recognize_range", "Verif.C18_recognize_slice", "Verif.C18_recognize", "Verif.C18_no_positions", "Verif.C18_stale_elements"], "note": "recognize on fresh calls; deviations on streams without positions and with reused state. Resumed calls are treated with C14."},
 {"property": "C19", "status": "proved", "theorems": ["Verif.C19_decode", "Verif.C19_enough", "Verif.C19_le_unsigned", "Verif.C19_be_unsigned", "Verif.C19_le_signed", "Verif.C19_be_signed", "Verif.C19_too_short"], "note": "Any width, any lawful stream, complete or partial. Floats: C19_decode/C19_enough with the conversion as a parameter."},
 {"property": "C20", "status": "proved", "theorems": ["Verif.C20_slice", "Verif.C20_str", "Verif.C20_parser", "Verif.C20_order", "Verif.C20_total"], "note": "any history of reads, ranges, scans, checkpoints and resets (also forward resets), and any parser; the order of positions is that of the text"},
 {"property": "C21", "status": "proved", "theorems": ["Verif.C21_slice", "Verif.C21_parser", "Verif.C21_str_depends_on_history"], "note": "last theorem: over &str the index is not a function of the consumed text (outside the property)"},
 {"property": "C22", "status": "partial", "theorems": ["Verif.Easy.C22_further", "Verif.Easy.C22_same_position", "Verif.Easy.C22_noDuplicates", "Verif.Easy.C22_assoc", "Verif.Easy.C22_idempotent_partial", "Verif.Easy.C22_other_repeated", "Verif.C22_read_eq"], "note": "easy::Errors. Position rule and associativity are unconditional. Missing: idempotence and duplicate freedom for Error::Other entries, which the code violates (they compare unequal to themselves; C22_other_repeated is the witness)."},
 {"property": "C23", "status": "proved", "theorems": ["Verif.C23_token", "Verif.C23_end", "Verif.distinct_spec"], "note": "token, one_of, choice (tuples, slices), or, nested at will; easy::Stream over any lawful stream; complete input at the end."},
 {"property": "C24", "status": "proved", "theorems": ["Verif.C24_buffered", "Verif.C24_any_capacity", "Verif.C24_within_lookahead", "Verif.C24_io_error_lost"], "note": "compared with an unlimited recording (Spec/Tape.lean) over all histories; panics would show"},
 {"property": "C25", "status": "proved", "theorems": ["Verif.C25_extend", "Verif.C25_decode", "Verif.C25_call", "Verif.C25_session", "Verif.C25_no_panic", "Verif.byteInput_maybe", "Verif.byteInput_position"], "note": "for every parser that only moves forward (Built.moves); synchronous readers"},
 {"property": "C26", "status": "proved", "theorems": ["Verif.C26_conserved", "Verif.C26_no_panic", "Verif.C26_read_empty", "Verif.C26_async_conserved", "Verif.C26_async_no_panic"], "note": "the branch of read that needs a usize::MAX buffer is not modelled"},
 {"property": "C27", "status": "proved", "theorems": ["Verif.C27_boundary", "Verif.C27_uncons_range", "Verif.C27_uncons_while", "Verif.C27_take"], "note": ""},
 {"property": "C28", "status": "proved", "theorems": ["Verif.C28_partial_stream", "Verif.C28_complete_stream", "Verif.C28_state_stream", "Verif.C28_maybe_partial_stream", "Verif.C28_easy_stream", "Verif.C28_position_stream", "Verif.C28_parse_complete", "Verif.C28_parse_maybe", "Verif.C28_parse_state", "Verif.C28_state_not_reset"], "note": "same observations for every history of operations (Spec/Play.lean); every program of parsers ends the same on the wrapped stream (Props/WholeParse.lean)"},
 {"property": "C29", "status": "proved", "theorems": ["Verif.C29_message", "Verif.C29_expected", "Verif.C29_silent", "Verif.C29_entry"], "note": "For every history of calls, and for the other entry points."},
 {"property": "C30", "status": "proved", "theorems": ["Verif.Easy.C30_setExpected", "Verif.C30_only_adds", "Verif.C30_expected", "Verif.C30_silent", "Verif.C30_method"], "note": "Every parser built from the modelled parsers and combinators, over easy::Stream of any stream."},
 {"property": "C31", "status": "partial", "theorems": ["Verif.C31_add", "Verif.C31_adds", "Verif.C31_easy_merge", "Verif.C31_easy_clear", "Verif.C31_faithful", "Verif.C31_convert_partial", "Verif.C31_easy_into_other_loses", "Verif.C31_expected_loses", "Verif.C31_easy_error_loses", "Verif.C31_easy_convert", "Verif.C31_easy_into_other", "Verif.C31_message_becomes_expected", "Verif.C31_boundary_lost"], "note": "Additions, conversions from the plain error types and between easy errors keep the status (into_other: that of the last error). Missing, because the code violates it: conversion of easy errors and set_expected on plain errors (the last three theorems are concrete violations)."},
 {"property": "C32", "status": "proved", "theorems": ["Verif.C32_ok", "Verif.C32_committed", "Verif.C32_peek", "Verif.C32_partial_input", "Verif.C32_fail", "Verif.C32_from_str"], "note": ""},
 {"property": "C33", "status": "proved", "theorems": ["Verif.C33_unique", "Verif.C33_take_until", "Verif.C33_skip_until", "Verif.C33_repeat_until", "Verif.C33_soft_failure_after_reading", "Verif.C33_commit_without_reading", "Verif.C14_repeat_until_seek", "Verif.C33_take_until_again", "Verif.C33_repeat_until_again", "Verif.C33_stale_take_until", "Verif.C33_stale_repeat_until", "Verif.C33_repeat_skip_until"], "note": "take_until, skip_until and repeat_until refine the reference relation (first place where the end parser matches; end parser is not consumed); two theorems exhibit deviations of the commit status. C33_*_again: the state left after a success may be used for the next element. After a failure it may not (witnesses C33_stale_*)."},
 {"property": "C34", "status": "proved", "theorems": ["Verif.C34_dispatch", "Verif.C34_other_arm"], "note": ""},
 {"property": "C35", "status": "proved", "theorems": ["Verif.C35_andThen_assoc", "Verif.C35_peekOk_andThen", "Verif.C35_andThen_peekOk", "Verif.C35_map_eq_andThen", "Verif.C35_map_id", "Verif.C35_map_map", "Verif.C35_mapErr_map", "Verif.C35_isOk_mapErr", "Verif.C35_ofStd_toStd", "Verif.C35_toStd_ofStd", "Verif.C35_merge_assoc", "Verif.C35_peek_merge", "Verif.C35_merge_spec", "Verif.C35_combineCommit", "Verif.C35_combine"], "note": ""},
 {"property": "C36", "status": "proved", "theorems": ["Verif.C36_many", "Verif.C36_many1", "Verif.C36_many1_progress", "Verif.C36_skip_many", "Verif.C36_skip_many1", "Verif.C36_sep_by1", "Verif.C36_sep_by", "Verif.C36_sep_end_by1", "Verif.C36_sep_end_by", "Verif.C36_chainl1", "Verif.C36_chainr1", "Verif.C36_escaped", "Verif.C36_take_until", "Verif.C36_skip_until", "Verif.C36_repeat_until", "Verif.C36_count_min_max", "Verif.C36_count", "Verif.C36_iterate", "Verif.C36_many_bound", "Verif.C36_fuel", "Verif.C36_many_diverges", "Verif.C36_empty_range"], "note": "From any state (hence under any history of calls) the repetition combinators return without panic when the repeated parser consumes; C36_many_diverges shows the condition is necessary, C36_empty_range that range of an empty range violates it although it reports CommitOk."},
 {"property": "C37", "status": "proved", "theorems": ["Verif.C37_forward", "Verif.C37_either", "Verif.C37_factory", "Verif.C37_any", "Verif.C37_any_cleared", "Verif.C37_noPartial"], "note": ""},
 {"property": "C38", "status": "proved", "theorems": ["Verif.C38_take", "Verif.C38_round_trip", "Verif.C38_too_short", "Verif.C38_bad_length"], "note": "Any length parser; round trip for big endian lengths of any width."},
 {"property": "C39", "status": "proved", "theorems": ["Verif.C39_match", "Verif.C39_find", "Verif.C39_find_many", "Verif.C39_captures", "Verif.C39_captures_many"], "note": "Any engine whose matches end where it says."},
 {"property": "C40", "status": "proved", "theorems": ["Verif.C40_tokens", "Verif.C40_tokens_cmp", "Verif.C40_string", "Verif.C40_unique", "Verif.C40_error_position", "Verif.C40_range", "Verif.C40_take"], "note": "Any comparison, any lawful stream, complete or partial (on partial input the answer at the end is a committed request for more). C40_error_position: errors are reported where the sequence started."},
 {"property": "C41", "status": "proved", "theorems": ["Verif.C41_parse", "Verif.C41_committed", "Verif.C41_uncommitted"], "note": "Coherent (hypothesis of C41_parse) is proved for every parser built from the modelled combinators (Built.coherent)."},
 {"property": "C42", "status": "proved", "theorems": ["Verif.C42_escaped", "Verif.C42_unique", "Verif.C42_not_rewound", "Verif.C42_read_without_commit"], "note": "escaped refines the reference relation when the parser of ordinary characters leaves the input alone on a soft failure and the escape parser commits; two theorems exhibit inputs where the code deviates without these conditions."},
 {"property": "C43", "status": "proved", "theorems": ["Verif.C43_message", "Verif.C43_same", "Verif.C43_reject", "Verif.C43_position", "Verif.C43_source_position", "Verif.C43_error_position"], "note": "For the fragment of C14 (see Spec/Fragment). C43_error_position: after a parse error the decoder's position moves on though its buffer does not."},
 {"property": "C44", "status": "proved", "theorems": ["Verif.C44_position", "Verif.C44_eof", "Verif.C44_spanned", "Verif.C44_eof_only"], "note": "C44_eof_only: on a stream that can fail, eof succeeds only on an end of input error."},
 {"property": "C45", "status": "proved", "theorems": ["Verif.C45_iter_many", "Verif.C45_iter_ends", "Verif.C45_iter_run", "Verif.C45_iterate", "Verif.C45_stale_buffer", "Verif.C45_chunks", "Verif.C45_partial_iter"], "note": "Iterator values, status and remaining input agree with many; iterate runs one parser per item. C45_stale_buffer: iterate keeps elements of an abandoned call; C45_chunks: fed in any pieces, iterate builds the same collection."},
 {"property": "C46", "status": "proved", "theorems": ["Verif.C46_messages", "Verif.C46_stale_sequence", "Verif.C46_serve"], "note": "For the fragment, flag k (restartable after success). C46_stale_sequence shows that without that flag a message is rejected because of state left by the previous one."},
 {"property": "C47", "status": "proved", "theorems": ["Verif.C47_parse", "Verif.C47_resume", "Verif.C47_source", "Verif.C47_index", "Verif.C47_str_offset", "Verif.C47_slice_offset", "Verif.C47_byte_index", "Verif.C47_offset_not_index"], "note": "easy errors over any lawful stream, every parser composed from the modelled combinators (Placed). Positions that user functions (flat_map, parser(fn), InputConverter, spanned) put into their own errors are allowed for by the parameter Own; C47_source and C47_index are for Own empty. translate_position: byte offset of a character boundary (&str) or element (slices); documented as an index, which it is only for one-byte elements (C47_offset_not_index)."},
 {"property": "C48", "status": "partial", "theorems": ["Verif.C48_denotes", "Verif.C48_chunks_partial", "Verif.C48_serve", "Verif.C48_empty_piece_fails", "Verif.C48_array_in_sequence_fails", "Verif.C48_shared_state_fails", "Verif.C14_array_choice_fails", "Verif.C48_decoder_fails"], "note": "Proved: what a fresh choice over an array does; reuse for one input after the other; pieces if the first piece is not empty and the alternatives do not fail softly after asking for more. The property as stated is false without these provisos and for alternatives that leave their shared state used: witnesses C48_empty_piece_fails, C48_array_in_sequence_fails, C14_array_choice_fails, C48_shared_state_fails."},
 {"property": "C49", "status": "proved", "theorems": ["Verif.C49_bytes", "Verif.C49_waiting", "Verif.C49_message", "Verif.C49_same", "Verif.C49_messages", "Verif.C49_reject", "Verif.C49_extend"], "note": "C49_waiting (every parser): polling until ready gives what an always-ready reader gives. C49_bytes (every parser): accounting of bytes over every schedule of pending polls, failures and dropped futures. C49_message, C49_same, C49_messages, C49_reject: for the fragment of C14/C43, with futures dropped at any await, the messages are those of decode! on the same bytes."},
 {"property": "C50", "status": "proved", "theorems": ["Verif.Easy.C50_errors", "Verif.Easy.C50_display", "Verif.Easy.C50_same", "Verif.Easy.C50_merge", "Verif.Easy.C50_once", "Verif.Easy.C50_map", "Verif.C50_into_other", "Verif.Easy.C50_map_id", "Verif.Easy.C50_map_twice", "Verif.Easy.C50_map_causes"], "note": "The Display text of easy errors equals a three-part specification; duplicates show alike; merging at equal positions shows the union; mapping commutes with display. Formatter sinks never fail in the model. C50_map_id, C50_map_twice, C50_map_causes: mapping tokens, ranges and positions changes nothing else, cause by cause."},
 {"property": "C51", "status": "proved", "theorems": ["Verif.C51_frame", "Verif.C51_messages", "Verif.C51_all", "Verif.C51_easy", "Verif.C51_truncated_fails", "Verif.C51_labelled_fails", "Verif.C51_open_messages", "Verif.C51_open_all"], "note": "C51_frame holds for every parser that only moves forward (all built parsers, C01). C51_all and C51_easy are about parsers of the fed fragment that ask for input when there is none. Two deviations are proved as witnesses: a truncated message whose bytes were all consumed ends the stream silently, and a label on plain errors turns the regular end into an error. The same for codecs that always say that more may follow, with the default decode_eof (C51_open_*)."},
 {"property": "C52", "status": "proved", "theorems": ["Verif.C52_depth", "Verif.C52_unique", "Verif.C52_equation", "Verif.C52_call", "Verif.C52_fixed", "Verif.C52_weaken", "Verif.C52_map", "Verif.C52_with", "Verif.C52_skip", "Verif.C52_pair", "Verif.C52_between", "Verif.C52_then", "Verif.C52_or", "Verif.C52_optional", "Verif.C52_attempt", "Verif.C52_lookAhead", "Verif.C52_notFollowedBy", "Verif.C52_parser", "Verif.C52_many", "Verif.C52_many1", "Verif.C52_sepBy1", "Verif.C52_sepBy", "Verif.C52_chainl1", "Verif.C52_labels", "Verif.C52_left_recursion", "Verif.C52_tuple", "Verif.C52_choice", "Verif.C52_count_min_max", "Verif.C52_count", "Verif.C52_skip_many", "Verif.C52_sep_end_by1", "Verif.C52_sep_end_by", "Verif.C52_chainr1", "Verif.C52_dispatch"], "note": "depth: on n tokens at most n+1 nested calls, further unfolding changes nothing; unique: any parser that answers as the body applied to itself answers so; the other theorems give, per combinator, when a grammar is guarded. Compared: value, commitment and rest of the input (not the content of errors), calls that start anew. attempt on complete input only. left_recursion: witness that the proviso is needed."},
 {"property": "C53", "status": "proved", "theorems": ["Verif.C53_satisfy_map", "Verif.C53_satisfy", "Verif.C53_any", "Verif.C53_token", "Verif.C53_one_of", "Verif.C53_none_of", "Verif.C53_named", "Verif.C53_unique", "Verif.C53_byte_members", "Verif.C53_char_members", "Verif.C53_char_ascii", "Verif.C53_to_digit", "Verif.C53_byte", "Verif.C53_char", "Verif.C53_agree", "Verif.C53_crlf", "Verif.C53_spaces", "Verif.C53_vertical_tab", "Verif.C53_byte_spaces", "Verif.C53_char_spaces"], "note": "Every parser of one token against one specification (Strm.IsOne), with uniqueness of the answer; membership of the classes for every byte and every ASCII character; the Unicode tables beyond ASCII are parameters, so upper/lower/letter/alpha_num/space of parser::char are settled on ASCII only. The agreement of the two modules on ASCII has one exception, kept as witness C53_vertical_tab: the vertical tab is white space for parser::char and not for parser::byte."},
 {"property": "C54", "status": "proved", "theorems": ["Verif.C54_weaken", "Verif.C54_value", "Verif.C54_unexpected", "Verif.C54_map", "Verif.C54_with", "Verif.C54_skip", "Verif.C54_between", "Verif.C54_tuple", "Verif.C54_then", "Verif.C54_or", "Verif.C54_optional", "Verif.C54_attempt", "Verif.C54_look_ahead", "Verif.C54_not_followed_by", "Verif.C54_many", "Verif.C54_many1", "Verif.C54_count_min_max", "Verif.C54_repeat_until", "Verif.C54_sep_by1", "Verif.C54_sep_by", "Verif.C54_sep_end_by1", "Verif.C54_sep_end_by", "Verif.C54_chainl1", "Verif.C54_labels", "Verif.C54_recur", "Verif.C54_parse", "Verif.C54_one", "Verif.C54_eof", "Verif.C54_tokens", "Verif.C54_take_while", "Verif.C54_take_while1", "Verif.C54_skip_run", "Verif.C54_recognize_with_value", "Verif.C54_recognize_range", "Verif.C54_take_until_range", "Verif.C54_range", "Verif.C54_satisfy_map", "Verif.C54_satisfy", "Verif.C54_string", "Verif.C54_take_until", "Verif.C54_take", "Verif.C54_slice", "Verif.C54_str", "Verif.C54_iter", "Verif.C54_wrapped", "Verif.C54_converted", "Verif.C54_positioned", "Verif.C54_choice", "Verif.C54_skip_many", "Verif.C54_skip_count", "Verif.C54_and_then", "Verif.C54_iterate", "Verif.C54_skip_until", "Verif.C54_repeat_skip_until", "Verif.C54_escaped", "Verif.C54_chainr1", "Verif.C54_dispatch", "Verif.C54_length_prefix"], "note": "Each combinator preserves agreement of two parsers over two lawful streams whose inputs hold the same tokens (or, more generally, tokens and what they are encoded as); leaf parsers agree by their reference semantics. Errors and positions are left open, attempt and range are stated for complete inputs."},
 {"property": "C55", "status": "proved", "theorems": ["Verif.C55_one", "Verif.C55_token", "Verif.C55_class", "Verif.C55_string", "Verif.C55_take_while", "Verif.C55_take_while1", "Verif.C55_recognize", "Verif.C55_take_until_range", "Verif.C55_range", "Verif.C55_eof", "Verif.C55_parse", "Verif.C55_take", "Verif.C55_string_beyond", "Verif.C55_take_beyond", "Verif.C55_letter_beyond", "Verif.C55_range_beyond"], "note": "Instance of C54 for UTF-8. What differs beyond ASCII is shown by C55_*_beyond."},
 {"property": "C56", "status": "proved", "theorems": ["Verif.C56_weaken", "Verif.C56_same", "Verif.C56_value", "Verif.C56_one", "Verif.C56_map", "Verif.C56_with", "Verif.C56_skip", "Verif.C56_between", "Verif.C56_tuple", "Verif.C56_then", "Verif.C56_or", "Verif.C56_choice", "Verif.C56_optional", "Verif.C56_many", "Verif.C56_skip_many", "Verif.C56_many1", "Verif.C56_sep_by1", "Verif.C56_sep_by", "Verif.C56_chainl1", "Verif.C56_labels", "Verif.C56_recur", "Verif.C56_side", "Verif.C56_nonterminal", "Verif.C56_terminates", "Verif.C56_prefix", "Verif.C56_language", "Verif.C56_common_prefix", "Verif.C56_empty_first", "Verif.C56_count_min_max", "Verif.C56_sep_end_by1", "Verif.C56_sep_end_by"], "note": "Rules for each combinator with values, and the whole-grammar theorems: C56_language (with eof, the texts accepted are exactly those derived), C56_terminates, C56_prefix. C56_common_prefix and C56_empty_first show that the LL(1) conditions are needed. Also count_min_max/skip_count_min_max, sep_end_by1 and sep_end_by."},
 {"property": "C57", "status": "proved", "theorems": ["Verif.C57_deterministic", "Verif.C57_value", "Verif.C57_one", "Verif.C57_map", "Verif.C57_with", "Verif.C57_between", "Verif.C57_tuple", "Verif.C57_then", "Verif.C57_attempt", "Verif.C57_or", "Verif.C57_choice", "Verif.C57_optional", "Verif.C57_many", "Verif.C57_many1", "Verif.C57_sep_by1", "Verif.C57_sep_by", "Verif.C57_look_ahead", "Verif.C57_not_followed_by", "Verif.C57_eof", "Verif.C57_labels", "Verif.C57_recur", "Verif.C57_expression", "Verif.C57_nonterminal", "Verif.C57_terminates", "Verif.C57_exact", "Verif.C57_total", "Verif.C57_without_attempt", "Verif.C57_prefix_hides", "Verif.C57_take_until", "Verif.C57_repeat_until", "Verif.C57_count_min_max", "Verif.C57_sep_end_by1", "Verif.C57_sep_end_by", "Verif.C57_chainl1", "Verif.C57_chainr1"], "note": "C57_exact: the parser of a nonterminal succeeds, leaves and fails exactly as the parsing expression does; C57_terminates, C57_total, C57_deterministic; rules with values for each combinator. C57_without_attempt and C57_prefix_hides are the limits."},
 {"property": "C58", "status": "proved", "theorems": ["Verif.C58_weaken", "Verif.C58_same", "Verif.C58_value", "Verif.C58_labels", "Verif.C58_map", "Verif.C58_one", "Verif.C58_tuple", "Verif.C58_with", "Verif.C58_skip", "Verif.C58_between", "Verif.C58_choice", "Verif.C58_or", "Verif.C58_optional", "Verif.C58_many", "Verif.C58_skip_many", "Verif.C58_many1", "Verif.C58_sep_by1", "Verif.C58_sep_by", "Verif.C58_recur", "Verif.C58_side", "Verif.C58_nonterminal", "Verif.C58_unique", "Verif.C58_parse", "Verif.C58_parse_all", "Verif.C58_source", "Verif.C58_grammar", "Verif.C58_chainl1", "Verif.C58_count", "Verif.C58_count_min_max_fails", "Verif.C58_sep_end_by1", "Verif.C58_sep_end_by"], "note": "Rules for each combinator (with values and labels); C58_parse and C58_parse_all say where and what the error of a parse reports; C58_unique: a text goes wrong in one place only; C58_source and C58_grammar: easy errors with line and column. C58_chainl1, C58_count, C58_sep_end_by, C58_sep_end_by1: operator chains, at most n times, elements each followed by a separator; C58_count_min_max_fails: the exception in the statement."},
 {"property": "C59", "status": "partial", "theorems": ["Verif.C59_weaken", "Verif.C59_same", "Verif.C59_value", "Verif.C59_map", "Verif.C59_wrappers", "Verif.C59_expected", "Verif.C59_message", "Verif.C59_one", "Verif.C59_tuple", "Verif.C59_with", "Verif.C59_skip", "Verif.C59_between", "Verif.C59_choice", "Verif.C59_or", "Verif.C59_optional", "Verif.C59_many", "Verif.C59_skip_many", "Verif.C59_many1", "Verif.C59_sep_by1", "Verif.C59_sep_by", "Verif.C59_recur", "Verif.C59_parse_partial", "Verif.C59_parse_all_partial", "Verif.C59_source_partial", "Verif.Hint.C59_optional_pair", "Verif.Hint.C59_sep_by_last", "Verif.Hint.C59_nested_pairs", "Verif.Hint.C59_missing", "Verif.Hint.C59_many_pair", "Verif.Hint.C59_attempt", "Verif.C59_chainl1", "Verif.C59_count", "Verif.C59_count_zero", "Verif.C59_sep_end_by1", "Verif.C59_sep_end_by", "Verif.C59_silent", "Verif.C59_silent_pair"], "note": "Partial because the code violates it (witnesses C59_optional_pair, C59_many_pair, C59_nested_pairs, C59_sep_by_last, C59_attempt, C59_silent_pair; C59_missing shows that the lists are not complete either). Proved for all grammars and texts where members of sequences that can match nothing are not sequences themselves (Leads, Closes, Modest in Spec/Hints.lean); C59_source_partial is the statement on texts with line and column. C59_chainl1, C59_count: operator chains and at most n > 0 times (C59_count_zero: not for 0). C59_sep_end_by, C59_sep_end_by1: no exception for a separator that is never empty. C59_silent: silent around parsers whose soft failures do not reach over several members of a sequence."},
 {"property": "C60", "status": "proved", "theorems": ["Verif.C60_weaken", "Verif.C60_weaken_decline", "Verif.C60_value", "Verif.C60_one", "Verif.C60_one_declines", "Verif.C60_tokens", "Verif.C60_tokens_declines", "Verif.C60_map", "Verif.C60_map_declines", "Verif.C60_with", "Verif.C60_with_declines", "Verif.C60_skip", "Verif.C60_skip_declines", "Verif.C60_between", "Verif.C60_between_declines", "Verif.C60_tuple", "Verif.C60_tuple_declines", "Verif.C60_tuple_declines_next", "Verif.C60_then", "Verif.C60_or_left", "Verif.C60_or_right", "Verif.C60_or_declines", "Verif.C60_choice", "Verif.C60_choice_declines", "Verif.C60_optional_some", "Verif.C60_optional_none", "Verif.C60_attempt", "Verif.C60_attempt_declines", "Verif.C60_many", "Verif.C60_many_list", "Verif.C60_skip_many", "Verif.C60_many1", "Verif.C60_many1_declines", "Verif.C60_sep_by1", "Verif.C60_sep_by", "Verif.C60_sep_by_nil", "Verif.C60_chainl1", "Verif.C60_chainr1", "Verif.C60_count_min_max", "Verif.C60_eof", "Verif.C60_parse", "Verif.C60_whole", "Verif.C60_skip_tokens", "Verif.C60_many_tokens", "Verif.C60_many1_tokens", "Verif.C60_labels", "Verif.C60_labels_declines", "Verif.C60_take_while", "Verif.C60_take_while1", "Verif.C60_take_while1_declines", "Verif.C60_range", "Verif.C60_range_declines", "Verif.C60_take"], "note": "One rule per combinator, for all parsers, values and texts. Escaped, length_prefix and the range parsers have no rule; sep_end_by has none (C10 states what it does)."},
 {"property": "C61", "status": "proved", "theorems": ["Verif.C61_json", "Verif.C61_json_whole", "Verif.C61_number", "Verif.C61_string", "Verif.C61_json_str", "Verif.C61_unambiguous", "Verif.C61_negative_fraction_violated", "Verif.C61_rejects_violated", "Verif.C61_accepts_violated", "Verif.C61_only", "Verif.C61_only_str", "Verif.C61_loose", "Verif.C61_total"], "note": "The texts are those of RFC 8259 within the exclusions of the statement (Spec/Json.lean); what the parser does outside of them is shown by the three witnesses. f64 is modelled as Rat and i64 as Int. C61_only bounds what is accepted, by the relation Accepted of Spec/JsonLoose.lean."},
 {"property": "C62", "status": "proved", "theorems": ["Verif.C62_block", "Verif.C62_decode", "Verif.C62_tokio", "Verif.C62_codec", "Verif.C62_cut", "Verif.C62_cut_fails"], "note": "The parser of examples/async.rs in both directions; decode!, decode_tokio and the example's own codec over all reads; streams cut within a block. Not modelled: the conversion of the content to a String. Deviation with witness: cut right after a header."},
 {"property": "C63", "status": "proved", "theorems": ["Verif.C63_mono", "Verif.C63_mono_fails", "Verif.C63_value", "Verif.C63_one", "Verif.C63_one_fails", "Verif.C63_tokens", "Verif.C63_map", "Verif.C63_map_fails", "Verif.C63_with", "Verif.C63_skip", "Verif.C63_between", "Verif.C63_tuple", "Verif.C63_first_fails", "Verif.C63_then", "Verif.C63_or", "Verif.C63_or_fails", "Verif.C63_choice", "Verif.C63_optional", "Verif.C63_attempt", "Verif.C63_many", "Verif.C63_skip_many", "Verif.C63_many_fails", "Verif.C63_many1", "Verif.C63_many1_fails", "Verif.C63_sep_by1", "Verif.C63_sep_by1_fails", "Verif.C63_sep_by", "Verif.C63_chainl1", "Verif.C63_many_tokens", "Verif.C63_many1_tokens", "Verif.C63_skip_tokens", "Verif.C63_eof", "Verif.C63_take_while", "Verif.C63_take_while1", "Verif.C63_take_while1_fails", "Verif.C63_range", "Verif.C63_exactly", "Verif.C63_labels", "Verif.C63_describes", "Verif.C63_fails", "Verif.C63_is_iff", "Verif.C63_fails_iff", "Verif.C63_is_value", "Verif.C63_is_one", "Verif.C63_is_one_fails", "Verif.C63_is_tokens", "Verif.C63_is_map", "Verif.C63_is_map_fails", "Verif.C63_is_with", "Verif.C63_is_skip", "Verif.C63_is_between", "Verif.C63_is_tuple", "Verif.C63_is_first_fails", "Verif.C63_is_then", "Verif.C63_is_or", "Verif.C63_is_or_fails", "Verif.C63_is_choice", "Verif.C63_is_choice_fails", "Verif.C63_is_optional", "Verif.C63_is_optional_fails", "Verif.C63_is_attempt", "Verif.C63_is_many", "Verif.C63_is_many_fails", "Verif.C63_is_skip_many", "Verif.C63_is_skip_many_fails", "Verif.C63_is_many1", "Verif.C63_is_many1_fails", "Verif.C63_is_skip_many1", "Verif.C63_is_skip_many1_fails", "Verif.C63_is_sep_by1", "Verif.C63_is_sep_by", "Verif.C63_is_chainl1", "Verif.C63_is_eof", "Verif.C63_is_labels", "Verif.C63_is_many_tokens", "Verif.C63_is_many1_tokens", "Verif.C63_is_take_while", "Verif.C63_is_take_while1", "Verif.C63_is_take_while1_fails", "Verif.C63_is_range", "Verif.C63_is_and_then", "Verif.C63_is_and_then_fails", "Verif.C63_is_recognize", "Verif.C63_is_recognize_fails", "Verif.C63_is_recognize_range", "Verif.C63_is_recognize_range_fails", "Verif.C63_is_recognize_with_value", "Verif.C63_is_recognize_with_value_fails", "Verif.C63_is_count_min_max", "Verif.C63_is_count_min_max_fails", "Verif.C63_is_sep_end_by1", "Verif.C63_is_sep_end_by1_fails", "Verif.C63_is_sep_end_by", "Verif.C63_is_sep_end_by_fails", "Verif.C63_is_chainr1", "Verif.C63_is_chainr1_fails", "Verif.C63_chainr1_left_fails", "Verif.C63_is_escaped", "Verif.C63_is_escaped_fails", "Verif.C63_is_literal_text", "Verif.C63_is_literal", "Verif.C63_is_look_ahead", "Verif.C63_is_look_ahead_fails", "Verif.C63_is_not_followed_by", "Verif.C63_is_not_followed_by_fails", "Verif.C63_is_take", "Verif.C63_is_length_prefix", "Verif.C63_is_iterate", "Verif.C63_is_int", "Verif.C63_is_le_unsigned", "Verif.C63_is_be_unsigned", "Verif.C63_is_le_signed", "Verif.C63_is_be_signed", "Verif.C63_is_dispatch"], "note": "Rules for one-token parsers, tokens, map, with, skip, between, tuples, then, or, choice, optional, attempt, many, many1, skip_many, sep_by(1), chainl1, eof, take_while(1), range and labels; C63_exactly combines them with C60. Statements are about answers, i.e. without the content of errors. Props/Exact.lean has one rule per combinator for both directions at once. ExactChain: the exact grammar of chainr1, with operators that are dropped. ExactEscaped: escaped, and string literals built with it. ExactLook: look_ahead and not_followed_by of one token, take, length_prefix. Also iterate over any list of items, and the integer parsers: exactly the little/big endian (two's complement) encodings."},
 {"property": "C64", "status": "proved", "theorems": ["Verif.C64_request", "Verif.C64_requests", "Verif.C64_slice", "Verif.C64_tight_fails", "Verif.C64_empty_value_fails", "Verif.C64_uri_fails", "Verif.C64_total", "Verif.C64_token", "Verif.C64_del_fails", "Verif.C64_classes", "Verif.C64_label"], "note": "The program is modelled whole, with the loop of the benchmark; errors are not described. Witnesses show where it deviates from RFC 7230. The classes of bytes are compared with those of RFC 2616 (C64_token, C64_classes); DEL is accepted in names (C64_del_fails)."},
 {"property": "C65", "status": "proved", "theorems": ["Verif.C65_date_time", "Verif.C65_panics", "Verif.C65_str", "Verif.C65_str_panics", "Verif.C65_unwrap_fails", "Verif.C65_range_fails"], "note": "Exact language and exact set of panics of examples/date.rs; the two witnesses show what the example gets wrong."},
 {"property": "C66", "status": "proved", "theorems": ["Verif.C66_ini", "Verif.C66_total", "Verif.C66_str", "Verif.C66_round_trip", "Verif.C66_name_fails", "Verif.C66_end_fails"], "note": "Exact language, totality and round trip of examples/ini.rs; the witnesses show what the grammar lets through."},
 {"property": "C67", "status": "proved", "theorems": ["Verif.C67_parse", "Verif.C67_sequence", "Verif.C67_sequence_first", "Verif.C67_one", "Verif.C67_tokens_first", "Verif.C67_tokens", "Verif.C67_eof", "Verif.C67_wrappers", "Verif.C67_message", "Verif.C67_expected", "Verif.C67_choice", "Verif.C67_or", "Verif.C67_optional", "Verif.C67_many", "Verif.C67_adds", "Verif.C67_attempt", "Verif.C67_member", "Verif.C67_choice_fails", "Verif.C67_nested_fails", "Verif.C67_attempt_fails", "Verif.C67_attempt_choice_fails", "Verif.C67_nested_first_fails"], "note": "Sequences of any length whose members' offset counts add up to at most 254 (the counter saturates at 255); members that consume nothing must add their items without changing the offset (S.Adds), which holds for the one-token parsers, optional and many of them. A choice inside optional does not: C67_choice_fails shows a required token left out of the report. An `attempt` of a sequence or choice hides the labels of the other alternatives of a choice: witnesses C67_attempt_fails, C67_attempt_choice_fails."},
 {"property": "C68", "status": "proved", "theorems": ["Verif.C68_room", "Verif.C68_any", "Verif.C68_sound", "Verif.C68_source", "Verif.C68_program", "Verif.C68_peg", "Verif.C68_rewinds", "Verif.C68_at_most", "Verif.C68_peg_iter", "Verif.C68_escaped_fails", "Verif.C68_io_error_fails"], "note": "Programs are families of parsers that do the same on any two streams that do the same (`Program`); the rules for all combinators are in Proof/Lockstep. `escaped` is covered only for buffers with enough room; witnesses show that it, and repetition over I/O errors, violate the naive claim."},
 {"property": "C69", "status": "proved", "theorems": ["Verif.C69_buffer", "Verif.C69_capacity", "Verif.C69_source", "Verif.C69_one_after_the_other", "Verif.C69_recur", "Verif.C69_grammar", "Verif.C69_language", "Verif.C69_attempt_needs_more", "Verif.C69_json", "Verif.C69_json_written"], "note": "For every parser without attempt, look_ahead and not_followed_by, every source and every capacity the buffered parse ends as the parse of an unlimited recording; corollaries for sequences of parses, recursive parsers and LL(1) grammars. C69_attempt_needs_more shows that the restriction is needed. C69_json: the JSON parser of C61, though partly written by hand, needs one character only."},
 {"property": "C70", "status": "proved", "theorems": ["Verif.C70_run", "Verif.C70_panics", "Verif.C70_parse", "Verif.C70_feed", "Verif.C70_many", "Verif.C70_many_then", "Verif.C70_many_many1", "Verif.C70_then_fails", "Verif.C70_many1_fails", "Verif.C70_report"], "note": "Both builds agree on parses, on fed input and on repetitions of reusable parsers. The claim is false for attempt inside a repetition: C70_then_fails, C70_many1_fails."},
 {"property": "C71", "status": "proved", "theorems": ["Verif.C71_run", "Verif.C71_init", "Verif.C71_parse", "Verif.C71_accepts", "Verif.C71_easy_parse", "Verif.C71_conversions", "Verif.C71_json_same", "Verif.C71_json", "Verif.C71_partial_fails", "Verif.C71_ini_same", "Verif.C71_ini", "Verif.C71_ini_round_trip", "Verif.C71_date", "Verif.C71_date_time", "Verif.C71_date_panics"], "note": "Every combinator of the model except `spanned`; the whole JSON parser as an instance. The restriction to non-partial streams is necessary (C71_partial_fails)."},
 {"property": "C72", "status": "proved", "theorems": ["Verif.C72_mp4", "Verif.C72_panics", "Verif.C72_error", "Verif.C72_written", "Verif.C72_panics_fails", "Verif.C72_names"], "note": "benches/mp4.rs; from_utf8 is a parameter. The positions inside errors of the inner parser are relative to the box (its address is not modelled)."},
 {"property": "C73", "status": "proved", "theorems": ["Verif.C73_number", "Verif.C73_number_total", "Verif.C73_ascii", "Verif.C73_last_word", "Verif.C73_last_word_total", "Verif.C73_trailing_fails"], "note": "Exact languages, totality and the soundness of from_utf8_unchecked for all inputs; a trailing separator is an error (witness C73_trailing_fails)."},
 {"property": "C74", "status": "partial", "theorems": ["Verif.C74_count_checked", "Verif.C74_count_wrapping", "Verif.C74_checked_partial", "Verif.C74_release", "Verif.C74_checked_panics", "Verif.C74_checked_fails"], "note": "Release builds: every size (C74_release). Builds with overflow checks: members of at most 255 parsers (C74_checked_partial); larger ones panic in the code as it is, witness C74_checked_fails (261 parsers), so the full statement is false. The effect of wrapped counts on error reports is not followed."},
 {"property": "C75", "status": "partial", "theorems": ["Verif.C75_fits_partial", "Verif.C75_long_fails"], "note": "Texts of fewer than 2^31 - 1 characters, both kinds of build (with C20, which is about unbounded lines and columns, for what the position means). In the code as it is the full statement is false: witness C75_long_fails."},
 {"property": "C76", "status": "proved", "theorems": ["Verif.C76_parser", "Verif.C76_decode", "Verif.C76_rounds", "Verif.C76_empty", "Verif.C76_second_round_fails"], "note": "benches/buffers.rs: parser, decoder, repeated use; the witness shows that the benchmark's later rounds read nothing."},
 {"property": "C77", "status": "proved", "theorems": ["Verif.C77_keep", "Verif.C77_skip", "Verif.C77_tuple", "Verif.C77_is_keep", "Verif.C77_is_skip", "Verif.C77_keep_chunks", "Verif.C77_skip_chunks"], "note": "All lists of fields; fields are bound by place rather than by name (two fields of one name do not compile). That a struct of more fields than the macro's tuple patterns admit does not compile is not modelled. C77_*_chunks: a struct that arrives in pieces."}
]}
