{"id": "C01", "title": "Parsing only ever removes a prefix of the input", "statement": "Whatever parser built from the library's combinators is run, and whatever it answers, the stream it leaves behind is reachable from the stream it was given by reading zero or more tokens: no parser re-orders, duplicates, invents or rewinds past the start of the input.", "quantifier": "all inputs, all parsers composed from the modelled combinators (each combinator: all sub-parsers that have the property), first and resumed calls", "why_tests_cant": "There are infinitely many compositions and inputs; a test fixes one parser and one input.", "anchors": [{"file": "src/parser/mod.rs", "symbols": ["Parser::parse_mode"]}, {"file": "src/parser/repeat.rs", "symbols": ["Iter::next", "Chainl1", "Chainr1", "TakeUntil"]}, {"file": "src/parser/sequence.rs", "symbols": ["tuple_parser!"]}, {"file": "src/parser/choice.rs", "symbols": ["do_choice!", "slice_parse_mode"]}, {"file": "src/parser/combinator.rs", "symbols": ["NotFollowedBy", "LookAhead", "Try"]}]}
{"id": "C02", "title": "Commit status tells the truth about consumption", "statement": "If a parser answers PeekOk then it consumed nothing (the stream is exactly where it was); if it answers CommitOk then it consumed at least one token. Callers (choice, optional, many, sequences) use this to decide whether to backtrack.", "quantifier": "all inputs and all parsers composed from the modelled combinators", "why_tests_cant": "The contract is an invariant over all compositions of combinators; a unit test observes the flag of one composition.", "anchors": [{"file": "src/error.rs", "symbols": ["ParseResult", "Commit::merge"]}, {"file": "src/parser/repeat.rs", "symbols": ["Iter::into_result_fast", "Many1"]}, {"file": "src/parser/sequence.rs", "symbols": ["tuple_parser!"]}, {"file": "src/parser/token.rs", "symbols": ["satisfy", "tokens"]}]}
{"id": "C03", "title": "Ordered choice", "statement": "choice / or runs its alternatives in order, each on the original input, and returns the answer of the first alternative that does not fail without committing. A committed failure ends the choice with that error; if every alternative fails without committing the choice fails without committing and a caller that resets sees the original input.", "quantifier": "all lists of alternatives of any length, all inputs", "why_tests_cant": "Number of alternatives and interleavings of outcomes is unbounded.", "anchors": [{"file": "src/parser/choice.rs", "symbols": ["choice!", "do_choice!", "Choice", "Or", "slice_parse_mode"]}]}
{"id": "C04", "title": "attempt turns every failure into a non-committing one", "statement": "On complete input attempt(p) succeeds exactly when p does, with the same value and remaining input, and never fails with a committed error; hence attempt(p).or(q) runs q on the original input whenever p fails, however far p got.", "quantifier": "all parsers p, q and all complete inputs", "why_tests_cant": "Quantifies over every parser and how far it got before failing.", "anchors": [{"file": "src/parser/combinator.rs", "symbols": ["Try", "attempt"]}, {"file": "src/parser/choice.rs", "symbols": ["or"]}]}
{"id": "C05", "title": "look_ahead and not_followed_by never consume", "statement": "look_ahead(p) succeeds exactly when p succeeds, with p's value, leaving the input untouched. not_followed_by(p) succeeds exactly when p fails and in both cases leaves the input untouched.", "quantifier": "all parsers p and inputs", "why_tests_cant": "Needs to hold whatever p consumed before answering.", "anchors": [{"file": "src/parser/combinator.rs", "symbols": ["LookAhead", "NotFollowedBy"]}]}
{"id": "C06", "title": "optional", "statement": "optional(p) gives Some(v) where p gives v, gives None and consumes nothing where p fails without committing, and fails only where p fails committed.", "quantifier": "all parsers p and inputs", "why_tests_cant": "Quantifies over all parsers and inputs.", "anchors": [{"file": "src/parser/choice.rs", "symbols": ["Optional", "optional"]}]}
{"id": "C07", "title": "many is greedy maximal repetition", "statement": "many(p) returns exactly the values of the longest run of consecutive successes of p, leaves the input where the run ended, and fails exactly when p's next answer after the run is a committed failure, with that failure's error.", "quantifier": "all parsers p, all inputs, runs of any length", "why_tests_cant": "Run length is unbounded; a test has one length.", "anchors": [{"file": "src/parser/repeat.rs", "symbols": ["Many", "many", "Iter", "skip_many"]}]}
{"id": "C08", "title": "many1 needs one element", "statement": "many1(p) fails where p's first answer is a failure (with the same commitment) and otherwise equals many(p) with at least one element; it is committed when any element was.", "quantifier": "all parsers p and inputs", "why_tests_cant": "Unbounded repetitions.", "anchors": [{"file": "src/parser/repeat.rs", "symbols": ["Many1", "many1", "skip_many1"]}]}
{"id": "C09", "title": "count and count_min_max respect their bounds", "statement": "count(n,p) / count_min_max(min,max,p) run p greedily at most max times. A success has between min and max elements, and stops short of max only because p failed without committing; fewer than min elements is a failure.", "quantifier": "all min <= max, parsers p and inputs", "why_tests_cant": "All bounds and all run lengths.", "anchors": [{"file": "src/parser/repeat.rs", "symbols": ["CountMinMax", "count", "count_min_max", "skip_count"]}]}
{"id": "C10", "title": "Separated lists", "statement": "sep_by1(p,s) returns exactly the elements of the longest sequence p (s p)*; sep_by also accepts the empty list; sep_end_by(1) additionally accepts one trailing separator. A separator that is not followed by an element is an error for sep_by1 when the separator committed.", "quantifier": "all parsers p and s, all inputs, lists of any length", "why_tests_cant": "Unbounded list length.", "anchors": [{"file": "src/parser/repeat.rs", "symbols": ["SepBy", "SepBy1", "SepEndBy", "SepEndBy1"]}]}
{"id": "C11", "title": "chainl1 / chainr1 associate as documented", "statement": "chainl1(p,op) on p0 op1 p1 ... opn pn yields the left fold, chainr1(p,op) the right fold of the operators over the operands, consuming all of it, for any number of operators.", "quantifier": "all parsers p, op, chains of any length", "why_tests_cant": "Unbounded chain length.", "anchors": [{"file": "src/parser/repeat.rs", "symbols": ["Chainl1", "chainl1", "Chainr1", "chainr1"]}]}
{"id": "C12", "title": "Sequences run in order and never read a missing value", "statement": "A tuple of parsers runs its members left to right, each on what the previous left, and yields all their values in order. Under every history of interrupted and resumed calls, when the tuple assembles its result every component value is present (the code takes it with unreachable_unchecked, so absence would be undefined behaviour).", "quantifier": "all tuples of any arity, all inputs, all histories of resumed calls including arbitrary interleaving of first and resumed mode", "why_tests_cant": "Memory safety must hold for every resumption history, of which there are infinitely many.", "anchors": [{"file": "src/parser/sequence.rs", "symbols": ["SequenceState::unwrap_value", "tuple_parser!", "With", "Skip", "between"]}]}
{"id": "C13", "title": "map / flat_map / and_then / then laws", "statement": "map only changes the value; then(f) runs f(v) on the input left by p and is committed if either part was; value is a left and right unit for then; then is associative.", "quantifier": "all parsers, functions and inputs", "why_tests_cant": "Equational laws over all parsers.", "anchors": [{"file": "src/parser/combinator.rs", "symbols": ["Map", "FlatMap", "AndThen"]}, {"file": "src/parser/sequence.rs", "symbols": ["Then", "ThenPartial"]}, {"file": "src/parser/token.rs", "symbols": ["value"]}]}
{"id": "C14", "title": "Chunk independence of resumable parsers", "statement": "For parsers built from the resumable fragment (token parsers, sequences, then, map, many, many1, count_min_max, skip_*, optional, choice and or without attempt, dispatch!, look_ahead, no_partial, crlf, take_while(1), range, take, integer parsers, take_until_byte(s), take_until_range, recognize), if parsing the whole input at once succeeds with v then feeding the same input split into any chunks, resuming with the kept state and unconsumed tokens each time more input is asked for, succeeds with the same v and the same unread remainder. (count, tokens/string, length_prefix, sep_by1, attempt and array choices are not in the fragment: each breaks the claim, see the deviations.)", "quantifier": "all parsers of the fragment, all inputs, all ways of cutting the input into chunks (any number, any sizes, empty chunks included)", "why_tests_cant": "Number of chunkings is exponential in input length and parsers are unbounded; the repo's tests sample them with quickcheck.", "anchors": [{"file": "src/parser/mod.rs", "symbols": ["parse_partial", "parse_with_state"]}, {"file": "src/stream/mod.rs", "symbols": ["decode", "PartialStream", "MaybePartialStream"]}, {"file": "src/parser/sequence.rs", "symbols": ["tuple_parser!"]}, {"file": "src/parser/repeat.rs", "symbols": ["Iter", "Many", "Many1"]}, {"file": "src/parser/choice.rs", "symbols": ["do_choice!"]}, {"file": "src/parser/range.rs", "symbols": ["parse_partial_range", "take_fn", "RecognizeWithValue"]}]}
{"id": "C15", "title": "A partial stream never turns missing data into a definite answer", "statement": "On a stream flagged partial, a primitive parser that runs out of input answers a committed end-of-input error (asking for more) and not a non-committing failure or a success that more input could change: an answer other than that committed end-of-input error is unchanged when more tokens are appended.", "quantifier": "all parsers of the resumable fragment, all inputs, all continuations of the input", "why_tests_cant": "Quantifies over every continuation of the input.", "anchors": [{"file": "src/stream/mod.rs", "symbols": ["wrap_stream_error", "uncons_while", "uncons_while1", "uncons_range"]}, {"file": "src/parser/token.rs", "symbols": ["satisfy_impl"]}, {"file": "src/parser/combinator.rs", "symbols": ["Try"]}]}
{"id": "C16", "title": "take_while / take_while1 return the longest prefix and stay in bounds", "statement": "take_while(f) returns exactly the longest prefix of tokens satisfying f and leaves the rest; take_while1 additionally fails without committing on an empty prefix. The 8-way unrolled scan never indexes outside the slice and calls the predicate on exactly the tokens of the prefix and the first rejected one.", "quantifier": "all slices of any length, all predicates", "why_tests_cant": "Unrolled loop correctness and unchecked indexing must hold for every length modulo 8 and every stop position.", "anchors": [{"file": "src/stream/mod.rs", "symbols": ["slice_uncons_while", "str_uncons_while", "uncons_while", "uncons_while1"]}, {"file": "src/parser/range.rs", "symbols": ["take_while", "take_while1"]}]}
{"id": "C17", "title": "take_until_range / take_until_bytes / take_until_byte find the first occurrence", "statement": "They return the shortest prefix of the input that is immediately followed by the needle, leave the needle unread, and fail exactly when the needle does not occur.", "quantifier": "all needles and inputs", "why_tests_cant": "All needles and haystacks, overlapping candidates included.", "anchors": [{"file": "src/parser/range.rs", "symbols": ["TakeUntilRange", "TakeFn"]}, {"file": "src/parser/byte.rs", "symbols": ["memslice", "take_until_bytes", "take_until_byte"]}]}
{"id": "C18", "title": "recognize returns exactly the consumed slice", "statement": "recognize(p) succeeds exactly where p does; its result is the slice of the input p consumed, so result ++ remaining input = original input, and recognize_with_value also gives p's value.", "quantifier": "all parsers p and inputs, also across resumed calls", "why_tests_cant": "Quantifies over all parsers.", "anchors": [{"file": "src/parser/range.rs", "symbols": ["RecognizeWithValue", "recognize", "parse_partial_range"]}, {"file": "src/parser/combinator.rs", "symbols": ["Recognize"]}]}
{"id": "C19", "title": "Integer parsers decode and are atomic", "statement": "be_uN/le_uN/be_iN/le_iN on the N/8 bytes of an integer's big/little endian encoding return that integer and leave the rest; with fewer bytes they fail and leave the stream unmoved.", "quantifier": "all integers of each width, all following bytes, all shorter inputs, complete and partial streams", "why_tests_cant": "2^64 values times all continuations.", "anchors": [{"file": "src/parser/byte.rs", "symbols": ["num::be_u16", "num::le_u16", "num::be_u32", "num::be_u64", "num::be_i16", "integer_parser!"]}]}
{"id": "C20", "title": "Source positions count lines and columns of what was consumed", "statement": "After any history of reading tokens, ranges, take-while scans and backtracking, the reported SourcePosition has line = 1 + number of newlines consumed and column = 1 + number of characters consumed since the last newline. Positions compare as the places do: further on in the text is larger, so that merging errors by position keeps the furthest.", "quantifier": "all texts, all histories of stream operations", "why_tests_cant": "All interleavings of reads and resets.", "anchors": [{"file": "src/stream/position.rs", "symbols": ["SourcePosition", "Stream", "Positioner::update", "RangePositioner::update_range"]}]}
{"id": "C21", "title": "Index positions count consumed items", "statement": "With IndexPositioner over a slice the position equals the number of items consumed, whichever mix of single reads, range reads, take-while scans and resets was used.", "quantifier": "all slices and histories of stream operations", "why_tests_cant": "All interleavings.", "anchors": [{"file": "src/stream/position.rs", "symbols": ["IndexPositioner", "Stream"]}]}
{"id": "C22", "title": "Error merging keeps the furthest errors and is associative", "statement": "Merging two error sets keeps the one with the larger position; at equal positions it keeps every distinct message of both, in order, without duplicates. Merging is associative, and idempotent on sets without duplicates.", "quantifier": "all error sets and positions", "why_tests_cant": "Algebraic law over all error lists.", "anchors": [{"file": "src/stream/easy.rs", "symbols": ["Errors::merge", "Errors::add_error"]}]}
{"id": "C23", "title": "Failing choice reports every alternative", "statement": "When a choice of tokens fails at its first token, the error of easy_parse sits at the position of the offending token, reports that token (or end of input) as unexpected, and lists exactly the alternatives' tokens as expected, in order and without duplicates.", "quantifier": "all token lists and inputs", "why_tests_cant": "All numbers of alternatives and inputs.", "anchors": [{"file": "src/parser/choice.rs", "symbols": ["add_error_choice", "do_choice!"]}, {"file": "src/parser/token.rs", "symbols": ["Token"]}, {"file": "src/stream/easy.rs", "symbols": ["Errors"]}, {"file": "src/parser/mod.rs", "symbols": ["parse_stream", "easy_parse"]}]}
{"id": "C24", "title": "Buffered stream equals the unbuffered one within its window", "statement": "A buffered stream over any one-pass source returns the same tokens as the source for every history of reads and resets; a reset to a checkpoint at most `lookahead` tokens back always succeeds; a reset further than the retained window reports an error instead of returning wrong tokens, and no read ever panics.", "quantifier": "all sources, all lookahead sizes, all histories of reads, checkpoints and resets", "why_tests_cant": "Histories are unbounded.", "anchors": [{"file": "src/stream/buffered.rs", "symbols": ["Stream", "reset", "uncons", "position"]}]}
{"id": "C25", "title": "Decoder neither loses nor duplicates bytes", "statement": "Across any sequence of reads of any sizes, including reads that fail with an IO error and decoding being retried afterwards, the bytes consumed by parsers, plus the bytes buffered, plus the bytes not yet read, are exactly the source bytes in order.", "quantifier": "all sources, all read sizes, all points at which reads fail, any number of decoded messages", "why_tests_cant": "All schedules of short reads and failures.", "anchors": [{"file": "src/stream/decoder.rs", "symbols": ["Decoder", "__before_parse", "advance"]}, {"file": "src/stream/mod.rs", "symbols": ["decode!", "decode"]}, {"file": "src/stream/buf_reader.rs", "symbols": ["Buffer", "Bufferless", "extend_buf_sync"]}]}
{"id": "C26", "title": "BufReader conserves the byte stream", "statement": "Reading through BufReader (read, fill_buf/consume, buffer extension, and their asynchronous poll_* forms) delivers the bytes of the inner reader in order, each exactly once, for every pattern of inner read sizes, failed reads and polls that are not ready.", "quantifier": "all inner readers and all sequences of read/fill_buf/consume calls", "why_tests_cant": "All interleavings.", "anchors": [{"file": "src/stream/buf_reader.rs", "symbols": ["BufReader", "Read::read", "BufRead::fill_buf", "BufRead::consume", "extend_buf_sync", "poll_read", "poll_fill_buf", "poll_extend_buf"]}]}
{"id": "C27", "title": "String ranges never split a character", "statement": "On a &str stream, taking any number of bytes either succeeds at a character boundary or reports a character-boundary / end-of-input error; it never panics, and result plus remainder are the original text, both valid.", "quantifier": "all valid UTF-8 texts and all sizes", "why_tests_cant": "All Unicode texts and all byte offsets.", "anchors": [{"file": "src/stream/mod.rs", "symbols": ["<&str as RangeStreamOnce>::uncons_range", "is_char_boundary", "str_uncons_while"]}]}
{"id": "C28", "title": "Stream wrappers are transparent", "statement": "Wrapping a stream in easy::Stream, position::Stream, state::Stream, PartialStream or CompleteStream does not change which tokens are read nor what reset restores; state::Stream's user state survives resets.", "quantifier": "all inner streams and histories of operations", "why_tests_cant": "All streams and histories.", "anchors": [{"file": "src/stream/easy.rs", "symbols": ["Stream"]}, {"file": "src/stream/position.rs", "symbols": ["Stream"]}, {"file": "src/stream/state.rs", "symbols": ["Stream"]}, {"file": "src/stream/mod.rs", "symbols": ["PartialStream", "CompleteStream", "MaybePartialStream"]}]}
{"id": "C29", "title": "Error decorators do not change what is parsed", "statement": "message, expected and silent leave success, value, consumption and commitment of the parser untouched; they only change the error's content.", "quantifier": "all parsers and inputs", "why_tests_cant": "All parsers.", "anchors": [{"file": "src/parser/error.rs", "symbols": ["Message", "Expected", "Silent"]}]}
{"id": "C30", "title": "expected replaces exactly the parser's own expectations", "statement": "When p.expected(x) contributes to an easy error, errors already present stay, of the errors p adds the non-expected ones stay, p's expectations are dropped, and x is listed (once).", "quantifier": "all parsers and prior errors", "why_tests_cant": "All error lists.", "anchors": [{"file": "src/parser/error.rs", "symbols": ["Expected"]}, {"file": "src/stream/easy.rs", "symbols": ["Errors::set_expected"]}]}
{"id": "C31", "title": "End-of-input status survives error handling", "statement": "Once an error of a slice/str stream says end-of-input, adding further information never makes it forget that, and converting errors between the library's error types preserves whether they mean end-of-input.", "quantifier": "all errors and sequences of added infos", "why_tests_cant": "All sequences of additions/conversions.", "anchors": [{"file": "src/error.rs", "symbols": ["UnexpectedParse", "StringStreamError", "ParseError::add", "into_other"]}, {"file": "src/stream/easy.rs", "symbols": ["Error::into_other"]}]}
{"id": "C32", "title": "and_then failures are reported at the start and cannot be un-committed", "statement": "If p succeeds and the conversion fails, and_then fails with the conversion's error at the position where p started, committed exactly when p was; if it succeeds the parser is p.map.", "quantifier": "all parsers, conversions and inputs", "why_tests_cant": "All parsers and inputs.", "anchors": [{"file": "src/parser/combinator.rs", "symbols": ["AndThen", "FlatMap", "from_str"]}]}
{"id": "C33", "title": "take_until / repeat_until / skip_until stop at the first place the end parser succeeds", "statement": "take_until(end) returns exactly the tokens before the first position where end succeeds, leaving the input at that position; it fails if the input ends first.", "quantifier": "all end parsers and inputs", "why_tests_cant": "Unbounded scans.", "anchors": [{"file": "src/parser/repeat.rs", "symbols": ["TakeUntil", "SkipUntil", "RepeatUntil"]}]}
{"id": "C34", "title": "dispatch! equals the selected arm", "statement": "dispatch!(v; pat => p, ...) behaves as exactly the parser of the first matching arm in value, consumption, commitment and errors.", "quantifier": "all scrutinees and inputs", "why_tests_cant": "All arms/inputs.", "anchors": [{"file": "src/parser/choice.rs", "symbols": ["dispatch!", "dispatch_inner!"]}]}
{"id": "C35", "title": "Commitment algebra", "statement": "ParseResult::and_then is associative with PeekOk as unit; converting a ParseResult to Result and back is the identity (up to the dropped error offset of committed errors); Commit::merge is associative with Peek as unit.", "quantifier": "all results and continuations", "why_tests_cant": "Equational laws.", "anchors": [{"file": "src/error.rs", "symbols": ["ParseResult::and_then", "ParseResult::map", "Commit::merge", "Commit::combine", "From<StdParseResult2>"]}]}
{"id": "C36", "title": "Repetition over consuming parsers terminates", "statement": "If p consumes at least one token whenever it succeeds, then many, many1, sep_by, chainl1, take_until and skip_until terminate on every finite input, with at most one iteration per token plus one.", "quantifier": "all consuming parsers and all finite inputs", "why_tests_cant": "Termination for all inputs.", "anchors": [{"file": "src/parser/repeat.rs", "symbols": ["Iter::next", "Chainl1", "TakeUntil"]}]}
{"id": "C37", "title": "Boxed and type-erased partial state behaves like the original", "statement": "any_partial_state, any_send_partial_state, any_send_sync_partial_state, no_partial, opaque, factory, lazy, left/right and Box/&mut forwarding give the same answers as the wrapped parser for every resumption history.", "quantifier": "all parsers, inputs, histories of resumed calls", "why_tests_cant": "All histories.", "anchors": [{"file": "src/parser/combinator.rs", "symbols": ["AnyPartialStateParser", "NoPartial", "Opaque", "Lazy", "Factory", "Either"]}, {"file": "src/parser/mod.rs", "symbols": ["forward_deref!"]}]}
{"id": "C38", "title": "length_prefix round trip", "statement": "Parsing an encoded length n followed by n bytes with length_prefix returns exactly those n bytes and leaves the rest; with fewer than n bytes it fails.", "quantifier": "all lengths and payloads", "why_tests_cant": "All sizes.", "anchors": [{"file": "src/parser/range.rs", "symbols": ["length_prefix"]}, {"file": "src/parser/sequence.rs", "symbols": ["ThenPartial"]}]}
{"id": "C39", "title": "Regex parsers consume up to the end of the match", "statement": "For any regex engine, find consumes exactly the prefix of the input up to the end of the first match and returns that match; find_many up to the end of the last; match_ consumes nothing.", "quantifier": "all engines (as a parameter), inputs", "why_tests_cant": "Over all engines.", "anchors": [{"file": "src/parser/regex.rs", "symbols": ["Find", "FindMany", "Match", "find_iter", "Captures"]}]}
{"id": "C40", "title": "tokens / string match exactly the given sequence", "statement": "tokens, tokens_cmp, string, bytes succeed exactly when the input starts with a sequence equal (under cmp) to the given one, consuming exactly it; they fail without committing if the first token already differs and committed otherwise.", "quantifier": "all token sequences, comparison functions and complete inputs", "why_tests_cant": "Unbounded sequences.", "anchors": [{"file": "src/parser/token.rs", "symbols": ["Tokens", "TokensCmp"]}, {"file": "src/parser/char.rs", "symbols": ["string", "string_cmp"]}, {"file": "src/parser/byte.rs", "symbols": ["bytes", "bytes_cmp"]}]}
{"id": "C41", "title": "Top-level parse reports failure at the start for uncommitted errors and returns the unread input on success", "statement": "parse returns Ok((v, rest)) exactly when the parser succeeds with v leaving rest. When the parser fails without committing, parse resets the stream before describing the error, so the reported unexpected item is the first item of the input (or end of input).", "quantifier": "all parsers and inputs", "why_tests_cant": "All parsers.", "anchors": [{"file": "src/parser/mod.rs", "symbols": ["Parser::parse", "parse_stream", "parse_stream_partial", "parse_committed"]}]}
{"id": "C42", "title": "escaped scans to the first unescaped stop", "statement": "escaped(p, esc, e) consumes alternating runs accepted by p and escape sequences, stopping at the first place where neither p nor the escape token matches.", "quantifier": "all p, e and inputs", "why_tests_cant": "Unbounded.", "anchors": [{"file": "src/parser/repeat.rs", "symbols": ["Escaped"]}]}
{"id": "C43", "title": "Decoded messages do not depend on how the reader delivers bytes", "statement": "If the parser (of the fragment that can be fed in pieces, see C14) accepts the bytes still to come as one complete input, then decode!, retried after failed reads, gives the same message, has the same bytes left and is at the same position, for every pattern of read sizes and of failed reads; if it rejects them without committing, decode! gives no message.", "quantifier": "all readers delivering the same bytes, all read sizes, all patterns of failed reads, all contents of the decoder's buffer, all parsers of the fragment", "why_tests_cant": "The number of ways to cut a stream into reads is exponential, and read sizes depend on the operating system.", "anchors": [{"file": "src/stream/mod.rs", "symbols": ["decode!", "decode"]}, {"file": "src/stream/decoder.rs", "symbols": ["Decoder"]}]}
{"id": "C44", "title": "spanned / position report the true extent", "statement": "position() returns the current stream position and consumes nothing; eof succeeds exactly at the end of input and never consumes.", "quantifier": "all streams and inputs", "why_tests_cant": "All.", "anchors": [{"file": "src/parser/token.rs", "symbols": ["Position", "Eof"]}, {"file": "src/parser/combinator.rs", "symbols": ["Spanned"]}]}
{"id": "C45", "title": "iterate / Iterator adaptor yields exactly the elements many would collect", "statement": "parser.iter(input) yields the successive values of the parser and into_result reports the same commitment and error as many. Over an input that arrives in pieces, partial_iter with the state kept between the pieces yields the same values in the same order, whatever the pieces are, and iterate builds the same collection.", "quantifier": "all parsers and inputs; all ways of cutting the input into pieces", "why_tests_cant": "Unbounded.", "anchors": [{"file": "src/parser/repeat.rs", "symbols": ["Iter", "Iterate"]}]}
{"id": "C46", "title": "A decoder can be used for one message after the other", "statement": "Decoding messages one after the other with the same Decoder gives the messages that separate parses, each from a fresh state, of the successive bytes would give: no partial-parse state leaks from one message into the next.", "quantifier": "all parsers of the fed fragment that can be started anew after a success, all sequences of messages, all readers", "why_tests_cant": "The state kept between messages depends on where each message was cut by the reads and on its content; unit tests decode a few fixed messages.", "anchors": [{"file": "src/stream/mod.rs", "symbols": ["decode!", "decode"]}, {"file": "src/stream/decoder.rs", "symbols": ["Decoder", "__inner"]}]}
{"id": "C47", "title": "Errors are reported at places of the input", "statement": "The position of an error returned by parse, easy_parse or parse_with_state is the position of some place of the input at or after where parsing started, reached by reading tokens; in particular the line and column are those of a prefix of the text and an index is at most the length. PointerOffset::translate_position on the position of an easy_parse error never overflows: on &str it gives the byte offset of a character boundary of the text, on byte slices an index into the slice. The only other positions are those that the user's own functions put into the errors they return.", "quantifier": "all parsers composed from the library's combinators, all inputs, all partial states", "why_tests_cant": "Errors are merged, re-positioned and carried through rewinds by every combinator; tests check the position of a handful of failures.", "anchors": [{"file": "src/stream/easy.rs", "symbols": ["Errors::merge", "Errors::position"]}, {"file": "src/parser/sequence.rs", "symbols": ["add_errors"]}, {"file": "src/parser/choice.rs", "symbols": ["do_choice"]}, {"file": "src/parser/token.rs", "symbols": ["Tokens", "TokensCmp"]}, {"file": "src/stream/mod.rs", "symbols": ["PointerOffset::translate_position"]}]}
{"id": "C48", "title": "Choice over an array or slice, fed in pieces or used for one input after the other", "statement": "choice over an array or slice of parsers does what the first alternative that does not fail without commitment does; this is also so when its input arrives in pieces, and when it is called for one input after the other with its partial state kept.", "quantifier": "all arrays of parsers of the fed fragment that can share their state, all inputs, all ways of cutting them, all sequences of inputs", "why_tests_cant": "The alternatives share one partial state and an index that survive between calls; whether they are stale depends on where the input was cut and on the history of calls.", "anchors": [{"file": "src/parser/choice.rs", "symbols": ["slice_parse_mode", "ChoiceParser for [P]", "array_choice_parser"]}]}
{"id": "C49", "title": "Asynchronous decoding gives the same messages, whenever the reader is ready and wherever a future is dropped", "statement": "decode_tokio!, decode_tokio_02!, decode_tokio_03! and decode_futures_03! give the message that decode! gives for the same bytes: a poll that is not ready changes nothing, and a future may be dropped while it is pending (select!, timeout) and the macro called again on the same Decoder; no byte is lost or duplicated by that.", "quantifier": "all asynchronous readers (all patterns of pending polls, read sizes and failed reads), all points at which futures are dropped, all sequences of messages; the accounting of bytes and the irrelevance of pending polls for all parsers, the equality of messages for the parsers of the fed fragment (C14)", "why_tests_cant": "The points at which a task is suspended or cancelled are chosen by the scheduler and the network; their combinations with message contents are unbounded.", "anchors": [{"file": "src/stream/mod.rs", "symbols": ["decode_tokio!", "decode_tokio_02!", "decode_tokio_03!", "decode_futures_03!"]}, {"file": "src/stream/decoder.rs", "symbols": ["__before_parse_tokio", "__before_parse_tokio_02", "__before_parse_tokio_03", "__before_parse_async"]}, {"file": "src/stream/buf_reader.rs", "symbols": ["poll_extend_buf", "tokio_read_buf", "tokio_03_read_buf", "ExtendBuf"]}, {"file": "src/future_ext.rs", "symbols": ["poll_fn", "PollFn"]}]}
{"id": "C50", "title": "The text of an error says all that was recorded, once", "statement": "Displaying an easy error writes the position, then every unexpected item on its own line, then one line enumerating every expected item exactly once in the order recorded ('Expected a, b or c'; no such line if there are none), then every message. Leaving out duplicates when errors are merged loses no text: the merged error shows exactly what the two errors would have shown. map_token, map_range and map_position only change how tokens, ranges and positions are shown.", "quantifier": "all lists of errors, all ways of displaying tokens, ranges and positions", "why_tests_cant": "The separators depend on how many expectations there are and where they are among the other errors; tests show a few texts.", "anchors": [{"file": "src/stream/easy.rs", "symbols": ["Error::fmt_errors", "Display for Errors", "Display for Error", "Display for Info", "Errors::merge", "Errors::map_token", "Errors::map_range", "Errors::map_position"]}]}
{"id": "C51", "title": "A codec built on decode_tokio gives the messages and ends only when nothing is left", "statement": "A tokio_util codec whose decode and decode_eof call decode_tokio, driven by FramedRead, gives as its frames the messages that decode! gives for the same bytes, however they arrive and however often reading fails, and leaves the same bytes in the buffer. A stream that is a sequence of messages gives exactly these and then ends. The stream is ended only after the reader has ended, with an empty buffer, and where decode! would have reported an unexpected end of input; every other failure is reported as an error.", "quantifier": "all readers (read sizes, failed reads), all sequences of messages, all fill states of the buffer; agreement with decode! for all parsers, the frames for the parsers of the fed fragment (C14)", "why_tests_cant": "Where the reads split the messages, and what is in the buffer when the end is noticed, is decided by the network.", "anchors": [{"file": "src/stream/mod.rs", "symbols": ["decode_tokio", "decode"]}, {"file": "src/parser/mod.rs", "symbols": ["Parser::parse_with_state"]}, {"file": "tests/async.rs", "symbols": ["impl_decoder!"]}, {"file": "examples/async.rs", "symbols": ["LanguageServerDecoder"]}]}
{"id": "C52", "title": "Recursive grammars terminate and have one meaning", "statement": "A recursive parser (a function whose body calls itself, through parser!, opaque!, a box or plain fn) that consumes at least one token before every recursive call comes back on every input, with calls nested at most one deeper than the number of tokens left, and its result is the only one that agrees with its own definition. A parser that calls itself before consuming anything never comes back.", "quantifier": "all grammar bodies built from sequences, alternatives, look-ahead, repetition, separated lists, operator chains and labels with the recursive call anywhere behind a consuming part, all inputs of any length and nesting", "why_tests_cant": "Nesting depth is unbounded and decided by the input; a test tries a few depths.", "anchors": [{"file": "src/lib.rs", "symbols": ["parser!", "opaque!"]}, {"file": "src/parser/combinator.rs", "symbols": ["opaque", "lazy"]}, {"file": "src/parser/function.rs", "symbols": ["parser"]}, {"file": "src/parser/sequence.rs", "symbols": ["between", "with", "skip", "then"]}, {"file": "src/parser/choice.rs", "symbols": ["or", "choice", "optional"]}, {"file": "src/parser/repeat.rs", "symbols": ["many", "sep_by", "chainl1"]}]}
{"id": "C53", "title": "Parsers of one token and the named classes of characters and bytes", "statement": "any, satisfy, satisfy_map, token, one_of and none_of read exactly one token if it is one they are for and fail without having consumed anything otherwise; without a token they ask for more on a partial input and fail without commitment on a complete one. digit, space, newline, tab, upper, lower, alpha_num, letter, oct_digit and hex_digit are for the ASCII characters of these names, in parser::char and parser::byte alike, and digit, newline, tab, oct_digit and hex_digit for no others; crlf reads a carriage return and a line feed, spaces skips the longest run of white space.", "quantifier": "all streams, all inputs, complete and partial, all tokens, all predicates, all Unicode tables (beyond ASCII)", "why_tests_cant": "A test samples a few tokens per class; the boundaries of a class and the agreement of two modules range over the whole alphabet.", "anchors": [{"file": "src/parser/token.rs", "symbols": ["any", "satisfy", "satisfy_map", "token", "one_of", "none_of"]}, {"file": "src/parser/char.rs", "symbols": ["digit", "space", "spaces", "newline", "crlf", "tab", "upper", "lower", "alpha_num", "letter", "oct_digit", "hex_digit"]}, {"file": "src/parser/byte.rs", "symbols": ["digit", "space", "spaces", "newline", "crlf", "tab", "upper", "lower", "alpha_num", "letter", "oct_digit", "hex_digit"]}]}
{"id": "C54", "title": "A grammar gives the same results over every stream that holds the same tokens", "statement": "A grammar written once, for any input stream, answers alike over any two streams that hold the same tokens: a slice, a string, an iterator, and any of these wrapped in easy::Stream, position::Stream, state::Stream, PartialStream, CompleteStream or MaybePartialStream. It succeeds on both or on neither, with the same value, the same commitment and the same tokens left; only the errors, the positions and the recorded state differ. The same holds for a stream in which each token is written as several tokens, for parsers that treat these alike.", "quantifier": "all pairs of lawful streams, all inputs holding the same tokens, partial or complete, and all grammars composed of value, unexpected, map, sequences, then, or, optional, attempt (complete inputs), look_ahead, not_followed_by, many, many1, count_min_max, repeat_until, sep_by(1), sep_end_by(1), chainl1, labels, recursion, one-token parsers, eof, tokens/string, range, take, take_while(1), take_until, take_until_range, recognize and skip_many of a class", "why_tests_cant": "Tests exercise a parser over one or two input types; that nothing depends on the input type quantifies over all streams, wrappers and grammars.", "anchors": [{"file": "src/stream/mod.rs", "symbols": ["Stream", "StreamOnce", "RangeStreamOnce", "PartialStream", "CompleteStream", "MaybePartialStream", "IteratorStream"]}, {"file": "src/stream/easy.rs", "symbols": ["Stream"]}, {"file": "src/stream/position.rs", "symbols": ["Stream"]}, {"file": "src/stream/state.rs", "symbols": ["Stream"]}, {"file": "src/parser/mod.rs", "symbols": ["Parser::parse"]}]}
{"id": "C55", "title": "ASCII grammars behave the same over text and over its UTF-8 bytes", "statement": "A grammar over characters and the corresponding grammar over bytes answer alike on a text and on its UTF-8 encoding, as long as tokens, strings and classes are ASCII and predicates treat everything beyond ASCII alike: the same success or failure, the same commitment, corresponding values, and what is left are the bytes of the text that is left. take_while, take_until_range and range work for any text, because no byte of a character beyond ASCII is an ASCII byte and the encoding of a text is never found across other characters.", "quantifier": "all texts, all streams of characters and of bytes, all ASCII tokens, strings and classes, all needles", "why_tests_cant": "Agreement has to hold for every text, also with characters of two, three and four bytes next to every boundary, and for every grammar.", "anchors": [{"file": "src/parser/char.rs", "symbols": ["string", "digit", "newline", "tab", "oct_digit", "hex_digit"]}, {"file": "src/parser/byte.rs", "symbols": ["bytes", "digit", "newline", "tab", "oct_digit", "hex_digit"]}, {"file": "src/parser/range.rs", "symbols": ["range", "take", "take_while", "take_while1", "take_until_range", "recognize"]}, {"file": "src/stream/mod.rs", "symbols": ["impl RangeStreamOnce for &'a str", "impl RangeStreamOnce for &'a [T]"]}]}
{"id": "C56", "title": "Grammars that need one token of look-ahead are parsed exactly without attempt", "statement": "If a context-free grammar needs only one token of look-ahead (LL(1): alternatives and repetitions begin with tokens that no other way to go on begins with, and only the last alternative may be empty) and is not left recursive, then the parser written down from it with the sequence, or/choice, optional, many, sep_by and chainl1 parsers and recursive calls, without any attempt, accepts, when followed by eof, exactly the texts the grammar derives; it always comes back; without eof what it consumes is always derived. On the way, such a parser fails without commitment only where the next token begins no derived text and the empty text is not derived either, and with commitment only after a token that begins one.", "quantifier": "all grammars (with any number of nonterminals), all texts, all lawful streams, all complete inputs", "why_tests_cant": "The users' rule of thumb 'no attempt is needed when one token decides' quantifies over all grammars and all texts, recursive ones included.", "anchors": [{"file": "src/parser/choice.rs", "symbols": ["or", "choice!", "optional"]}, {"file": "src/parser/repeat.rs", "symbols": ["many", "skip_many", "many1", "sep_by", "sep_by1", "chainl1"]}, {"file": "src/parser/sequence.rs", "symbols": ["with", "skip", "between", "then"]}, {"file": "src/lib.rs", "symbols": ["parser!"]}]}
{"id": "C57", "title": "With attempt, parsers mean what parsing expressions mean", "statement": "On complete input the parser for a parsing expression grammar (sequence, ordered choice as attempt(a).or(b) or choice with attempt, repetition as many(attempt(a)), look_ahead as the 'and' predicate, not_followed_by as the 'not' predicate, eof as 'not anything', recursive calls) succeeds exactly where Ford's semantics of parsing expressions says the expression matches, leaves exactly what it leaves, and fails exactly where the expression fails. sep_by1 is p (s p)* !s: it does not give back a separator. If the grammar is not left recursive and nothing empty is repeated, every call comes back, so that every text either matches or fails.", "quantifier": "all parsing expression grammars, all texts, all lawful streams of complete input", "why_tests_cant": "Backtracking has to restore the input after every failure in every nesting of choices, repetitions, predicates and recursion; that quantifies over all grammars and texts.", "anchors": [{"file": "src/parser/combinator.rs", "symbols": ["attempt", "look_ahead", "not_followed_by"]}, {"file": "src/parser/choice.rs", "symbols": ["or", "choice!", "optional"]}, {"file": "src/parser/repeat.rs", "symbols": ["many", "skip_many", "many1", "sep_by", "sep_by1"]}, {"file": "src/parser/token.rs", "symbols": ["eof", "satisfy"]}, {"file": "src/lib.rs", "symbols": ["parser!"]}]}
{"id": "C58", "title": "Syntax errors blame the first token that cannot continue a sentence", "statement": "When a parser without attempt for an LL(1) grammar, followed by eof, rejects a complete input, the error is positioned exactly where the input goes wrong: what comes before is the beginning of some sentence of the grammar, together with the token there it is not, and the error lists that token as unexpected; or the input ends there without being a sentence, and the error lists the end of the input as unexpected. There is only one such place. Labels (expected, message, silent) do not hide the token nor move the error. The one exception is count_min_max with a minimum: after too few elements its error says how many are missing instead of naming the token. With source positions, the line and column are those of the end of the correct beginning.", "quantifier": "all LL(1) grammars without useless symbols, with sequences, choices, optional, many, many1, skip_many, sep_by, sep_by1, sep_end_by, sep_end_by1, chainl1, count and recursion, all rejected texts, all lawful streams and error types that keep what is added to them; concretely easy errors over text with line and column", "why_tests_cant": "Errors are merged, reset, relabelled and re-positioned through arbitrarily nested choices, sequences and loops; that the surviving one is at the first offending token quantifies over all grammars and texts.", "anchors": [{"file": "src/parser/sequence.rs", "symbols": ["add_errors", "tuple_parser!"]}, {"file": "src/parser/choice.rs", "symbols": ["or", "choice!", "optional"]}, {"file": "src/parser/repeat.rs", "symbols": ["many", "skip_many", "many1", "sep_by", "sep_by1", "chainl1", "count", "count_min_max", "Iter"]}, {"file": "src/parser/error.rs", "symbols": ["expected", "message", "silent"]}, {"file": "src/parser/mod.rs", "symbols": ["Parser::parse_stream"]}, {"file": "src/stream/easy.rs", "symbols": ["Errors::merge", "Errors::add_error", "set_expected"]}, {"file": "src/parser/token.rs", "symbols": ["eof", "satisfy", "token"]}]}
{"id": "C59", "title": "What an error lists as expected can come next", "statement": "When a parser without attempt for an LL(1) grammar, followed by eof, rejects a complete input, everything its error lists as expected can come at the reported place: it describes a token that, appended to what was read, is still the beginning of a sentence of the grammar, or it is the end of the input and what was read is a sentence. Labels given with expected are listed instead of what they label. The code violates this for sequences inside sequences, repetitions of sequences, sep_by at the end of a sequence, silent sequences and failing attempts (witnesses); it is proved where every member of a sequence that can match nothing is not itself a sequence.", "quantifier": "all LL(1) grammars built from tokens, labelled parsers, sequences, choices, optional, repetitions, sep_by, sep_end_by, chainl1, count and recursion (with the side conditions in the statement), all rejected texts, all lawful streams and error types that list expectations; concretely easy errors over text with line and column", "why_tests_cant": "Expectations are collected through error offsets that nested sequences, choices and loops pass on and decrement; that nothing impossible is listed quantifies over all grammars and texts.", "anchors": [{"file": "src/parser/sequence.rs", "symbols": ["add_errors", "tuple_parser!", "add_error"]}, {"file": "src/parser/choice.rs", "symbols": ["or", "choice!", "optional", "add_error"]}, {"file": "src/parser/repeat.rs", "symbols": ["many", "skip_many", "many1", "sep_by", "sep_by1", "add_committed_expected_error"]}, {"file": "src/parser/error.rs", "symbols": ["expected", "message"]}, {"file": "src/error.rs", "symbols": ["Tracked", "ErrorOffset"]}, {"file": "src/stream/easy.rs", "symbols": ["Errors::merge", "Errors::add_error", "set_expected"]}]}
{"id": "C60", "title": "What was written is read back", "statement": "If a value is written as a text from the texts of its parts, in the way a parser puts its parts together, then the parser returns that value for the text and consumes exactly the text. Each combinator (one token, fixed texts, map, with, skip, between, tuples, then, or, choice, optional, attempt, many, many1, skip_many, count_min_max, sep_by, sep_by1, chainl1, chainr1, eof, labels and wrappers) satisfies this whenever its parts do, under conditions on the next token only: the alternatives tried before and whatever could be taken in addition decline it.", "quantifier": "all parsers built from the combinators listed, all values and all texts written for them, all complete inputs of all lawful streams, whatever comes after the text as far as it meets the condition", "why_tests_cant": "Round trips range over all values of recursive types and all texts that stand for them, and whether a parser stops at the right place depends on everything that may follow.", "anchors": [{"file": "src/parser/sequence.rs", "symbols": ["with", "skip", "between", "tuple_parser!", "then"]}, {"file": "src/parser/choice.rs", "symbols": ["or", "choice!", "optional"]}, {"file": "src/parser/combinator.rs", "symbols": ["attempt", "map"]}, {"file": "src/parser/repeat.rs", "symbols": ["many", "many1", "skip_many", "count_min_max", "sep_by", "sep_by1", "chainl1", "chainr1"]}, {"file": "src/parser/token.rs", "symbols": ["token", "satisfy_map", "tokens_cmp", "eof"]}]}
{"id": "C61", "title": "The JSON parser reads every JSON value", "statement": "For every JSON text after RFC 8259 (values nested to any depth, whitespace after any token, any choice of the two-character escapes, numbers with fraction and exponent) the JSON parser of benches/json.rs returns the value the text stands for and stops at its end, whatever comes next as long as it cannot belong to a number or be whitespace; the depth of its recursion is at most the length of the text. Consequently a text stands for at most one value. Excluded, with witnesses that the parser does not follow RFC 8259 there: \\uXXXX escapes, + in exponents, whitespace before the whole value, and negative numbers between -1 and 0, whose sign is lost; the parser also accepts texts that are not JSON (0123, 1 5, unescaped control characters). Conversely, whatever it accepts is such a text, but with other Unicode whitespace, whitespace after the digits before a point, the point or the digits after it left out, and unescaped control characters allowed; and the value is the one the text stands for, with these numbers read as the parts before and after the point. On every input, complete or partial, it returns a value or an error: it neither panics nor loops, and its calls nest at most one deeper than there are characters.", "quantifier": "all JSON values, all texts that stand for them (within the exclusions), all complete inputs of all lawful character streams, all continuations that meet the condition, all bounds of the recursion of at least the length of the text", "why_tests_cant": "JSON values are a recursive type and every value has infinitely many texts; that no choice between alternatives, no repetition and no lookahead goes wrong anywhere in them is a statement about all of them.", "anchors": [{"file": "benches/json.rs", "symbols": ["lex", "integer", "number", "json_char", "json_string", "object", "json_value", "json_value_"]}, {"file": "src/lib.rs", "symbols": ["parser!"]}, {"file": "src/parser/repeat.rs", "symbols": ["many", "many1", "sep_by"]}, {"file": "src/parser/choice.rs", "symbols": ["choice!", "optional", "or"]}, {"file": "src/parser/sequence.rs", "symbols": ["between", "skip"]}, {"file": "src/parser/char.rs", "symbols": ["char", "digit", "spaces", "string"]}]}
{"id": "C62", "title": "The language-server decoder gives the blocks that were sent", "statement": "The decoder of examples/async.rs accepts exactly the inputs that begin with a block (any number of empty lines, Content-Length: and the decimal length, an empty line, and that many bytes) and returns the content, leaving what follows. From a stream that consists of blocks, decode!, a codec with decode_tokio, and the codec of the example (decode on a PartialStream with the default decode_eof) give the contents in order, and the codecs then end, whatever the sizes of the reads and however often reading fails. If the stream ends within a block, the blocks before it are given, followed by an error or the end, never by a made-up content. Deviation with a witness: a stream cut off right after the header of a block ends without an error.", "quantifier": "all byte strings as input, all sequences of blocks of any length (below 2^64), all ways to cut the stream into reads with failing reads in between", "why_tests_cant": "The example checks one input with one pattern of reads; the claim is about every content, including contents that look like headers, and every schedule of reads.", "anchors": ["examples/async.rs: decode_parser, LanguageServerDecoder::decode", "src/stream/mod.rs: decode", "src/stream/decoder.rs: Decoder", "src/parser/sequence.rs: then_partial", "src/parser/range.rs: range, take, recognize", "src/parser/combinator.rs: from_str, any_partial_state"]}
{"id": "C63", "title": "What was read was written", "statement": "Where a parser succeeds, the tokens it consumed are a text for the value it returned, followed by a token (or the end) that may follow it. There is a rule per combinator: one-token parsers, tokens, map, with, skip, between, tuples, then, or, choice, optional, attempt, many, many1, skip_many, sep_by, sep_by1, chainl1, eof, take_while, take_while1, range and the labels; and rules for what can come next where a parser fails without commitment. With C60 the two directions say exactly which texts a parser accepts and with which values.", "quantifier": "all parsers built from the listed combinators, all inputs, all lawful streams", "why_tests_cant": "That nothing else is accepted is a claim about all the inputs nobody wrote a test for.", "anchors": ["src/parser/sequence.rs", "src/parser/choice.rs", "src/parser/repeat.rs", "src/parser/range.rs: take_while, take_while1, range", "src/parser/token.rs: eof, satisfy, tokens", "src/parser/combinator.rs: map, attempt"]}
{"id": "C64", "title": "The HTTP parser accepts exactly the requests", "statement": "parse_http_request of benches/http.rs succeeds on complete input exactly if the input begins with a request: method, spaces, target, spaces, HTTP/ and a version, the end of a line, headers (name, colon, one or more lines that each begin with spaces or tabs), an empty line, where lines end in \\r\\n or \\n. It returns the parts of that request as slices and leaves the input right after it. The loop of the benchmark ends without a panic exactly if the whole input consists of requests. Deviations from RFC 7230 with witnesses: a header without a space after its colon is rejected, so is one with an empty value, and the target may contain line ends. On every input, complete or partial, it returns a value or an error: it neither panics nor loops.", "quantifier": "all byte strings, all lawful streams of bytes with ranges", "why_tests_cant": "The benchmark runs one file; the claim is about every byte string, accepted or not.", "anchors": ["benches/http.rs: parse_http_request, message_header, end_of_line, http_requests_bench", "src/parser/range.rs: take_while1, range", "src/parser/sequence.rs: struct_parser", "src/parser/repeat.rs: many, many1"]}
{"id": "C65", "title": "The date parser of examples/date.rs reads exactly the dates it describes", "statement": "`date_time().parse(text)` returns a value and a rest exactly if the text is a date, `T` and a time with a zone as they are written (year of one or more digits that fits 32 bits, two-digit month, day, hour, minute and second, and `Z` or a signed offset with optional minutes), followed by that rest. It panics exactly if the text begins with a date whose year is empty or does not fit, and on nothing else.", "quantifier": "all texts on complete input, over every lawful stream of characters; both directions", "why_tests_cant": "The tests of the example parse three dates; that nothing else is accepted, with which values, and which inputs panic in the `unwrap`/`expect` calls is about all texts.", "anchors": ["examples/date.rs: two_digits, time_zone, date, time, date_time"]}
{"id": "C66", "title": "The .ini parser of examples/ini.rs reads exactly the files it describes", "statement": "`ini().parse(text)` returns properties, sections and a rest exactly if the text is white space and comments, properties and sections as they are written, followed by that rest. It never panics and always ends. A file that is written one property to a line is read back completely.", "quantifier": "all texts on complete input over every lawful stream of characters (exactness); all inputs (totality); all files whose names and values can be written (round trip)", "why_tests_cant": "The tests of the example parse two texts; comments, white space, the end of values and the order of sections interact in unboundedly many ways.", "anchors": ["examples/ini.rs: property, whitespace, properties, section, ini"]}
{"id": "C67", "title": "What the report of a failure says", "statement": "When a sequence `(p1, ..., pn)` fails after having consumed something, the error is placed where the members could not go on; it says which token (or that the end of the input) was found there, and then lists, in order and without repetition, what the last member that consumed something could have gone on with, what each of the following members that consumed nothing would have accepted there, and what the failing member wanted. When a parser fails without consuming, `parse` reports the place where it was tried, what was found there and what the parser wanted: the tokens of `token` and `one_of` (`satisfy`, `any` and `none_of` have no names), the label of `tokens`/`string`, `end of input` for `eof`, the items of all alternatives of a `choice`/`or` in order, the label in place of them under `expected`, and the message at the end under `message`. `tokens` and `string` of which only the beginning comes report the place where they began, the token that does not fit and (for `tokens`) the label. `map`, `ignore`, boxing, `opaque!`, `parser!` do not change the report, and neither does `attempt` at the top.", "quantifier": "every stream that obeys the stream laws with an error type that keeps lists of errors (shown for `easy` errors), every sequence of parsers of any length within the offset counter's range, every input, every place of failure", "why_tests_cant": "The contents of an error are assembled by offsets counted through nested sequences, options and choices; unit tests compare a few literal errors, while a miscount shows up only for some nesting of members that consume nothing.", "anchors": ["src/parser/sequence.rs: add_sequence_error, add_errors, tuple_parser! parse_mode_impl/add_error/add_committed_expected_error", "src/parser/mod.rs: Parser::parse_stream, parse_committed_mode", "src/parser/choice.rs: choice, or, add_error, merge", "src/parser/token.rs: token, one_of, none_of, satisfy, satisfy_map, any, tokens, tokens_cmp, eof", "src/parser/char.rs: string, string_cmp", "src/parser/error.rs: expected, message, unexpected", "src/parser/combinator.rs: attempt, map, ignore, opaque", "src/stream/easy.rs: Errors::add_error, merge, set_expected"]}
{"id": "C68", "title": "Parsing through a buffer is parsing the source; too small a buffer only adds failures", "statement": "A parser run on a buffered stream with room for all the tokens of its one-pass source ends exactly as on an unlimited recording of the source: same value at the same position, same error, same panic. With a buffer of any size it ends either that way or with an error, so what it accepts is always what the recording accepts, with the same value. If the source can go back by itself (iterators that can be cloned, slices, strings) the recording ends as the source itself. Exceptions shown by witness: `escaped`, and errors of a reader, which repetition treats as its end.", "quantifier": "every source, every lookahead, every input, every program built from the combinators of the library (all but `escaped` for too small buffers), in particular every parsing expression grammar", "why_tests_cant": "whether the buffer is exceeded depends on the grammar, the input and the lookahead together; a wrong success would only show on the rare input where an alternative has read further than the buffer", "anchors": ["src/stream/buffered.rs: Stream::new, uncons, reset, position", "src/stream/read.rs: Stream::uncons", "src/stream/mod.rs: IteratorStream, ResetStream", "src/parser/choice.rs: do_choice", "src/parser/repeat.rs: Iter, escaped", "src/parser/sequence.rs: parse_mode_impl"]}
{"id": "C69", "title": "Without backtracking a buffer of one token is enough", "statement": "A parser made without `attempt`, `look_ahead` and `not_followed_by` ends on a buffered stream of any capacity, even one token, exactly as on an unlimited recording of the source (and as on the source itself where that can go back): same value at the same position, same error, same panic. Several such parsers run one after the other on the same stream do so too. In particular an LL(1) grammar read from a one-pass iterator through a buffer of any capacity accepts exactly its language. With `attempt` the claim fails (witness).", "quantifier": "every one-pass source, every capacity, every input, every parser built from the backtracking-free combinators, every list of them, every grammar at every recursion depth", "why_tests_cant": "the claim compares a run that may have lost tokens with one that cannot, for all programs of a class; a single combinator that restores a position two tokens back on some path would break it only for grammars and inputs that reach that path", "anchors": ["src/stream/buffered.rs: Stream::new, uncons, reset", "src/parser/choice.rs: do_choice, optional", "src/parser/sequence.rs: parse_mode_impl", "src/parser/repeat.rs: Iter, many, sep_by, sep_end_by, chainl1", "src/parser/token.rs: tokens, eof"]}
{"id": "C70", "title": "Debug builds and release builds parse alike", "statement": "`then`, `then_partial`, `then_ref` and `many1` check, in builds with debug assertions, that they do not start anew over the remains of an abandoned call. A parse by any of them, input fed to them in pieces, and a repetition of parsers that can be used again after success or soft failure, give the same result in both builds. Inside `attempt` in a repetition they do not: the debug build panics on inputs that the release build accepts (witnesses for `then` and `many1`).", "quantifier": "every parser and continuation, every stream, every input, every division of the input into pieces; for repetition every reusable, consuming parser", "why_tests_cant": "tests run in debug builds and release in production, so a difference is seen by neither; the assertion fires only if an earlier call in the same repetition was abandoned half way", "anchors": ["src/parser/sequence.rs: Then, ThenPartial, ThenRef", "src/parser/repeat.rs: Many1, Iter", "src/parser/combinator.rs: Try"]}
{"id": "C71", "title": "The error type does not change what is parsed", "statement": "`parse` and `easy_parse` run the same program with different error types. On complete input both give the same value and the same remaining input, or both fail (or both panic); a call of the parser by hand also reports the same commitment and leaves the same input position and partial state. This holds for any two error types between which stream errors keep their end-of-input status, which the conversions of the library do. On partial input it does not hold: the same program can commit with one error type and backtrack with the other (witness).", "quantifier": "every program built from the combinators, every non-partial stream, every input, mode and partial state, every pair of error types", "why_tests_cant": "a suite runs each grammar with one error type; that no combinator looks into an error on complete input has to be checked for all of them and all their nestings", "anchors": ["src/parser/mod.rs: Parser::parse, EasyParser::easy_parse", "src/stream/easy.rs: Stream", "src/error.rs: ParseError, StreamError", "src/parser/combinator.rs: Try"]}
{"id": "C72", "title": "The MP4 parser reads exactly the boxes that are there", "statement": "The MP4 parser of benches/mp4.rs, a program written with the library (`be_u32().then(take)`, an inner `easy_parse` of every box through `flat_map`, `choice`, `range`, `many`), returns a list of boxes and a rest exactly if the bytes are those boxes one after the other - each its size in four bytes, big end first, and a content that stands for the box - followed by that rest of fewer than four bytes. So boxes that were written with their sizes are read back. It always comes back, and panics exactly if it was built with overflow checks and comes, after good boxes, to a size smaller than four (witness: four zero bytes). Otherwise it returns an error; in particular one box `ftyp` with bad content makes the whole file fail.", "quantifier": "every file of fewer than 2^63 bytes, every decoder of brand names, debug and release builds", "why_tests_cant": "files and boxes have any length and number; a benchmark parses two sample files", "anchors": ["benches/mp4.rs: parse_mp4", "src/parser/byte.rs: num::be_u32", "src/parser/sequence.rs: Then", "src/parser/combinator.rs: FlatMap, AndThen", "src/parser/range.rs: take, range", "src/parser/choice.rs: choice", "src/parser/repeat.rs: Many", "src/parser/mod.rs: EasyParser::easy_parse"]}
{"id": "C73", "title": "The example programs read numbers and words, and only those", "statement": "The parser of examples/number.rs returns a value and the rest of the input exactly if the input begins with digits, possibly followed by a dot and further digits, taken as far as possible, and the value is what the standard library reads that text as; it hands only ASCII bytes to the unchecked conversion into a str, so that this conversion is sound. The parser of examples/readme.rs returns the last of the words at the beginning of the text, separated by single white space characters, and nothing else. Neither panics or runs forever.", "quantifier": "all byte strings and all texts, every conversion closure, every lawful stream of characters, every assignment of Unicode classes outside ASCII", "why_tests_cant": "Each example is run on one input; that the unsafe conversion is sound, and which texts are accepted, is a statement about all inputs.", "anchors": [{"file": "examples/number.rs", "symbols": ["main"]}, {"file": "examples/readme.rs", "symbols": ["main"]}, {"file": "src/parser/range.rs", "symbols": ["recognize"]}, {"file": "src/parser/repeat.rs", "symbols": ["sep_by"]}]}
{"id": "C74", "title": "A sequence parses the same however many parsers it is made of", "statement": "Tuples of parsers may be nested to any size: whether the program is built with overflow checks (as debug builds are) or without, a tuple runs its members in order and returns their values, however many parsers they count.", "quantifier": "every tuple and nesting of tuples, every stream, every input, both kinds of build", "why_tests_cant": "the count is a u8 that overflows only above 255 parsers in one sequence; in release builds it wraps silently and tests run in debug builds with small grammars", "anchors": ["src/parser/sequence.rs: tuple_parser! parser_count, parse_mode_impl", "src/parser/mod.rs: Parser::parser_count", "src/error.rs: ErrorOffset"]}
{"id": "C75", "title": "Positions stay true in texts of any length", "statement": "After any text, however long, the source position of the stream is the line and the column reached, and positions are ordered like the places in the text.", "quantifier": "every text, of any length, over characters or bytes; builds with and without overflow checks", "why_tests_cant": "lines and columns are i32; no test reads 2^31 characters", "anchors": ["src/stream/position.rs: SourcePosition, Positioner::update"]}
{"id": "C76", "title": "The buffer benchmark's decoder counts the bytes before the first '1'", "statement": "The decoder of benches/buffers.rs gives the number of bytes before the first '1', in whatever pieces the bytes are read and however often reading fails; the '1' and what follows stay in front, so that every further use of the same decoder gives 0.", "quantifier": "every stream of bytes with a '1', every split into reads, every sequence of read errors, every number of uses of the decoder", "why_tests_cant": "the benchmark reads one text in pieces of one size and looks at no result", "anchors": ["benches/buffers.rs: parser, bench_small_buf, bench_big_buf", "src/parser/byte.rs: take_until_bytes", "src/stream/decoder.rs: Decoder"]}
{"id": "C77", "title": "struct_parser! fills every field with what its own parser read", "statement": "A parser written with struct_parser! runs the parsers of its fields in the order they are written, each where the previous one stopped, including the ignored ones (_: parser); the struct it returns holds in each field the value of that field's own parser and nothing of the ignored ones. It accepts exactly the texts of the fields one after the other, and in every call, first or resumed, it commits, fails and reports as the tuple of the same parsers does.", "quantifier": "all lists of fields (any number, kept or ignored, parsers of any types), all streams, inputs and states of resumed calls", "why_tests_cant": "A test fixes one struct; swapped, dropped or shifted fields show only for particular patterns of kept and ignored fields.", "anchors": ["src/parser/sequence.rs: struct_parser!, seq_parser_expr!, seq_parser_pattern!, seq_parser_impl!, seq_tuple_extract!, seq_tuple_parser_impl!"]}
