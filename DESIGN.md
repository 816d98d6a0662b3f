# Formal model of Marwes/combine (4.6.7) in Lean 4 — design

## 1. What is modelled

The code is a library of parser combinators over abstract streams.  The model is a *shallow
embedding*: every Rust parser type becomes a Lean value of type `Parser S σ α`
(`S` stream, `σ` = `PartialState`, `α` = `Output`), every Rust `impl Parser` becomes a Lean
function building such a value, following the Rust control flow statement by statement.

* `&mut Input`, `&mut PartialState` become returned values: a run gives `⟨result, input, state⟩`.
* `ParseResult` has the four Rust constructors plus `abort` (a panic / undefined behaviour /
  non-termination).  Absence of `abort` is therefore something to prove.
* `ParseMode` (FirstMode, PartialMode{first}) is exactly the Boolean `is_first`
  (parser/mod.rs:1106-1209: `PartialMode{first:true}` runs as `FirstMode`).
* `FnMut` closures are pure functions (a parser holding mutable closure state is not modelled).
* `F: Extend + Default` collections are lists.
* Loops have fuel `S.size input + 1` (`size` = ghost number of remaining tokens); running out of fuel is
  `abort diverge`.  A loop that succeeds more often than there are tokens has succeeded without
  consuming, which in the Rust code repeats forever.  Termination for consuming parsers is proved.
* `usize` is `Nat`; `ErrorOffset(u8)` is `Nat` with the saturating operations capped at 255
  (the non-saturating sum in the tuples' `parser_count` is not capped: see C74).
* A stream is a record of its operations (`uncons`, `checkpoint`, `reset`, `position`,
  `is_partial`) plus the operations of its error type.  `reset` may fail.

Not modelled: wakers and task scheduling (a future is what its successive polls give), `Debug` text and the `Display`
of other errors than `easy`'s, formatter sinks that fail, allocation,
`dyn` dispatch, the `regex` crate itself (an arbitrary matcher parameter), `memchr`
(modelled as "first index of"), `Box<dyn Any>` down-casting (a typed `Option`).

## 2. Layout

* `lean/Verif/Model/*`  — the model, each definition citing file:lines of /repo.
* `lean/Verif/Spec/*`   — the small independent specifications.
* `lean/Verif/Proof/*`  — lemmas.
* `lean/Verif/Props/*`  — the property theorems (named in MANIFEST.json), each beside an `example`
  showing a non-trivial case meeting its hypotheses, and the witnesses of deviations.

## 3. Plan per property

| id | modelled | proof |
|----|----------|-------|
| C01 | all combinators over an abstract lawful stream | inductive predicate `Built p` closed under every combinator; theorem by induction on it: the input after is `Reach`able from the input before |
| C02 | same | invariant `HonestIn h Q p` (true statuses from every state satisfying `Q`, which the run keeps) preserved by each combinator; deviations `range("")`, `take_until`, `escaped`, and states abandoned by `attempt`, get witnesses |
| C03 | `do_choice!`, slice choice | equality with a 4-line recursive spec `firstOf` by induction on the list |
| C04 | `Try` | case analysis on the inner run; corollary for `or` |
| C05 | `LookAhead`, `NotFollowedBy` | uses the stream law reset∘checkpoint |
| C06 | `Optional` | same |
| C07 C08 C09 | `Iter`, `Many`, `Many1`, `CountMinMax` | inductive spec `Run p i vs j` (maximal run); both directions by induction on fuel |
| C10 | `SepBy*`, `SepEndBy*` | same with alternating runs |
| C11 | `Chainl1`, `Chainr1` | fold over the run; deviation: trailing operator of chainr1; `chainr1` exactly as written: a relation (`Spec/RightChain.lean`) that its answer satisfies at every place |
| C12 | tuple macro as heterogeneous list of any arity | invariant of the partial state over all histories: unwrap never meets None |
| C13 | `Map`, `FlatMap`, `AndThen`, `Then` | equational |
| C14 C43 | whole resumable fragment + decode | list semantics `D : Bool → List Tok → Outcome`, representation relation `Rep : σ → absorbed → seen → Prop`, one step law per combinator, then induction over chunks; `take_until` with a stateless end parser (`attempt(string(…))` too) and `repeat_until` with such an end apart from that, by functions `seek` and `Hunt.seek` on lists |
| C15 | primitive parsers | stability of `D` under extension of the input |
| C16 | `slice_uncons_while` incl. the 8-way unrolling | loop invariant, equality with `takeWhile`, bounds explicit |
| C17 | `TakeUntilRange`, `TakeFn`, `memslice`, on bytes and on `&str` | equality with first-occurrence spec; on `&str` by the synchronization of UTF-8 |
| C18 | `RecognizeWithValue`, `parse_partial_range`, token-wise `Recognize` | stream law distance/uncons_range |
| C19 | `integer_parser!` | arithmetic of base-256 digits |
| C20 C21 | `position::Stream` | invariant over every history of operations |
| C22 | `Errors::merge`, `add_error` | list algebra |
| C23 | choice + tokens + easy errors | induction over alternatives |
| C24 | `buffered::Stream` | refinement to (source, index) |
| C25 | `Decoder`, `decode!`, `extend_buf_sync` | conservation invariant over all schedules |
| C26 | `BufReader` | conservation invariant |
| C27 | `&str` as UTF-8 bytes | boundary lemma of UTF-8 encoding |
| C28 | wrapper streams | functor-like simulation lemmas |
| C29-C32 | error decorators, `and_then` | case analysis |
| C33 | `TakeUntil` etc. | induction on remaining input |
| C34 C37 | dispatch, state boxing | bisimulation on state |
| C35 | `ParseResult`, `Commit` | case analysis |
| C36 | loops | measure argument |
| C38 | `length_prefix` | composition of C19, take, then_partial |
| C39 | regex parsers with engine parameter | direct |
| C40 | `Tokens` | induction on the token list |
| C41 | `parse`, `parse_stream` | direct |
| C42 | `Escaped` | run spec |
| C44 | `Position`, `Eof` | direct |
| C45 | `Iter`, `Iterate` | relation to `many`; one parser per item; `partial_iter` in pieces (`C45_partial_iter`, for the parsers of `Frag`) |
| C46 | `Decoder` used for one message after another | the flag `k` of `Frag` (ready again after a success) and C43 per message |
| C47 | every combinator, with an error type that records positions (`Placing`, met by `easy::Errors`) | `Placed` by induction: the error of each call is at a place reached from its input, `add_error` keeps positions (`Proof/Places*.lean`) |
| C48 | slice choice with its shared state and index | `Step` of the loop by induction on the alternatives, then as C14; two provisos (first piece not empty, alternatives that do not fail softly after asking), witnesses without them |
| C49 | `poll_extend_buf`, the futures of `__before_parse_*`, one poll of the `decode_*!` futures, asynchronous `BufReader` | a poll that is pending changes neither buffer nor reader; invariant of C43 kept at every await, so that a dropped future is a failed read; erasure of pending polls by induction on the steps |
| C50 | `Display` of `easy::Errors`, `Error`, `Info` and `fmt_errors`, with the indices of its loop | equality with a text built from a three-part specification (`Spec/Report.lean`), by induction on the list; merged errors with C22 |
| C51 | `decode_tokio`, a codec that calls it, and the loop of `FramedRead` around the codec (`Spec/Framed.lean`; the loop is tokio_util's, not this project's, and is part of the specification) | step-wise comparison with `decode!` for all parsers; messages from C46; the end from the resumption invariant on an empty input |
| C52 | a recursive parser as a function from the parser called to the parser of the whole, unfolded `n` times around a call that never comes back (`recur`); "guarded" (`Spec/Recursion.lean`): what the body answers on fewer than `n + 1` tokens is settled by what the parser called answers on fewer than `n` | induction on the number of tokens; guardedness of each combinator from its reference equation (C03–C13) |
| C53 | the parsers of `token.rs` and the classes of `char.rs` and `byte.rs` (`Model/Classes.lean`), with Rust's `char::is_*`, `u8::is_ascii_*` and `to_digit`; the Unicode tables beyond ASCII are a parameter | case analysis on `uncons`; membership by complete enumeration of the 256 bytes or 128 ASCII characters in the kernel |
| C54 | nothing new: the parsers and streams as they are, taken over two streams at once | a relation between the inputs of two streams (`Spec/Alike.lean`: the one holds what the other holds, written by an encoding of tokens), shown to be preserved by each combinator from its reference semantics (C03–C18, C33, C40, C44, C53); `Holds` computed for the concrete streams and wrappers |
| C55 | the same, with `String.utf8EncodeChar` as the encoding | UTF-8 is prefix-free and self-synchronising; then the rules of C54; witnesses for what differs beyond ASCII |
| C56 | nothing new in the model; the textbook notions (derivation, FIRST, LL(1), left recursion) and the parser one writes for a grammar are the specification (`Spec/Grammar.lean`) | a rule per combinator from its reference equation (`C56_or`, …): what it consumes is derived, and where a derived text is followed by a token of FOLLOW it consumes that text; then induction on the grammar and on the depth of the calls; termination by rank and number of tokens |
| C57 | nothing new in the model; Ford's big-step semantics of parsing expressions and the parser one writes for a grammar are the specification (`Spec/Peg.lean`) | a rule per combinator from its reference equation; induction on the expression and the depth of the calls; termination as in C56; determinism of the semantics turns the rules into an equivalence |
| C58 | nothing new in the model; viable prefixes and the place where a text goes wrong are the specification (`Spec/Blame.lean`) | a rule per combinator on top of C56's: a soft failure carries an error at the start, a hard one an error at the place where what was read stops being viable, and decorators keep position and culprit; `add_errors` of sequences adds the token in between; induction on the grammar; easy errors keep what they name |
| C59 | nothing new in the model; what can come next after a prefix, and error types that list expectations, are the specification (`Spec/Hints.lean`) | a rule per combinator on top of C58's that follows the error offset: what `add_error` lists for the members of a sequence that matched nothing are first tokens of the rest; `Modest` is what members that can match nothing have to satisfy; easy errors list only what was added; the violations are concrete |
| C60 | nothing new in the model; "read back" and "declines", with what may come next, are the specification (`Spec/Recover.lean`) | a rule per combinator from its reference equation (`Proof/Recover.lean` on answers, `Props/Recover.lean` on parsers); repetitions by induction on the pieces of the text |
| C61 | the program `benches/json.rs` (`Model/Json.lean`); JSON texts after RFC 8259 as a relation between values and texts (`Spec/Json.lean`) | the rules of C60 for each function of the program, then induction on how the text is made (`Proof/Json.lean`); conversely the rules of C63 and induction on the depth: only texts of `Accepted` (`Spec/JsonLoose.lean`, a wider relation that contains the texts of RFC 8259 with the same values) are accepted (`Proof/JsonOnly.lean`) |
| C62 | the program `examples/async.rs` (`Model/LanguageServer.lean`: `decode_parser`; the conversion of the content to a `String` is left out), its codec with `tokio_util`'s `decode_eof` (`Spec/Framed.lean`, `PartialCodec`); blocks as byte strings (`Spec/LanguageServer.lean`) | the program belongs to the resumable fragment of C14, so that its outcome is a function of the bytes; this outcome is compared with the definition of a block in both directions; then C46, C51 and a theorem like C51 for codecs that know of no end (`Props/PartialCodec.lean`) |
| C63 | nothing new in the model; texts, which texts a parser accepts, and what can come next where it fails (`Spec/Accepts.lean`) | a rule per combinator from its reference equation, the converse of C60 (`Props/Accepts.lean`); repetitions by induction on the run of the reference loop; exact languages by combining with C60 |
| C64 | the program `benches/http.rs` (`Model/Http.lean`, with the loop of the benchmark); requests as a relation between bytes and values (`Spec/Http.lean`) | the rules of C63 in both directions at once (`Props/Exact.lean`), collected for programs in `Proof/Known.lean`; then the relation they build is compared with the specification (`Proof/Http.lean`) |
| C65 | `Model/Date.lean` models examples/date.rs function by function; `map` with a closure that can panic is `mapOrPanic`. `Spec/Date.lean` says what a date and a time look like | Exactness follows from the exact rules of C63 (`Known`, `Later`), the panics from the rule that everything else never aborts (`Proof/Calm.lean`). |
| C66 | `Model/Ini.lean` models examples/ini.rs (`HashMap` as the list of what is inserted). `Spec/Ini.lean` is the grammar of files and how a file is written | Exactness by the rules of C63, totality by `Proof/Calm.lean` (`many` of a parser that consumes), the round trip from exactness. |
| C67 | the report of a failing sequence, choice, one-token parser, `tokens`, label: which items the error lists, in which order, at which place (`Spec/Says`: `told`, `Reports`, `Halts`, `Breaks`, `AltsReport`) | induction over the members of the sequence (the offset counted by the steps is the one that the walk over the members undoes) and over the alternatives; easy errors shown to meet the conditions on the error type; a choice inside `optional` proved to cut the list short |
| C68 | `bufferedS`, `tapeS` (an unlimited recording as a stream), the source itself; every combinator of the model | A relation between two streams that do the same until the first is lost (`Lockstep`); every combinator preserves `Same` (one rule each, by unfolding its definition); the three instances buffered/recording (with room, or any size) and recording/source by invariants; corollaries for parsing expressions through C57 |
| C69 | `bufferedS` at any capacity, `tapeS`, the backtracking-free combinators (`Straight`, Spec/Straight) | A recording that remembers whether it was ever rewound more than one token (`tetherS`) runs in lockstep with both the buffer and the unlimited recording; an invariant (`Leash.Near`, one rule per combinator) shows that these parsers never rewind further; a witness shows that `attempt` does |
| C70 | `thenDebug`, `thenPartialDebug`, `thenRefDebug`, `many1Debug`: the parsers with their `debug_assert!` | the state a call leaves after a success or soft failure passes the check (case analysis); so the checked parser is reusable (`Keeps`) whenever the unchecked one is, and repetition agrees by C07 and its uniqueness; witnesses for the panic |
| C71 | every combinator on `Strm.withErrors` (= `easy::Stream`), `easyParse` | logical relation between a program and its twin (`TwinP`: same kind of result, value, rest, partial state; errors unrelated), one lemma per combinator, mutual recursion over the relation `Twins`; on partial input a counterexample |
| C72 | `benches/mp4.rs` on `easy::Stream<&[u8]>`, with `from_utf8` as a parameter and the overflow of `offset - 4` as a panic or a wrap-around | one lemma per function giving its answer on every slice; the two repetitions by `C07_many` and induction over the run; specification by inductive predicates (`File`, `Means`, `Brands`, `Undersized`) |
| C73 | `examples/number.rs` on `&[u8]`, with the closure (`from_utf8_unchecked`, `f64::from_str`) as a parameter; `examples/readme.rs` on any stream of characters | the language of each by the rules of C63, to which `and_then`, `recognize` and `recognize_with_value` are added; specification by inductive predicates (`Numeral`, `Sentence`) |
| C74 | `parser_count` as a `u8`: the checked and the wrapping sum over nested tuples; a tuple in a build with overflow checks | the sums against the number of parsers, by induction on the nesting; release builds through C12; a witness with 261 parsers for the panic |
| C75 | `SourcePosition::update` on `i32`, checked and wrapping | equality with the unbounded position (C20) by induction on the text while it has fewer than 2³¹ - 1 characters; the first longer line as witness |
| C76 | the parser of benches/buffers.rs, with `decode!` on a decoder used again and again | the parser is in the fragment of C14; its whole-text answer by induction on the bytes before the first `1`; C43 and C46 for all reads |
| C77 | `struct_parser!` for every list of kept and ignored fields (the macros as functions on that list) | by induction over the fields, against a reference that runs the field parsers in order (`Ref.fields`); exact texts through the tuple's; the resumed calls are the tuple's |

## 4. Trusted base

* Lean's kernel (`vcheck` replays every module through it).
* The axioms `propext`, `Classical.choice` and `Quot.sound`; no theorem depends on any other, and many depend on
  none (`#print axioms`).  No `sorry`, `native_decide`, `bv_decide`, `implemented_by` or `unsafe`.
* The fidelity of the hand-written model to the Rust source.  Every definition of `Model/` cites the lines it models.
* The specifications of `Spec/`, which are what the theorems are to be read against.

Modelled, by file: error.rs (`ParseResult`, `Commit`, `Tracked`, the three error representations and their
conversions); parser/mod.rs (the entry points `parse`, `parse_with_state`, `parse_mode`, `parse_lazy`,
`parse_committed_mode`, `parse_stream*`, the provided methods); parser/{token, combinator, sequence, choice, repeat,
error, function, range, byte, char, regex}.rs; stream/mod.rs (`&[T]`, `SliceStream`, `&str`, `IteratorStream`,
`PartialStream`, `CompleteStream`, `MaybePartialStream`, `uncons_while` with its unrolling); stream/{easy, position,
state, buffered, span, buf_reader, decoder, read}.rs; lib.rs (the `parser!` and `decode!` macros); the programs
benches/{json, http, mp4, buffers}.rs and examples/{async, date, ini, number, readme}.rs.

Asynchronous reading (`decode_tokio*!`, `decode_futures_03!`, the `poll_*` functions of buf_reader.rs, future_ext.rs) is
modelled as what successive polls give; a dropped future is one that is not polled again.

Not modelled: wakers, `AsyncWrite` of `BufReader` (it forwards), `Debug` of errors, allocation, `dyn` dispatch, `num` floats' bit patterns (the conversion
is a parameter), Rust's Unicode tables beyond ASCII (a parameter), the `regex` and `memchr` crates (parameters with a stated contract), user-defined streams other than
through the laws of `Spec/Laws.lean`.

## 5. Simplifications, and where the code deviates from its properties

### 5.1 Simplifications

* Closures are pure.  The continuation cached by `then` and `factory` is represented by the value (input) it was made
  from; the closure of `iterate` may look at the input but not move it.
* `debug_assert!`s are off: they are not part of the semantics (some of them can fire: §5.3).
* Fuel: `S.size i + 2` bounds the rounds of a loop; that the bound is never the reason to stop is C36.
* `parser_count` sums (`u8`) are `Nat`; when the program's sums are these numbers is C74.
* Collections are lists; `Extend` appends.
* benches/json.rs: `f64` is `Rat`, `i64` is `Int`, the `HashMap` of an object is the list of its members in order.
* The unrolled scan of `&[T]` is modelled as written (C16); that of `&str` one step per character.

### 5.2 Deviations with a witness in Lean

Each is a theorem about concrete parsers and inputs in `Props/`; the general theorem has the side condition that
excludes it.

| theorem | what the code does |
|---|---|
| `C02_empty_range`, `C36_empty_range` | `range("")` reports `CommitOk` without reading, so `many(range(""))` never ends |
| `C02_stale_sep_end_by1`, `C02_stale_sep_end_by1_in_many` | `sep_end_by1` abandoned by `attempt` returns its old first element when started again, also within one `parse` |
| `C02_stale_chainl1`, `C02_stale_iterate`, `C45_stale_buffer` | the same with `chainl1`'s left operand and `iterate`'s collection |
| `C02_resumed_many` | a resumed `many` reports only what the last call read |
| `C02_take_until_end`, `C33_commit_without_reading`, `C33_soft_failure_after_reading` | `take_until` commits without reading when the end parser commits; fails softly after reading |
| `C02_escaped`, `C42_not_rewound`, `C42_read_without_commit` | `escaped` drops an escape token or reads without committing |
| `C07_stale_state` | `many` over a sequence that failed softly reuses the members already parsed |
| `C11_chainr1_trailing` | `chainr1` consumes and drops a trailing operator |
| `C14_count_loses` | `count` (a `parser!` without partial state) loses what it read when more is asked for |
| `C14_tokens_fail`, `C14_length_prefix_fails`, `C14_sep_by1_fails`, `C14_attempt_fails`, `C14_array_choice_fails` | `tokens`, `length_prefix`, `sep_by1`, `attempt` and a choice over an array do not resume |
| `C14_hard_failure_lost`, `C14_stale_sequence`, `C46_stale_sequence` | a sequence accepts in pieces what it rejects as a whole, or remembers members of an earlier round or message |
| `C48_empty_piece_fails`, `C48_decoder_fails`, `C48_array_in_sequence_fails`, `C48_shared_state_fails` | a choice over an array keeps to the alternative that asked for more though it read nothing (so a decoder, which starts with an empty buffer, only ever tries the first); its alternatives see each other's stale state in `parse_with_state` |
| `C15_eof_guesses`, `C15_not_followed_by_guesses`, `C15_and_then_guesses` | these decide at the end of a partial input |
| `C18_no_positions`, `C18_stale_elements` | `recognize` on a stream whose position does not move; with a stale state |
| `C21_str_depends_on_history` | the index position over `&str` counts bytes for ranges and one per char for tokens |
| `C22_other_repeated` | `Error::Other` entries are unequal to themselves, so they are repeated by merging |
| `C47_offset_not_index` | `PointerOffset::translate_position` is documented to give an index but gives bytes: on `&[u32]` the second element has "index" 4 |
| `C51_truncated_fails` | a message cut off by the end of the input is taken for a regular end of the stream if everything that was read of it has already been consumed |
| `C51_labelled_fails` | with the plain error types a label (`expected`) hides the end of the input, so that a codec reports an error after the last message |
| `C52_left_recursion` | a grammar that calls itself before consuming anything comes back at no depth (stack overflow in Rust) |
| `C53_vertical_tab` | `parser::char::space` takes a vertical tab, `parser::byte::space` does not (`u8::is_ascii_whitespace` leaves it out) |
| `C55_string_beyond`, `C55_take_beyond`, `C55_letter_beyond`, `C55_range_beyond` | beyond ASCII the modules differ: `bytes("é".as_bytes())` is committed on `è` where `string("é")` is not; `take(1)` splits the bytes of a character, not the character; `letter`; `range` on a partial `&str` asks for more where its size is not a boundary |
| `C56_common_prefix`, `C56_empty_first` | not deviations but the limits of C56: where two alternatives begin alike, or an empty one comes first, a derived text is rejected without `attempt` |
| `C57_without_attempt`, `C57_prefix_hides` | limits of C57: without `attempt` the second alternative is not tried after a token of the first; an alternative that is a prefix of a later one hides it |
| `C59_optional_pair`, `C59_many_pair`, `C59_nested_pairs` | errors list as expected what cannot come: the second member of an optional or repeated sequence, a member after one that must come first (the error offset is not reduced enough by inner sequences) |
| `C59_silent_pair` | `silent` around a sequence that begins with something optional lets the error list what comes after the sequence, which cannot come there (`silent` does not reduce the error offset) |
| `C59_sep_by_last` | `with('(', sep_by(x, ','))` followed by `)`: about `(z` the error lists `,` and not `x` (`sep_by` answers `add_committed_expected_error` with the separator even if no element was read) |
| `C59_missing` | errors do not list everything that can come: nested optional members are left out |
| `C58_count_min_max_fails` | repeat.rs:144-149, 304-335: after too few elements the error of `count_min_max` is merged from that of the element, which names no token yet, and the message; `count_min_max(2, 2, char('x'))` on `xy` reports only `expected 1 more elements` |
| `C59_count_zero` | repeat.rs:160-162: `add_error` of `count(0, p)` lists what `p` begins with, though `p` is never run |
| `C59_attempt` | the error of a choice with a failing `attempt` mixes two places: at the place of the attempt's failure it lists what is unexpected and expected where the choice started |
| `C61_negative_fraction_violated`, `C61_rejects_violated`, `C61_accepts_violated` | benches/json.rs: `-0.5` is read as `0.5`; `1e+5`, ` 1` and `"\u0041"` are rejected; `0123` is `0.123`, `1 5` is `1.5`, `1.` and unescaped control characters are accepted |
| `C62_cut_fails` | examples/async.rs: a stream cut off right after the header of a block ends without an error (the header has left the buffer, and `decode_eof` looks at the buffer only) |
| `C65_unwrap_fails` | examples/date.rs: the comment "Its ok to just unwrap since we only parsed digits" is wrong: `-01-01T00:00:00Z` and `2147483648-01-01` panic. |
| `C65_range_fails` | examples/date.rs: month 99 or minute 99 are accepted. |
| `C66_name_fails` | examples/ini.rs: a name may reach over several lines (`a\nb=c` is one property). |
| `C66_end_fails` | examples/ini.rs: `ini` does not ask for the end of the text: `=1\na=b` is an empty file. |
| `C67_choice_fails` | choice.rs:378-382, sequence.rs:60-80: `(token(1), optional(choice((token(2), token(3)))), token(4))` on `1 9` reports that 2 and 3 were expected but not 4, the only token that is required there: the choice lowers the offset of the error once too often, and the walk over the members stops before the last one |
| `C67_nested_fails` | sequence.rs:60-84, 250-285: `(token(1), (optional(token(2)), optional(token(3))), optional(token(5)), token(4))` on `1 9` reports 2, 3 and 5 but not 4: the inner sequence lowers the offset for its members and the outer one lowers it for them again. |
| `C67_nested_first_fails` | sequence.rs:190-192, 250-285: `((optional(token(2)), optional(token(3))), token(4), token(5), token(6))` on `9` reports 2, 3, 4 and also 5, which would not be accepted there: the inner sequence lowers the offset by less than its count, and `add_error` does not correct that. |
| `C67_attempt_fails`, `C67_attempt_choice_fails` | choice.rs:139-164, 262-278, combinator.rs:117-139, sequence.rs:269-284: `choice((attempt((token(2), token(5))), token(3)))` on `9` reports that 2 was expected but not that 3 was, although `3` is accepted: the inner description leaves the offset of the error at 0, and `choice` then takes the merged error for one that has been described. |
| `C68_escaped_fails` | repeat.rs:1418-1428: `escaped` does not reset the input when its inner parser fails without commitment, so when that failure came from a buffer that was too small it succeeds where the source is not accepted |
| `C68_io_error_fails` | read.rs:162-171 with repeat.rs:352: an I/O error is a failure without commitment, which `many`/`optional` turn into success; reading goes on behind it and the parse succeeds |
| `C70_then_fails`, `C70_many1_fails` | sequence.rs:652, repeat.rs:476: `many((optional(attempt(any().then(..))), any()))` panics in debug builds where the release build succeeds: `attempt` undoes the input but not the partial state |
| `C71_partial_fails` | combinator.rs:131, easy.rs:483-487: on partial input `attempt((any(), unexpected("end of input")))` backtracks with plain errors and commits with easy errors: easy errors recognise the end of input by its text |
| `C31_message_becomes_expected`, `C31_boundary_lost` | easy.rs:304-309: a message converted to another error type becomes an expectation; error.rs: `CharacterBoundary` converted to its own type becomes `UnexpectedParse` |
| `C72_panics_fails` | benches/mp4.rs:53: `offset as usize - 4` overflows on a box whose size is smaller than four: four zero bytes are a panic in a debug build |
| `C73_trailing_fails` | examples/readme.rs:15: a sentence that ends with white space is an error (`sep_by` committed to the separator) |
| `C74_checked_fails` | sequence.rs:192, 225, 245-248: `parser_count` adds `u8`s; a tuple with a member of more than 255 parsers panics in builds with overflow checks on input that the release build accepts |
| `C75_long_fails` | position.rs:285: the column is an `i32`: after 2³¹ - 1 characters on one line a build with overflow checks panics, a release build gives a negative column |
| `C76_second_round_fails` | benches/buffers.rs:34-57: one decoder serves all rounds although each opens the data anew; from the second on the result is 0 and nothing is read, so the benchmark measures its first round only |
| `C63_chainr1_left_fails` | repeat.rs:1085-1110: the chain around a dropped operator goes on after it, from the left: `9 - 5 - - 3` is accepted as `(9 - 5) - 3` |
| `C64_del_fails` | benches/http.rs:35-59: DEL (127) is a character of names and methods |
| `C33_stale_take_until`, `C33_stale_repeat_until` | repeat.rs:1166-1190, 1290-1321: `take_until` and `repeat_until` do not clear their collection when they start anew: what a call undone by `attempt` had read is in front of the result of the next, within one `parse` |
| `C14_chainr1_fails`, `C14_escaped_fails` | repeat.rs:1071-1140, 1376-1440: `chainr1` and `escaped` keep nothing between calls: resumed, `chainr1` forgets its left operands and operators, and `escaped` takes the character after the escape for an ordinary one. |
| `C14_eof_fails`, `C14_not_followed_by_fails` | token.rs:660-669, combinator.rs:34-60: `eof` and `not_followed_by` do not ask whether the input is partial: at the end of a piece they succeed. |
| `C14_take_until_fails`, `C14_repeat_until_fails` | repeat.rs:1185-1188, 1315-1318: `take_until` and `repeat_until` go back to the beginning of an end marker that asks for more, but keep the state of its parser; resumed, it looks for the rest of the marker in the wrong place: a wrong end is taken, or the marker is missed (with an end parser without state it is chunk independent: `C14_take_until_stateless`, `C14_repeat_until_stateless`) |
| `C14_stale_then` | sequence.rs:651-664: the continuation of a call undone by `attempt` is run when a later call is resumed; a token is lost |
| `C14_regex_fails` | regex.rs:219-459: the regex parsers do not look at `is_partial`: on partial input `find` and `match_` fail where they should ask for more, `find_many` stops at the end of a piece |
| `C14_range_fails`, `C14_take_fails` | stream/mod.rs:246-259, 571-592: on partial input every error of the stream commits, `CharacterBoundary` too; on a partial `&str` `range("ab").or(range("xé"))` refuses "xé", which it accepts on complete input |
| `C14_take_until_byte_fails` | range.rs:597: a resumed `take_fn` stores how far to skip counted from where its search began, not from the beginning of the input; on a partial `&str` that may be inside a character, with the consequence of the next row (`take_until_byte(b';')` of "éx;y" in three pieces gives "éx;") |
| `C14_take_until_bytes_fails` | range.rs:577-606 with byte.rs:404-410: on a partial `&str`, `take_until_bytes` goes on at a byte that may be inside a character; `let _ = input.uncons_range(*offset)` then fails silently, the search starts from the beginning, and `*offset + i` takes too much ("éab" in two pieces gives "éa") |
| `C17_take_until_byte_text_fails` | byte.rs:291-375: on a `&str` a byte that is found inside a character makes `take_until_byte` fail (`CharacterBoundary`) |
| `C14_take_until_range_fails` | range.rs:476-499: on a partial `&str` `take_until_range("ab")` reports the first error it met; about `xé` that is `CharacterBoundary`, not the end of the input, so the parser fails where it should ask for more |
| `C14_stale_take_until_range` | range.rs:431-443: `take_until_range` skips the distance stored by a failed call even when it is asked to start anew |
| `C24_io_error_lost` | read.rs:157-175, buffered.rs:113-136: an `io::Error` is reported once; `optional` takes it for a soft failure and the parse goes on with the byte after it |
| `C28_state_not_reset` | state.rs: the user state is not part of the checkpoint (documented), so alternatives that were undone leave their traces in it |
| `C12_error_input` | sequence.rs:60-84: after a sequence failed, the input is one token further than where it failed (`add_errors` takes the unexpected token and does not go back) |
| `C64_tight_fails`, `C64_empty_value_fails`, `C64_uri_fails` | benches/http.rs against RFC 7230: a header value that follows its colon directly, or that is empty, is rejected; a target may contain line ends |
| `C31_easy_into_other_loses`, `C31_expected_loses`, `C31_easy_error_loses` | conversion of easy errors and `set_expected` of plain errors lose the end-of-input status |
| `C36_many_diverges` | `many` over a parser that succeeds without consuming does not end (documented) |
| `C43_error_position` | after a parse error the decoder's position has moved on though its buffer has not |

### 5.3 Observed in the source, no theorem yet

* `read::Error::position` is `unimplemented!()`.
