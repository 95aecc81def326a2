# Verification of arnodel/jsonstream: design

This file says what is modelled in Lean, how each property of `properties.jsonl`
is proved (or why it is not), what is trusted, and where the code was found to
disagree with a property.  It was written before the proofs and is kept current.

## Trusted base

* The Lean 4.33.0 kernel.  No axioms of our own, no `sorry`, no `native_decide`.
  The only axioms that theorems may depend on are `propext`, `Classical.choice`
  and `Quot.sound` (the list per theorem is printed by the gate's audit; the
  section "Axioms" below repeats the summary).
* The correspondence between the Go source in `/repo` and the Lean model.  It was
  made by hand, function by function; every model definition names the file and
  the lines it follows and lists its simplifications.  No proof connects the two.
  As a test of it, the repository's own tests are run on the model and their
  results checked by the kernel: all 697 cases of `transform/jsonpath/cts.json`
  (`RepoCts1`–`RepoCts4`), the 46 end-to-end tests of `cmd/jp/examples_test.go` and
  tests of the query engine, the tokeniser and the parser of queries, patterns,
  decoders, encoders, scalars, equality and cursors (`RepoTests`, `RepoTests2`).  All pass.  They are tests, not claims: no property of the
  manifest rests on them.
* The semantics of the Go constructs used: slices, `copy`, `append`, `defer`,
  integer arithmetic.  `int`/`int64` are modelled by `Int`; where wrap-around can
  matter (JSONPath slices use `math.MinInt64` and `math.MaxInt64`) it is modelled
  explicitly.
* Go's standard library and `github.com/arnodel/grammar` are not modelled, except
  where a definition says so.  They enter as parameters (hypotheses or arbitrary
  functions): `regexp` (a parameter everywhere except in C70; there `GoRegex` models
  the parser and the leftmost-first matcher for the syntax that I-Regexps can use,
  following the published source of Go; trusted),
  `encoding/json.Decoder.Token` on a literal (denotation of strings and numbers),
  `strconv.FormatFloat` (where its result matters, `FmtOk` is assumed: a number literal that reads back as the
  same double; `FormatFloat` models the function and proves this of the model).
* The tokeniser and the parser of queries are made by `github.com/arnodel/grammar`
  from a table of regular expressions and from types with tags.  The library is not
  in the repository.  The model (`PathLexer`, `PathParser`) assumes what its users
  rely on: at each place the first definition that matches gives the token; a
  struct reads its fields one after the other; of alternatives the first one that
  can be read is taken, without coming back to it; a list is read as long as
  possible; tokens that remain are an error.

## What is not modelled

* Of the command line front end: the output of the help texts, and the texts of messages.
* Memory allocation, garbage collection, capacity of slices (except that the
  cursor window can be reused in place), performance, the `debug` build tag.
* Error message texts, except line and column numbers.
* Goroutines other than the pipeline stages connected by unbuffered channels.
  Panics inside a pipeline are outside of its model.
* Regular expressions: compiling and matching are Go's `regexp` (a parameter; the
  theorems of C42 about `match` and `search` assume what is needed of the matcher).
  C70 uses a model of it, `GoRegex`.  There the tables of Unicode categories are a
  parameter (before Go 1.25 there is no `Cn`, and `C` lacks unassigned characters; `go.mod`
  says 1.20), the limit of the size of compiled patterns is a parameter (`small`), and
  what Go does with syntax that no I-Regexp has is a parameter (`other`).
  The cache of rejected patterns is part of the engine, but each query has its own
  one; in the program all queries of a process share it.

## Modules

| Lean modules in `Verif/` | Models (in `/repo`), or contents |
|---|---|
| `Bytes`, `Token`, `Flags` | `token/tokens.go`: bytes, tokens, scalar flags, values as trees, well-formed streams |
| `ParseToks` | well-formedness of streams is decidable |
| `Transforms`, `IterTransforms` | `transform/builtin.go`, `internal/legacy/transformers.go` |
| `CursorPool`, `CursorData` | `token/cursor.go`; `CursorSpec` is the specification, `CursorPoolLemmas` the proof |
| `Streams`, `StreamsLemmas` | `token/cursor.go`, `token/tokenstream.go`: streams that can be cloned |
| `Pipeline` | `token/pipeline.go` with any schedule |
| `Scanner`, `ScannerLemmas`, `ScannerState` | `internal/scanner/scanner.go`, readers with an arbitrary schedule, an abstract scanner, programs over scanners |
| `Rfc8259` | the JSON grammar (specification) |
| `JsonDecoder` | `encoding/json/decoder.go` |
| `JsonPure`, `JsonPureLemmas`, `JsonLex`, `JsonGrammar`, `JsonStream`, `JsonExact`, `JsonFuel`, `JsonRun`, `JsonSuffix`, `Prefix` | the JSON decoder as a function; grammar, streams, fuel, errors, common prefixes, the exact language of the decoder |
| `Printer`, `JsonEncoder` | `internal/format`, `encoding/json/encoder.go` |
| `EncSpec`, `JsonLayout`, `JsonColl`, `JsonColor`, `JsonText`, `JsonRound` | what the JSON encoder prints; `EncSpec` is specification |
| `JsonCompact` | the lines of compact arrays and objects (specification and proofs) |
| `LayoutHints` | the JSON encoder does not use the hints of scalars |
| `JpvDecoder`, `JpvEncoder` | `encoding/jpv` |
| `JpvSpec`, `JpvSubset`, `JpvMeaning` | the JPV format, values and leaves, what lines describe (specification) |
| `JpvPure`, `JpvGrammar`, `JpvRun`, `JpvWell`, `JpvLayout`, `JpvTree`, `JpvRound`, `IndexNum`, `JpvPlay`, `JpvStrings`, `JpvPrefix` | proofs about JPV |
| `CsvDecoder` | `encoding/csv/decoder.go` |
| `CsvReader` | Go's `encoding/csv` (`readLine`, `readRecord`) and `bufio.Reader`, as far as the decoder uses them. The source is not in `/repo`; the model is of Go 1.20 |
| `CsvLines`, `CsvGrammar`, `CsvParse`, `CsvFile`, `CsvPrefix`, `CsvFuel`, `CsvEnd`, `CsvBlank` | The reader does not depend on the arrival; it reads exactly the texts of a grammar |
| `Rfc4180` | Grammar of RFC 4180, and of what Go's library reads |
| `CsvSpec`, `CsvFields`, `CsvRecords`, `CsvStrings`, `CsvReread`, `NumPrefix` | cells and their meaning; proofs about CSV |
| `GoJson`, `StrSpec`, `StrOrder`, `Decimal`, `Data` | string and number literals as Go reads them, strings and numbers denoted, JSON data (specification) |
| `RoundSpec` | IEEE 754 double precision (specification); that `F64.round` gives the nearest number, with an even significand if there are two, and fails exactly out of range |
| `IterHeap`, `IterProg` | `iterator/streamiterator.go` on a heap of streams, pools and values; programs over iterators |
| `IterSpec`, `IterInv`, `IterKeep`, `IterSim`, `IterSim2`, `IterSim3`, `IterRoot`, `IterStreams` | iterators as they are meant, and the proof that the heap model does that |
| `IterLogic`, `IterEff`, `IterMod`, `IterReader`, `IterClones` | a program logic for iterators, footprints, readers that cannot forge references |
| `Equality`, `EqualLogic`, `EqualObj` | equality of values (`iterator/streamiterator.go`, `token/tokens.go`) |
| `Formats`, `FormatsLemmas` | `cmd/jp/main.go`: guessing the input format |
| `Program`, `ProgramLemmas`, `ProgramGo` | `cmd/jp/main.go`: `main`, `parseTransformer` |
| `CommandLine`, `CommandSpec` | `cmd/jp/main.go`: the options; Go's `flag.Parse`, `strconv.ParseBool`, `strconv.ParseInt` with base 0 (transcribed from the Go library as far as options are concerned; trusted) |
| `Reach` | (no code) what a program has written, and what it has left to do, after some of its steps; the open handles of the main thread and the tokens below them |
| `QuotedLit`, `QuotedLemmas`, `LitSpec` | `internal/jsonpath/parser/parse_literals.go`, literals of `lexer.go` |
| `IRegexp`, `IRegexpSpec`, `IRegexpLemmas` | `internal/jsonpath/iregexp/iregexp.go` |
| `RegexSpec` | (no code) RFC 9485: the grammar and the language of I-Regexps (specification) |
| `GoRegex`, `RegexChars`, `RegexMatch`, `RegexParse`, `RegexText`, `RegexDet` | Go's `regexp` as far as I-Regexps use it; that it reads an I-Regexp as RFC 9485 does, and finds a match exactly if there is one |
| `PathAst`, `PathGrammar` | `internal/jsonpath/ast/ast.go`, `internal/jsonpath/parser/grammar.go` |
| `PathLexer`, `PathParser` | `internal/jsonpath/parser/lexer.go`, the rules in the tags of `grammar.go` |
| `QuerySpec`, `TypeSpec` | the grammar of RFC 9535 on bytes; types of function expressions (specification) |
| `PathUnparse`, `PathParseSound`, `PathParseFuel`, `PathParseOk` | parse trees against tokens |
| `PathLexSplit`, `PathLexOk`, `PathLexSound` | tokens against bytes |
| `PathTextOk`, `PathTextSound`, `PathTextEnd` | texts against syntax trees |
| `PathTyping` | the compiler accepts the well typed queries |
| `PathInts`, `PathIntLemmas`, `PathNamed` | the integers of a query (specification and proofs) |
| `PathSelectors`, `PathSpec`, `PathWindow`, `PathSlices` | `transform/jsonpath/selectorrunners.go`, look-ahead; the selectors of RFC 9535 |
| `PathCompiler` | `transform/jsonpath/compiler.go` |
| `PathEngine` | `transform/jsonpath/segmentrunner.go` |
| `PathRun` | `transform/jsonpath/queryrunner.go`, `function.go`, `functionrunnner.go`, `logicalevaluators.go`, `comparableevaluators.go` |
| `PathRfc`, `PathDen` | RFC 9535 on JSON data (specification) |
| `PathTwin`, `PathKeep`, `PathSim`, ..., `PathSim6` | the engine on values, and the proof that the engine on handles does the same |
| `PathBack` | queries with slices that go backward, to scalars |
| `PathList`, `PathNodes`, `PathCmp`, `PathCmp2`, `PathQuery`, `PathFn` | the engine on values against the specification: selections, comparisons, tests, functions |
| `PathSafe`, `PathTables`, `PathCompileOk`, `PathShare`, `PathFaith` | queries to which the theorems apply; the tables of rooted queries; compiled queries |
| `PathCtx`, `PathMain`, `PathFuel`, `EncFuel`, `PathOut`, `PathSamples` | run contexts, the main loop, fuel does not matter, output, samples |
| `PathTame`, `PathShape` | classes of queries with filters that are given by syntax only, for trees and for texts of queries; they are safe for all values |
| `PathSteps` | queries one after the other, and the query with the segments of both |
| `FmtOk` | a number formatter that satisfies what is assumed of Go's (`FmtOk`) |
| `FormatFloat` | model of `strconv.FormatFloat(x, 'g', -1, 64)`: shortest digits; it satisfies `FmtOk` |
| `GoScalar` | `ToScalar`, `ToGo` and the functions that make scalars from Go values |
| `Exec` | an executable version of the model of the whole program, with a proof that what it computes is a run of `Program` |
| `RepoTests`, `RepoTests2` | the repository's own tests (end to end, queries, tokeniser, parser, patterns, decoders, encoders, scalars, equality, cursors) run on the model |
| `RepoCts1`–`RepoCts4` | the JSONPath compliance tests of the repository run on the model: 450 valid and 247 invalid queries |
| `Reach`, `HeapLocal`, `PathReach` | partial runs; what happens before a token is read does not depend on it |
| `PathPrompt`, `PromptSpec`, `EncPrompt`, `EncCut`, `JpvCut`, `PrintSpec`, `SplitCut` | queries, encoders and `split` on inputs of which the end has not come |
| `EncTotal`, `SplitPure` | the encoders and `split` on any tokens; `split` as a function of tokens |
| `EncTrunc`, `JsonTrunc` | the encoders on tokens with others behind them; JSON input that ends too early |
| `Origin`, `OriginPath`, `OriginEnc`, `JsonOrigin`, `JpvOrigin`, `CsvOrigin` | where tokens come from: a logic of programs that write only tokens they have read, for queries and encoders; scalars of the decoders are slices of the input, or fields |
| `Utf8Flow` | UTF-8 cut at ASCII characters: scalars of the decoders, lines and fields of CSV |
| `HeapEnds`, `QueryEnds`, `QueryRuns` | what streams can still deliver; queries end on any tokens |
| `Quiet`, `EncQuiet`, `HeldDesc`, `ScanMemory`, `ScanEcho` | what is stored in all states of a run: programs without clones, a descendant segment, the scanner, recorded tokens |
| `Bufio` | Go's `bufio.Writer` before the standard output |
| `FailingOutput` | the same with a file that may fail, and `main` on it |
| `Props/CNN` | the property theorems, with non-vacuity examples |

Conventions.  Property theorems are named `CNN_...`.  A theorem for a weaker
statement than the property has the suffix `_partial`.  A theorem showing that the
code violates the property has `_violated` in its name; it gives a concrete input.

## Modelling decisions

* **Tokens.** An inductive type with one constructor per Go token type; a scalar
  has its bytes, its type and three flags as separate fields.  The packed
  representation (`TypeAndFlags`) is modelled separately and shown equivalent (C50).
* **Values.** `JVal` is a tree (scalar, array, object, each collection possibly
  elided at its end); `JVal.toks` is its token sequence.  A well-formed stream is
  a concatenation of such sequences.  This is the specification language of most
  properties.
* **Decoders.** `encoding/json` and `encoding/jpv` decoders are written once, as
  programs of a free monad over the scanner's methods (`read`, `peek`, `back`,
  `skipSpaceAndPeek`, `skipSpaceAndRead`, `startToken`, `endToken`, `currentPos`)
  and `emit`.  They are interpreted (a) over the concrete buffered scanner with a
  reader that follows an arbitrary schedule, and (b) over an abstract scanner
  that has just the remaining bytes.  One simulation theorem, by induction over
  programs, transfers everything from (b) to (a).  Loops carry fuel; theorems show
  that the fuel supplied is always enough.
* **Grammar.** RFC 8259 as inductive predicates on byte lists, independent of the
  decoder.
* **Printer.** The printer is a program that issues writes; the writer may fail at
  any write.
* **Iterators.** Values over streams alias each other (a value, its parent, its
  clones read from shared cursors).  They are modelled on an explicit heap.
* **JSONPath.** The engine is a program over iterator handles, run on the heap
  model.  A twin of it works on trees; a simulation shows that both do the same
  (for queries without backward slices, or with backward slices to scalars), so that consumption and cloning are dealt
  with once.  The twin is then compared with RFC 9535 on JSON data.
* **Pipelines.** Stages are resumption processes (ask for a token, offer a token,
  finish); the network's steps are rendezvous on unbuffered channels chosen by an
  arbitrary scheduler.

## Properties

* **C01 JSON encode/decode round trip.** Model encoder over a printer that collects bytes; show that its output is a text of the grammar with the values' token sequence (C11 form) and apply completeness of the decoder (C03). Quantifies over all options.
* **C02 JSON decoder accepts only JSON.** Expected violated: an unknown escape such as `\q` is accepted. Witness theorem, plus `_partial`: acceptance implies membership in the grammar with arbitrary escaped byte. `C02_exact` gives the accepted language itself (values may follow one another without white space, so `01` is `0` and `1`).
* **C03 JSON decoder accepts all JSON, with the right tokens.** Induction over the grammar derivation; tokens compared with an independent denotation.
* **C04 Decoded streams are well formed.** Invariant over the pure parser; success gives a list of values, failure a prefix of a stream (a stack automaton accepts it).
* **C05 JSON decoding never panics.** No panic and no stuck outcome of the program over the abstract scanner, transferred by simulation; fuel bound gives termination.
* **C06 Decoding does not depend on how the input arrives.** Simulation theorem concrete scanner vs abstract scanner for all programs.
* **C07 Reader failures are reported and truncate.** Abstract scanner with a final error other than EOF; prefix theorem.
* **C08 Streaming: tokens emitted so far never change.** Relational theorem on runs over two inputs with a common prefix.
* **C09 Every byte of the input counts.** Expected violated: byte 0xFF is taken as end of input. Witness, plus `_partial` for inputs without 0xFF.
* **C10 Positions in syntax errors.** Line number for all programs; column violated for 3 and 4 byte characters (continuation bytes are counted individually). Witness, plus `_partial` for code points below U+0800; `C10_column_exactly` says by how much the column is off on any line.
* **C11 Formatting options only change whitespace.** Normal form of the encoder output under whitespace erasure outside strings.
* **C12 Indentation is balanced.** Invariant over the encoder program with the printer state.
* **C13 Write failures are reported and leave a prefix.** Writer that fails at the n-th write; prefix theorem over all write programs.
* **C14 Colours are only decoration.** Erasure theorem on the sequence of writes.
* **C15 JPV is reversible.** Expected violated (empty keys, keys with escapes are printed in dot form). Witness, plus `_partial` with accurate alphanumeric flags.
* **C16 JPV subset property.** Spec: prune function on values; induction over the list of leaf paths.
* **C17 JPV decoding never panics.** Expected violated (two panics). Witnesses; partial: characterise.
* **C18 JPV decoding emits well-formed streams.** Expected violated (error after a path update). Witness; `_partial` for runs that succeed.
* **C19 JPV streams of several values.** Expected violated. Witnesses.
* **C20 CSV record shape.** For any records that the reader delivers; induction over records.
* **C21 CSV fields keep their content.** Expected violated (`2024-01-15` becomes the number 2024; `null` documented as parsed but is a string). Witness, plus `_partial` for fields that are not a proper extension of a number.
* **C22 CSV output is valid JSON.** Expected violated (tab inside a field). Witness, plus `_partial` for fields without control characters other than newline.
* **C23 Cursors are independent readers.** Refinement of the pool to an abstract machine with one position per cursor.
* **C24 Cursor memory is bounded by cursor lag.** Expected violated: reading fresh tokens never triggers the window shift. Witness (unbounded family), plus `_partial` bound on what is retained after catch-up steps.
* **C25 Data-backed cursors do not damage the data.** Expected violated: the shift overwrites the caller's slice. Model with shared backing array. Witness, plus `_partial` for a single cursor.
* **C26 Skipping and partial reading keep the stream in step.** Heap model; invariant relating the position of the underlying stream to the suspended traversal.
* **C27 Copy reproduces the value.** Heap model and stream-level induction.
* **C28 Clones are independent of the original.** Heap model; invariant for pools created by clones.
* **C29 Value equality is JSON equality.** Value-level algorithm with pending list vs permutation-based equality; later on the heap. `DenBy val` says what data a value denotes when number literals have the values `val`; `C29_rounded_partial` takes the nearest `float64`.
* **C30 Depth limiting.** Induction over values.
* **C31 Split and join are inverse.** Induction over values.
* **C32 Legacy key extraction.** Induction over values.
* **C33 Pipelines are deterministic.** Confluence of the rendezvous semantics and progress; stages as resumptions.
* **C34 Output of transforms and queries is well formed.** By combination of C30, C31, C32 and the queries model; violated for the reverse slice on nested values (pending values are not cloned).
* **C35 JSONPath index selectors.** Look-ahead window lemma plus arithmetic.
* **C36 JSONPath slice selectors.** Expected violated (clamping with |step|>1). Witnesses, plus `_partial` for start in range or step of absolute value 1.
* **C37 Look-ahead is sufficient.** Window lemma; monotonicity of NoMoreAfter.
* **C38 JSONPath child segments produce RFC order.** Dispatcher invariant: emitted plus pending equals the specification. Expected violated for a reverse slice followed by more segments. `_partial` otherwise.
* **C39 JSONPath descendant segments.** Expected violated in strict mode (pending nodes of later selectors are emitted after the descent). Witness, plus `_partial` for a single forward selector.
* **C40 JSONPath existence tests.** Expected violated: result of the deferred flush is dropped. Witness, plus `_partial` for segments with a single forward selector.
* **C41 JSONPath comparisons.** Case analysis with the literal denotation as parameter. `Rfc9535.Sem` is what the specification takes from elsewhere: regular expressions and the values of number literals. They can be the numbers themselves or the nearest doubles; for the latter C41 holds of all numbers in range (`C41_rounded_partial`).
* **C42 JSONPath function extensions.** Expected violated (length of objects, reused consumed values, match with alternation). Witnesses and partial theorems.
* **C43 Singular queries.** Value level theorem; consumption on the heap.
* **C44 Filters on the root never crash.** Expected violated (nil value; nil detach). Witnesses on the model of computeRunContext.
* **C45 Rooted subqueries are shared soundly.** Compiler model with tables; semantic preservation by induction on queries.
* **C46 Integer literals.** Expected violated (errors in descendant segments and function arguments are dropped). Witness, plus `_partial`.
* **C47 Single-quoted string literals.** Byte-level proof that the rewriting preserves the denotation.
* **C48 I-Regexp translation.** Translation specified by a small automaton; cache expected to be wrong (stores only failures). Witness.
* **C49 Input format detection.** Expected violated (the JPV pattern matches only empty input). Witness.
* **C50 Scalar flags are independent of the type.** Finite but complete: all 256 values, by kernel computation over bit vectors.
* **C51 Alphanumeric flag is accurate.** Expected violated (empty string, escapes). Witnesses, plus `_partial` theorems for the JSON, JPV and CSV decoders.
* **C52 JPV decoder accepts only JPV.** As C02, over the grammar of lines; violated behind the byte 0xFF. Witness, plus `_partial`.
* **C53 Types of function expressions.** Typing rules as inductive predicates; the compiler succeeds exactly on the well typed trees, by induction, with the table of rooted queries as invariant.
* **C54 Syntax of queries.** Grammar of the RFC as an inductive relation between bytes and trees; both directions through tokens and parse trees. Violated by lost errors and by blanks. Witnesses, plus `_partial`.
* **C55 Program.** `main` as a relation between options, input and result; composition of C03, C54, C38, C30, C31 and C01. Violated by slices (C36). Witnesses, plus `_partial`.
* **C56 Arguments.** `parseTransformer` against a specification of the arguments. Violated by blanks. Witness, plus `_partial`.
* **C57 Arrival.** Equal results for readers that deliver the same. Violated by the guess of the format. Witness, plus `_partial`.
* **C58 Exit status.** By cases on the result. Violated by errors of the decoder. Witnesses, plus `_partial`.
* **C59 Compact form.** Lines as a specification; invariant of the loop over the items. Violated after wide scalars. Witness, plus `_partial`.
* **C60 Help texts.** Colours, fallback, widths, queries. Violated in four places. Witnesses, plus `_partial`.
* **C61 CSV and JPV with the program.** Options for CSV, names separated by commas; JPV as an intermediate format. Violated for empty keys and for several objects. Witnesses, plus `_partial`.
* **C62 Lines.** Layouts without line feeds by induction; leaves as a filter of the descendants. Violated by JPV with `-json-lines`. Witness, plus `_partial`.
* **C63 Pipes.** The output of the first run is decoded to the values that it had (C01, C03), so that the transformers compose. Violated by scalars, by empty output and by `depth`. Witnesses, plus `_partial`.
* **C64 Command line.** Grammar of options and integer literals, equivalent to the model of `flag.Parse`. Expected violated: `-strict` is documented, but the option is `-jsonpath-strict`; the value of `-colors` is ignored. Witnesses, plus `_partial`.
* **C65 Immediate output.** Runs of programs over iterators up to the point where they read the first token of an unknown continuation (`Reach`, locality of the implementation), for queries, `split` and the encoders; a model of `bufio.Writer`. Expected violated: output to pipes waits for 4096 bytes, and `$[:N]` does not stop reading. Witnesses, plus `_partial`.
* **C66 Schedules of the whole program.** Programs over iterators become goroutines (`Goroutine`): an operation waits until what it needs has been received, which is well-defined because of the locality of the implementation (`HeapLocal`). Invariants give that no goroutine ends before it has seen its channel closed. Confluence of pipelines (`Confluence`, also for C33). Expected to hold unless a transformer panics; `_violated` for that.
* **C67 Failures of the standard output.** `FailingOutput` models the `bufio.Writer` with its sticky error in front of a file that may fail in any way, the printer that panics on the first error, `CatchPrinterError`, and what `main` does with the error. Shown conservative over `Program.Main` (`C67_good`). The error of the deferred `Flush` is ignored, so `_violated` expected.
* **C68 CSV files.** Model of Go's `encoding/csv` reader (`readLine`, `readRecord`) over a `bufio.Reader` with 4096 bytes. First shown independent of the arrival, then equal to a reader of the text in which CRLF has become LF, then equivalent to a grammar (`Rfc4180.GoRecords`). RFC 4180 in a grammar of its own. Expected violations: records with different numbers of fields, empty lines, CRLF in quoted fields.
* **C69 Meaning of JPV lines.** A specification of what a list of lines describes (`Means`, `Describes`), without a decoder: groups of lines by their first key. The decoder sends exactly these values. Expected violations: keys are compared as `float64` and as Go strings.
* **C70 Matching.** A specification of I-Regexps (grammar and languages of RFC 9485) and a model of Go's `regexp` (parser and leftmost-first matcher) for these. Expected violations: `match` looks at the first match of Go, not at all; `^` and `$`; large counts.
* **C71 Go values.** A model of `strconv.FormatFloat(x, 'g', -1, 64)` (shortest digits that read back), and of `ToScalar` and `ToGo`; that 17 digits are enough is proved from the distance between neighbouring doubles. Expected violations: `NaN` and infinite numbers, invalid UTF-8, integers above 2^53.
* **C72 Colours.** The roles of the scalars are read off the values, not off the flags; decoders set the flags by role (C04, C18), transforms keep them, the encoder uses them (C14). Expected violation: CSV headers with escapes, which lose the flag.
* **C73 Failures, JPV and CSV.** As C07: runs on an input that is cut off and on an extension of it go in lockstep. For JPV the deferred unwinding adds closing tokens at the end. For CSV the model of `encoding/csv` is run on both texts. Expected violation: 0xFF for JPV.
* **C74 No crash.** On any list of tokens, the encoders and `split` end, regularly or with a panic: every `Advance` takes a token. Together with C05, C17 and C20 this gives that the program ends; for queries see C77. `SplitPure` gives the exact result of `split` on any tokens, and from it that `jp split` crashes exactly if the tokens of the decoder end in an array that is not part of another value. Expected violations: truncated input with `split` and queries, and the panics of C17 and C44.
* **C75 Constant memory.** What is counted is the buffer of the scanner, the parts of a token that were moved out of it, and the windows of the cursor pools. For the scanner: invariants of all states reached by any program of scanner operations; for the JSON decoder, recorded tokens are taken and then sent, so that what is stored is part of a scalar of the input. For `split`, the encoders and simple queries: they make no clones, so that no tokens are stored. Expected violation: a descendant segment clones each collection, and reads the clone to the end first.
* **C76 Arguments that can be combined.** The grammar gives the text of the combined query; the nodelists of the specification compose, if the second query does not depend on the root (induction over queries); what a query writes are nodes of the input, so that the second query may be applied to them; uniqueness of outcomes gives equivalence of the results of the program, also with arguments that follow. Expected violation: slices that go backward do not write values.
* **C77 The end of queries.** The number of tokens that a stream can still deliver bounds the rounds of all loops: an `Advance` that succeeds takes at least one token from the stream of its collection, values in a collection share its stream or are clones with not more tokens left, and no operation gives an old stream more tokens (`HeapEnds`). Loops, descents and comparisons are then bounded by what is left (`QueryEnds`, `QueryRuns`); contexts are new streams, so that the bound is taken anew after each of them. With the other transformers, decoders and encoders (C74) the program ends.
* **C78 Input that breaks off.** What the JSON and CSV decoders send is a prefix (C73, and `JsonTrunc` for input that ends); `EncTrunc` runs an encoder on two heaps that differ only in tokens behind the stream: until the shorter one is at its end the runs agree, and from then on the run on the shorter one writes nothing more. `split` by its description in `SplitPure`, `depth` by induction. Expected violations: `join` and the JPV decoder close what is open when the input ends.
* **C79 Strings and numbers are passed on.** `Origin` has a heap invariant (every token in the pool, the streams and the values has the property `P`) and a small logic of programs that keep it and write only tokens with `P`; all parts of the query engine follow the rules (`OriginPath`), and so do the encoders (`OriginEnc`), whose pieces are layout or bytes of a scalar with `P`. `JsonOrigin`, `JpvOrigin` and `CsvOrigin` show that a scalar of a decoder is a slice of the input, or is made of a field.
* **C80 UTF-8 in, UTF-8 out.** By C79 the output is made of layout and scalars of the decoder. These are slices of the input that begin and end with an ASCII character, or fields, and UTF-8 can be cut at ASCII characters (`Utf8Flow`); for CSV an invariant of the lines and fields that `encoding/csv` reads.
* **C81 No control characters in the output.** By C79 the output is made of layout and scalars of the decoder; the scalars of JSON and JPV are slices in which a control character comes after a backslash (`JsonOrigin`, `JpvOrigin`); fields of CSV by an invariant of the reader (`Utf8Flow`, `Cuts`). Violated: the escape of a raw control character is accepted, and CSV fields are not escaped.
* **C82 Formatting again changes nothing.** The tokens of the input are those of its values (C03), the output is a text of the same values (C01, C55), and token streams determine their values (`ParseToks`).
* **C83 Line endings and blank lines of CSV files.** The reader on a text does the same as a reader of lines on the text in which CRLF has become LF (`CsvGrammar`); the bounds of its loops, which depend on the length of the text, do not matter (`CsvFuel`). Without the last line feed the reader sees the same lines, but for the end of the last one, and reads the same (`CsvEnd`). Blank lines between records are skipped (`CsvBlank`).
* **C84 Names of CSV columns from the command line or from the first line.** The names split at commas are the record of a line (grammar of `Rfc4180`), and the decoder does the same with them. Expected to fail if the number of fields is not that of the names (`FieldsPerRecord`, see C68) and for quotes. Witnesses, plus `_partial`.
* **C85 White space in JPV input.** With the grammar of lines (`JpvSpec`) and what lines describe (C69), for the program.
* **C86 Other names of formats.** What `main` sets up is the same. Expected to fail for `csv-header` with the option of the same name, which is not in the check. Witness, plus `_partial`.

The plans above were written before the proofs; what was proved and what is missing
is said by the notes in `MANIFEST.json`.

## Disagreements between code and properties

Each is a theorem with a concrete input; the text is that of the theorem.

* `C02_violated`: Escapes that JSON does not have are accepted. The input is `"\q"`.
* `C07_violated`: For inputs with the byte 0xFF: the failure of the reader goes unnoticed.
* `C09_violated`: The byte 0xFF is taken for the end of input, so that what follows is not read. The input is `1`, 0xFF, `x`.
* `C10_violated`: For characters of three bytes: in `"€"x` the offending `x` is the fourth character (column 3 counting from 0), but is reported at column 4.
* `C15_violated`: An empty key is printed as nothing after a dot, which does not decode.
* `C15_violated_escape`: A key that consists of escapes is printed after a dot as well, without its quotes.
* `C16_violated`: C16 is false in the default mode, as C15: the line for an empty key does not decode.
* `C17_violated`: Decoding panics if a path is not followed by an equal sign (the decoder puts the byte back and then asks for its position).
* `C17_violated_shorter`: Decoding panics if the path of a line leads to a container of the previous one.
* `C17_violated_escape`: Decoding panics if keys with invalid escapes are compared.
* `C17_violated_index`: Decoding panics if indices beyond the range of `float64` are compared.
* `C18_violated`: If a value is cut, the deferred function closes the collections of the path, but not those of the value.
* `C18_violated_missing`: If a value is missing, so is it in the stream.
* `C19_violated`: Two arrays do not decode, since the second one starts with the same path as the first one.
* `C19_violated_merged`: Two objects with different keys are merged into one.
* `C21_violated`: A date becomes the number of its year.
* `C21_violated_control`: A tab is copied into the literal, which then is not a JSON string.
* `C21_misread_violated`: A field as long as the buffer that is misread becomes a number: a proper part of the field. (The result of a theorem about wrong behaviour: the claim is false of exactly these fields.)
* `C22_violated`: A tab is copied into the literal.
* `C24_violated`: There is no constant `K` such that the window is at most the lag of the slowest live cursor plus `K`: after `K + 1` reads by a lone cursor, which therefore does not lag at all, `K + 1` tokens are retained.
* `C25_violated`: Reading 101 tokens changes the caller's slice.
* `C25_second_reader_violated`: A second reader of the same slice then gets the end of the array as its first token.
* `C29_violated`: Different numbers are equal if they are rounded to the same `float64`.
* `C29_violated_panic`: Comparing different numbers that are out of the range of `float64` panics, and so does comparing strings with an invalid escape, which the JSON decoder accepts.
* `C31_violated`: C31 is false for arrays with an elision mark: for the stream `[...]`, join after split gives `[]`.
* `C32_violated`: C32 is false for streams with a key that denotes no string: the JSON decoder accepts the invalid escape `\q`, and a key spelled with it makes the extractor panic.
* `C34_violated`: `$[::-1]` on `[[1],[2]]` writes the starts of two arrays, without items and ends.
* `C34_violated_next`: `$[::-1]` on `[[1]] 5` writes the start of an array, and 5: the next value of the input is taken instead of the items.
* `C36_violated_start`: `$[-5::3]` on three items: RFC 9535 selects the first item, the code the second one.
* `C36_violated_reverse`: `$[9::-2]` on three items: RFC 9535 selects the last item and the first one, the code the second one.
* `C38_violated`: `$[::-1]` on `[[1],[2]]` writes the start of the items only.
* `C38_violated_follow`: A slice that goes backward also reverses what the following segments select: `$[::-1].*` on `[[1,2],[3,4]]` writes 4, 3, 2, 1 instead of 3, 4, 1, 2.
* `C39_violated`: With several selectors the order in strict mode is that of no selector after the other: `$..[1,0]` on `[[7],[8]]` writes [8], 7, 8, [7] instead of [8], [7], 7, 8.
* `C39_violated_backward`: With one selector as well, if it goes backward: `$..[:0:-1]` on `[[3,4],1,2]` writes 4, 2, 1 instead of 2, 1, 4, because the nodes are kept until the descendants are done.
* `C40_violated`: `$[?@["a","b"]]` selects nothing from `[{"b":1}]`, because the result of the last selectors is dropped.
* `C41_violated`: Numbers that are rounded to the same `float64` are equal.
* `C41_violated_range`: Comparing numbers that are out of the range of `float64` panics.
* `C42_violated_length`: The length of an object is 0: `$[?length(@)==count(@.*)]` on `[{"a":1}]` writes nothing.
* `C42_violated_value`: `value` of a collection is lost: `$[?value(@[0])==@[0]]` on `[[[3]]]` writes nothing.
* `C42_violated_many`: `value` of three nodes can be the third: `$[?value(@.*["b","a"])==@[0].a]` on `[[{"a":1},{"a":1},{"a":1}]]` writes the item.
* `C42_violated_match`: When the leftmost-first match is not the whole string, `match` fails, even if another match is the whole string: `$[?match(@,"a|ab")]` on `["ab"]` writes nothing.
* `C43_violated`: `$[?@==$.x]` on `[1]` panics instead of comparing with nothing.
* `C44_violated_missing`: `$[?@==$.x]` on `[1]` panics, because the rooted singular query selects nothing.
* `C44_violated_backward`: `$.a[::-1]` on `{"a":[[1]],"b":2}` panics. The item is written after it was discarded, and so takes the rest of the object from the stream.
* `C44_violated_scalar`: `$[?$.a]` on `1` panics, because the root is a scalar.
* `C44_violated_pattern`: `$[?match(@,"(")]` on `["a","b"]` panics: the first use of a pattern that the library rejects enters nil into the cache, the second one calls a method of it.
* `C45_violated`: `length` consumes the value of the entry, so that it is 0 the second time: `$[?length($[0])==count($[0].*)]` on `[[2],[2]]` writes the first item only.
* `C46_violated`: `$..[9007199254740992]` is accepted.
* `C48_violated`: Compiling the pattern `(` gives an error the first time, and nil without an error the second time.
* `C49_violated_jpv`: JPV is never recognised.
* `C49_violated_json`: A JSON array after a space is taken for CSV, and a JSON number is not recognised.
* `C49_violated_pipeline`: What the program prints with `-out jpv`, read again without `-in jpv`: an error.
* `C51_violated_empty`: It fails for the empty string, which is flagged as alphanumeric.
* `C51_violated_escape`: It fails for strings with escapes: `"\n"` is flagged as alphanumeric.
* `C51_violated_csv`: It fails for an empty CSV header, whose key is flagged as alphanumeric.
* `C52_violated`: A byte `0xFF` is taken for the end, so that anything is accepted behind it.
* `C54_violated_error`: The text `@` is not a query, but it is accepted, as the query `$`: the error of the parser is lost.
* `C54_violated_blanks`: Blanks before a query are accepted.
* `C54_violated_formfeed`: A form feed is accepted as a blank.
* `C54_violated_singular`: Blanks in the brackets of a singular query are accepted.
* `C54_violated_descendant`: An error in brackets after two dots is lost: an integer that is out of range is accepted there, and the segment is replaced by one without selectors.
* `C55_violated`: `jp '$[-5::3]'` on `[1,2,3]` writes 2; the specification selects 1 (cause: see `C36`).
* `C55_violated_panic`: `jp '$[::-1]'` on `[[1],[2]]` writes `[`, a newline and `[`, and ends with status 0, because the encoder panics.
* `C56_violated`: A blank after a query is accepted.
* `C57_violated`: The guess of the input format uses only the bytes of the first read: a table with a header is rejected if the first read delivers only one byte.
* `C58_violated`, `C58_violated_panic`: After a syntax error in the input the exit status is 0, also if the encoder panics because the input ends too early.
* `C59_violated`: In compact arrays, after a scalar that is wider than the limit, every later scalar gets a line of its own: the running width is not reset (`encoding/json/encoder.go:202-234`).
* `C60_violated_colors`: Strings are green and not yellow, booleans are yellow and not green, null is dim white and not green.
* `C60_violated_fallback`, `C60_violated_scalar`: If the format cannot be guessed the program ends with a fatal error; the help says that it falls back to JSON.
* `C60_violated_query`: The help has a query with the operator `=~`, which is rejected.
* `C61_violated`, `C61_violated_merged`: `jp -out jpv` writes an empty key such that `jp -in jpv` cannot read it, and two objects are merged (see C15 and C19).
* `C60_violated_width`: The help says that `[95, 87, 92]` is split with `-json-compact-width 10`; its width is exactly 10 and it is not split.
* `C62_violated`: `jp -out jpv -json-lines` writes all pairs of a value on one line, without a separator: `$[0] = 1$[1] = 2`.
* `C63_violated`, `C63_violated_empty`: `jp '$[0]' | jp` ends with status 1 if the result is a scalar or if there is no result, because the format is not recognised.
* `C63_violated_depth`: What `depth` writes is not JSON, so that `jp depth=0 | jp` reports an error.
* `C64_violated_strict`: The help text documents `-strict`, but the option is called `-jsonpath-strict`: with `-strict` the program ends with status 2.
* `C64_violated_colors`: `-colors=false` switches colours on, and `-nocolors=false` switches them off.
* `C65_violated`: Contrary to README and help ("stops reading after N items", "Works on infinite streams!"), `jp '$[:1]'` reads the rest of the array and the rest of the input: on `[1,2]x` it reports the error behind the array.
* `C65_violated_pipe`: If the standard output is not a terminal, nothing is written before 4096 bytes have come together or the input ends; `tail -f log | jp … | grep …` is not immediate, as README and help say.
* `C66_violated`: If a transformer panics (on input that ends too early, e.g. `[1] [` with `split`), the program crashes, and it depends on the schedule how much has been written before that.
* `C67_violated`: The error of the deferred `out.Flush()` (`cmd/jp/main.go:210`) is ignored: on a full disk, up to 4096 bytes at the end of the output (all of it if it is short) are lost, with status 0 and without a message.
* `C68_violated_ragged`, `C68_violated_program`: A CSV record with another number of fields than the first one ends the input with an error, because the decoder does not set `FieldsPerRecord` of `csv.Reader` to -1. A test of the repository says that such a file should still parse, but does not look at the error. So the names `field_N` can only occur with `-csv-header`.
* `C68_violated_crlf`, `C68_violated_blank`: In quoted CSV fields CRLF becomes LF, and a record with one empty field vanishes (both properties of Go's library).
* `C69_violated`, `C69_violated_zero`, `C69_violated_surrogate`: The JPV decoder takes different indices from 2^53 on for the same, and all indices that start with the digit 0 (`[01]`, `[02]`), and keys that are different lone surrogates; so the second of two such lines is refused.
* `C70_violated_match`: `match` compares the leftmost-first match of Go with the whole string, so `match(@, 'a|ab')` is false for `ab`.
* `C70_violated_anchor`, `C70_violated_zero`, `C70_violated_count`: `^` and `$` are ordinary characters in RFC 9485, but anchors in Go; `a{01}` is a count in RFC 9485, but literal in Go; counts over 1000 are rejected by Go.
* `C71_violated_nan`: `Float64Scalar` makes the number literals `NaN`, `+Inf` and `-Inf`, which are not JSON and make `ToGo` and `Equal` panic.
* `C71_violated_utf8`, `C71_violated_int`: strings that are not UTF-8 and integers above 2^53 do not come back; different integers make equal scalars.
* `C72_violated`: the name of a CSV column with a quote, line feed or backslash is not flagged as a key, so it is written in the colour for strings.
* `C73_violated_jpv`: as in C07, a failure of the reader behind the byte 0xFF goes unnoticed.
* `C73_violated_csv`: a failure of the reader between the carriage return and the line feed after a quoted field is reported as a stray quote (by Go's `encoding/csv`).
* `C74_violated_split`, `C74_violated_query`: `jp split` and `jp '$[*]'` crash with a Go stack trace if the input ends inside of an array (`[1,2`), instead of reporting an error.
* `C74_violated_missing`, `C74_violated_pattern`, `C74_violated_jpv`: the panics of C44 and C17 crash the program.
* `C75_violated`: `$..a` stores a whole inner array (all of `[[1,…,1]]`) before going on, also in the default mode and if it selects nothing, contrary to doc.go (constant memory) and to the README, by which in default mode "descendant queries process items immediately".
* `C76_violated`: with the input `[[1],[2]]`, `jp '$[::-1][0]'` writes 2 and 1, but `jp '$[::-1]' '$[0]'` crashes: the first query writes two starts of arrays.
* `C78_violated_join`, `C78_violated_jpv`: `join` and the JPV decoder make input that breaks off look complete: if reading fails after `[1,`, then `jp join` writes the array `[1]`, and if it fails after the line `$[0] = 1`, `jp -in jpv` writes `[1]`.
* `C81_violated_json`: after a backslash the JSON decoder accepts any byte, also a raw control character (`encoding/json/decoder.go:246-266`); `"\<ESC>c"` is taken for JSON and written as it is, so that data can send control sequences to the terminal.
* `C81_violated_csv`: control characters of CSV fields other than line feeds are not escaped (`encoding/csv/decoder.go:131-158`), and reach the terminal.
* `C84_violated`, `C84_violated_quotes`: With `-csv-header a,b` the record `1` is accepted (`{"a": 1}`), while with the line `a,b` in the file it is an error. Names on the command line cannot be quoted, so that names with commas cannot be given.
* `C86_violated`: `-csv-header` is refused with `-in csv-with-header` and `-in csvh`, but with `-in csv-header` it is accepted and ignored.

Found by reading, without a theorem:

* `FunctionRunner.EvaluateNodesResult` panics (it cannot be reached from the compiler).
* `Collection.Done()` of the interface has no implementation.
* The JSON decoder does not check that strings are UTF-8 (see C02).
* The JPV encoder does not reset its path after an error of the printer.
* README: `null` in CSV cells is said to be parsed; it becomes a string.
* `knownIRegexps` (`internal/jsonpath/iregexp`) is a global map without a lock; queries run in several goroutines
  of one process, so that their writes may collide.
* `Pipe` in `internal/scanner/bufreader.go` is an unused stub.

## Axioms

All theorems of `MANIFEST.json` depend at most on `propext`, `Classical.choice` and
`Quot.sound`, as printed by the audit of the gate.  No file declares an axiom; no
module of Mathlib is imported.

