{"id": "C01", "title": "JSON encode/decode round trip", "statement": "For every sequence of JSON values given as a well-formed token stream without elisions and with valid literals, writing it with the JSON encoder (no colours) and reading the bytes back with the JSON decoder produces the same sequence of tokens, whatever indent size, compact width limit and compact object size are configured.", "quantifier": "all finite sequences of JSON values of any depth and width, all integer indent sizes, all compact width limits and object item limits", "why_tests_cant": "values and formatting options are both unbounded and interact (compaction decides per item where line breaks and separators go); tests check a handful of (value, options) pairs", "anchors": ["encoding/json/encoder.go: Encoder.Consume, writeValue, writeObject, writeObjectCompact, writeArray, writeArrayCompact", "encoding/json/decoder.go: Decoder.Produce", "internal/format/printer.go: DefaultPrinter"]}
{"id": "C02", "title": "JSON decoder accepts only JSON", "statement": "If the JSON decoder consumes an input without reporting an error, then the input is a whitespace-separated (or adjacent) sequence of texts of the RFC 8259 grammar.", "quantifier": "all byte strings", "why_tests_cant": "it is a statement about every rejected and accepted input; a fuzzer only samples it", "anchors": ["encoding/json/decoder.go: Decoder.Produce, ParseValue, ParseString, ParseNumber, parseArray, parseObject"]}
{"id": "C03", "title": "JSON decoder accepts all JSON, with the right tokens", "statement": "Every sequence of RFC 8259 texts, with any insignificant whitespace, is accepted by the JSON decoder, and the emitted tokens are exactly the token sequence of the value: literal bytes of each scalar, key flag exactly on object keys, start and end markers in document order.", "quantifier": "all byte strings derivable from the RFC 8259 grammar", "why_tests_cant": "the grammar derives infinitely many texts with unbounded nesting", "anchors": ["encoding/json/decoder.go: Decoder.Produce, ParseValue, ParseString, ParseNumber, parseArray, parseObject"]}
{"id": "C04", "title": "Decoded streams are well formed", "statement": "Whenever a JSON decode run succeeds the emitted token stream is a concatenation of complete values (balanced brackets of matching kind, object members are key-value pairs, keys are strings flagged as keys); when it fails the emitted tokens are a prefix of such a stream.", "quantifier": "all byte strings", "why_tests_cant": "the balance property involves an unbounded stack; failing inputs are infinitely many", "anchors": ["encoding/json/decoder.go: Decoder.Produce, ParseValue, parseArray, parseObject"]}
{"id": "C05", "title": "JSON decoding never panics", "statement": "Decoding any input from any reader, including readers that fail or stop making progress, ends with a normal return (nil or an error), never with a panic such as 'cannot go back twice', and it terminates.", "quantifier": "all byte strings, all reader behaviours", "why_tests_cant": "panics would need one special input and chunking out of infinitely many", "anchors": ["encoding/json/decoder.go", "internal/scanner/scanner.go: Scanner.Back, StartToken, EndToken, fillBuf"]}
{"id": "C06", "title": "Decoding does not depend on how the input arrives", "statement": "The tokens emitted and the outcome of decoding (JSON or JPV) are a function of the input bytes only: they are the same for every way the reader cuts the input into reads (including empty reads and data returned together with EOF) and every buffer size of at least 2.", "quantifier": "all byte strings, all read schedules that make progress, all buffer sizes >= 2", "why_tests_cant": "the interaction of token boundaries with buffer refills depends on the exact alignment; the number of schedules is exponential", "anchors": ["internal/scanner/scanner.go: Scanner.fillBuf, Read, Peek, Back, SkipSpaceAndPeek, SkipSpaceAndRead, StartToken, EndToken"]}
{"id": "C07", "title": "Reader failures are reported and truncate", "statement": "If the reader fails after delivering some bytes, JSON decoding returns that error, unless it already failed on a syntax error in the bytes delivered, and the tokens emitted are a prefix of the tokens emitted for any input that extends the delivered bytes.", "quantifier": "all delivered byte strings, all continuations, all read schedules", "why_tests_cant": "quantifies over the point of failure and all continuations", "anchors": ["internal/scanner/scanner.go: Scanner.Read, Peek, errOrEOF", "encoding/json/decoder.go"]}
{"id": "C08", "title": "Streaming: tokens emitted so far never change", "statement": "The tokens the JSON decoder emits before it needs to look past the first n bytes of the input are determined by those bytes: for two inputs with a common prefix, the outputs agree on everything emitted while reading the common prefix.", "quantifier": "all pairs of byte strings with a common prefix", "why_tests_cant": "a two-run (hyper) property over all inputs", "anchors": ["encoding/json/decoder.go: Decoder.Produce, ParseValue"]}
{"id": "C09", "title": "Every byte of the input counts", "statement": "Decoding processes the whole input: if the decoder reports success, no non-whitespace byte of the input is left unread; in particular no byte value inside the input is taken for the end of input.", "quantifier": "all byte strings", "why_tests_cant": "the offending byte value (0xFF) never occurs in test files", "anchors": ["internal/scanner/scanner.go: EOF, Scanner.Read, Peek, SkipSpaceAndPeek", "encoding/json/decoder.go: Decoder.Produce, checkEOF"]}
{"id": "C10", "title": "Positions in syntax errors", "statement": "The line number in a syntax error is one plus the number of newline bytes before the offending byte, and the column is one plus the number of characters (code points) between the last newline and the offending byte.", "quantifier": "all inputs that are valid UTF-8, all positions", "why_tests_cant": "tests look at ASCII inputs; the counting rule has to hold for all UTF-8 encodings", "anchors": ["internal/scanner/scanner.go: Scanner.Read, SkipSpaceAndPeek, SkipSpaceAndRead, Back", "encoding/json/decoder.go: UnexpectedByte"]}
{"id": "C11", "title": "Formatting options only change whitespace", "statement": "For a fixed stream of values, the outputs of the JSON encoder under two different settings of indent size, compact width and compact object size are equal once whitespace outside strings is removed, and equal to the minimal JSON text of the values.", "quantifier": "all streams of values (with or without elisions), all pairs of formatting settings", "why_tests_cant": "unbounded values times unbounded settings", "anchors": ["encoding/json/encoder.go", "internal/format/printer.go"]}
{"id": "C12", "title": "Indentation is balanced", "statement": "After writing any value the printer's indentation level is the one before, it never goes below the starting level during the write, and every line inside the value is indented by exactly indent size times nesting level.", "quantifier": "all values, all formatting settings", "why_tests_cant": "compaction takes different code paths for each item width pattern; the level is an accumulated state", "anchors": ["encoding/json/encoder.go: writeObject, writeObjectCompact, writeArray, writeArrayCompact", "internal/format/printer.go: Indent, Dedent, NewLine, Reset"]}
{"id": "C13", "title": "Write failures are reported and leave a prefix", "statement": "If the output writer fails at its n-th write, the encoder returns that error, and the bytes accepted before are exactly a prefix of the bytes a failure-free run writes; if it never fails the encoder returns no error.", "quantifier": "all streams of values, all failure points, all formatting settings", "why_tests_cant": "the failure point ranges over every write of every run", "anchors": ["internal/format/printer.go: DefaultPrinter, CatchPrinterError", "encoding/json/encoder.go: Consume", "encoding/jpv/encoder.go: Consume"]}
{"id": "C14", "title": "Colours are only decoration", "statement": "With a colorizer whose codes are escape sequences, removing from the encoder output each colour code and reset code gives the uncoloured output, and each scalar is preceded by the code of its kind (key code for keys) and followed by the reset code.", "quantifier": "all streams, all formatting settings, all colour tables", "why_tests_cant": "unbounded values; colours are normally switched off in tests", "anchors": ["internal/format/colorizer.go: Colorizer.PrintScalar, PrintSuccintScalar, ScalarColorCode", "encoding/json/encoder.go", "encoding/jpv/encoder.go"]}
{"id": "C15", "title": "JPV is reversible", "statement": "Converting a JSON value to JPV and back gives the same value: decoding the JPV encoder's output yields the token stream that was encoded.", "quantifier": "all JSON values with distinct sibling keys, both key quoting modes", "why_tests_cant": "README promises it for all values; tests cover a few", "anchors": ["encoding/jpv/encoder.go: Encoder.Consume, writePath", "encoding/jpv/decoder.go: Decoder.Produce, parsePath, updatePath"]}
{"id": "C16", "title": "JPV subset property", "statement": "Any selection of the lines of the JPV form of a value, in the original order, decodes without error to a well-formed stream: the value with the removed leaves (and the containers that became empty) removed, arrays closing up.", "quantifier": "all JSON values with distinct sibling keys, all subsets of their JPV lines", "why_tests_cant": "2^n subsets per value, unbounded values", "anchors": ["encoding/jpv/decoder.go: updatePath, followPath, unwindPath", "README.md: The JPV Format, subset property"]}
{"id": "C17", "title": "JPV decoding never panics", "statement": "Decoding any bytes as JPV ends with a normal return (nil or an error), never with a panic.", "quantifier": "all byte strings", "why_tests_cant": "arbitrary malformed inputs", "anchors": ["encoding/jpv/decoder.go: parseLine, updatePath"]}
{"id": "C18", "title": "JPV decoding emits well-formed streams", "statement": "Whenever JPV decoding returns (with or without an error) the tokens it has emitted form a sequence of complete values.", "quantifier": "all byte strings", "why_tests_cant": "arbitrary malformed inputs; the closing tokens are emitted by a deferred function on every exit path", "anchors": ["encoding/jpv/decoder.go: Produce, updatePath, unwindPath, followPath"]}
{"id": "C19", "title": "JPV streams of several values", "statement": "Encoding a stream of several values as JPV and decoding it yields the same stream of values.", "quantifier": "all streams of two or more values", "why_tests_cant": "tests encode one value at a time", "anchors": ["encoding/jpv/encoder.go: Consume", "encoding/jpv/decoder.go: Produce, updatePath"]}
{"id": "C20", "title": "CSV record shape", "statement": "Every CSV record becomes exactly one value: an array with one item per field, or (object mode) an object with one member per field in field order, whose keys are the header names, completed by field_1, field_2, ... for positions without a name; a record taken as header produces no output.", "quantifier": "all lists of records of any widths, both modes, with or without header, any preset names", "why_tests_cant": "ragged records of unbounded number; the names list grows as a state across records", "anchors": ["encoding/csv/decoder.go: Produce, produceRecord, getFieldName, SetFieldNames"]}
{"id": "C21", "title": "CSV fields keep their content", "statement": "The scalar made from a CSV data field denotes the field's text: null for the empty field, the booleans for true and false, a number only if the whole field is a JSON number (with exactly these bytes), and otherwise a string that denotes exactly the field's characters.", "quantifier": "all field byte strings", "why_tests_cant": "fields that only start like a number (dates, versions, phone numbers) are infinitely many", "anchors": ["encoding/csv/decoder.go: fieldToScalar, csvFieldToStringScalar, simpleCSVFieldToStringScalar"]}
{"id": "C22", "title": "CSV output is valid JSON", "statement": "Every scalar produced from a CSV field is a valid JSON literal, so that re-reading the JSON written from a CSV file succeeds.", "quantifier": "all field byte strings that are valid UTF-8", "why_tests_cant": "control characters inside quoted CSV fields do not occur in tests", "anchors": ["encoding/csv/decoder.go: fieldToScalar, csvFieldToStringScalar"]}
{"id": "C23", "title": "Cursors are independent readers", "statement": "However the operations next, clone, detach and new-cursor of any number of cursors on one stream are interleaved, each cursor returns exactly the tokens of the stream from its creation point on, in order, each once; no operation on one cursor affects what another returns and the internal consistency panics are unreachable.", "quantifier": "all streams, all finite sequences of cursor operations over any number of cursors", "why_tests_cant": "exponentially many interleavings; the window is shifted only after 100 catch-up steps", "anchors": ["token/cursor.go: CursorPool, Cursor"]}
{"id": "C24", "title": "Cursor memory is bounded by cursor lag", "statement": "The number of tokens a cursor pool retains is bounded by the distance between the slowest live cursor and the furthest read token plus a constant.", "quantifier": "all finite sequences of cursor operations", "why_tests_cant": "leaks show only on long runs", "anchors": ["token/cursor.go: AdvanceCursor, updateCatchupCount, advanceWindow"]}
{"id": "C25", "title": "Data-backed cursors do not damage the data", "statement": "A cursor over a given slice of tokens delivers that slice, and reading it does not change the caller's slice, so several cursors over the same slice are independent.", "quantifier": "all token slices, all interleavings", "why_tests_cant": "the in-place shift happens only after more than 100 reads", "anchors": ["token/cursor.go: NewCursorFromData, advanceWindow"]}
{"id": "C26", "title": "Skipping and partial reading keep the stream in step", "statement": "However far the caller looks into a value delivered by a stream iterator (not at all, partially, completely, at any depth), the next advance delivers exactly the next value of the stream.", "quantifier": "all well-formed streams, all partial traversals", "why_tests_cant": "the set of partial traversals of a nested value is exponential in its size", "anchors": ["iterator/streamiterator.go: Iterator.Advance, collectionBase.Discard, Object.Advance, Array.Advance"]}
{"id": "C27", "title": "Copy reproduces the value", "statement": "Copying an unstarted value writes exactly the tokens of this value, and leaves the stream positioned right behind it; traversing the value member by member and copying each member writes the same members.", "quantifier": "all well-formed streams, including elided collections", "why_tests_cant": "unbounded values", "anchors": ["iterator/streamiterator.go: collectionBase.Copy, Scalar.Copy, Object.Advance, Array.Advance"]}
{"id": "C28", "title": "Clones are independent of the original", "statement": "After cloning an unstarted value, the clone and the original can be read in any interleaving (and either may be abandoned); both deliver the same complete value and the enclosing stream stays in step.", "quantifier": "all well-formed streams, all interleavings of reads on original and clones, clones of clones", "why_tests_cant": "interleavings are exponential; tests exercise single orders", "anchors": ["iterator/streamiterator.go: collectionBase.clone, Object.Clone, Array.Clone", "token/cursor.go: CloneReadStream, Cursor.Clone"]}
{"id": "C29", "title": "Value equality is JSON equality", "statement": "Comparing two values yields true iff they denote the same JSON value: same scalars up to representation (escapes, number notation), arrays equal item by item, objects equal as unordered sets of members.", "quantifier": "all pairs of values with distinct sibling keys", "why_tests_cant": "unbounded values and all permutations of members", "anchors": ["iterator/streamiterator.go: Object.Equal, Array.Equal, Scalar.Equal, SafeValuesEqual", "token/tokens.go: Scalar.Equal"]}
{"id": "C30", "title": "Depth limiting", "statement": "Limiting a stream to depth d keeps exactly the tokens at nesting depth at most d and marks each collection opened at depth d as elided; the result is well formed with nesting at most d+1; limiting to m after n is limiting to min(m,n).", "quantifier": "all well-formed streams, all depths (also negative)", "why_tests_cant": "unbounded nesting", "anchors": ["transform/builtin.go: MaxDepthFilter.Transform"]}
{"id": "C31", "title": "Split and join are inverse", "statement": "Joining a stream of values gives one array with these values, splitting an array gives the stream of its items; split after join is the identity on streams, and join after split is the identity on a stream that is a single array; non-arrays pass split unchanged.", "quantifier": "all well-formed streams", "why_tests_cant": "unbounded", "anchors": ["transform/builtin.go: ExplodeArray.TransformValue, JoinStream.Transform", "iterator/transformer.go: valueTransformerAdapter.Transform"]}
{"id": "C32", "title": "Legacy key extraction", "statement": "The .key transform yields, for each object of the stream, the values of its members with that key in order (and nothing for other values); the ...key transform yields in document order the values of all members with that key anywhere that are not themselves inside a value already extracted.", "quantifier": "all well-formed streams, all keys", "why_tests_cant": "unbounded nesting", "anchors": ["internal/legacy/transformers.go: KeyExtractor, DeepKeyExtractor"]}
{"id": "C33", "title": "Pipelines are deterministic", "statement": "A pipeline of a source, any number of stages connected by unbuffered channels and a sink that reads to the end delivers the composition of the stages applied to the source's tokens, whatever the goroutine scheduling, and cannot deadlock.", "quantifier": "all sources, all lists of stages that consume their whole input, all schedules", "why_tests_cant": "schedules are exponentially many and tests run only one", "anchors": ["token/pipeline.go: StartStream, TransformStream, ConsumeStream", "token/tokenstream.go: ChannelReadStream, ChannelWriteStream"]}
{"id": "C34", "title": "Output of transforms and queries is well formed", "statement": "For a well-formed input stream every built-in transform and every JSONPath query outputs a well-formed stream of complete values.", "quantifier": "all well-formed streams, all transforms, all queries", "why_tests_cant": "unbounded inputs and queries", "anchors": ["transform/builtin.go", "transform/jsonpath/queryrunner.go: MainQueryRunner.Transform, streamWritingProcessor", "iterator/streamiterator.go: collectionBase.Copy"]}
{"id": "C35", "title": "JSONPath index selectors", "statement": "The selector [i] applied to an array with n items selects the item with index i if 0 <= i < n, the item with index n+i if -n <= i < 0, and nothing otherwise.", "quantifier": "all arrays, all integers within the I-JSON range", "why_tests_cant": "array length and index unbounded; negative indices are resolved by a look-ahead window", "anchors": ["transform/jsonpath/selectorrunners.go: IndexSelectorRunner", "transform/jsonpath/segmentrunner.go: transformArrayRelaxed, transformArrayStrict"]}
{"id": "C36", "title": "JSONPath slice selectors", "statement": "The selector [start:end:step] selects exactly the items, in the order, given by the RFC 9535 slice algorithm (normalised and clamped bounds).", "quantifier": "all arrays, all optional starts, ends and steps within the I-JSON range", "why_tests_cant": "four unbounded parameters; the implementation never materialises the array but decides with a bounded look-ahead", "anchors": ["transform/jsonpath/compiler.go: compileSliceSelector", "transform/jsonpath/selectorrunners.go: SliceSelectorRunner, ReverseSliceSelectorRunner"]}
{"id": "C37", "title": "Look-ahead is sufficient", "statement": "Deciding with the truncated negative index that a window of Lookahead items provides gives, for every selector kind, the same selection as deciding with the exact negative index, and once a selector announces that there is nothing more, it selects none of the following items.", "quantifier": "all arrays, all selectors of a segment (whose windows are shared), all item positions", "why_tests_cant": "off-by-one errors in the window show only for specific (length, index) pairs", "anchors": ["transform/jsonpath/selectorrunners.go: Lookahead, SelectsFromIndex", "transform/jsonpath/segmentrunner.go: transformArrayRelaxed"]}
{"id": "C38", "title": "JSONPath child segments produce RFC order", "statement": "A child segment [s1, s2, ...] applied to a collection yields all nodes selected by s1, then all selected by s2, and so on, each (node, selector) pair once, also when more segments follow.", "quantifier": "all collections, all selector lists, all following segments", "why_tests_cant": "the streaming dispatcher interleaves and buffers; every combination of early-finished selectors is a different path", "anchors": ["transform/jsonpath/segmentrunner.go: itemDispatcher, selectorState"]}
{"id": "C39", "title": "JSONPath descendant segments", "statement": "In strict mode a descendant segment visits a node before its descendants, the descendants of array items in order, and yields the RFC 9535 nodelist; in default mode it yields the same nodes, as a multiset, for each selector, item by item.", "quantifier": "all values, all selector lists, all following segments", "why_tests_cant": "unbounded recursion", "anchors": ["transform/jsonpath/segmentrunner.go: transformObjectStrict, transformArrayStrict, transformObjectRelaxed, transformArrayRelaxed"]}
{"id": "C40", "title": "JSONPath existence tests", "statement": "A filter test that is a query is true iff the query selects at least one node.", "quantifier": "all queries, all values", "why_tests_cant": "the streaming evaluation stops at the first match; whether a match is buffered depends on selector order and data", "anchors": ["transform/jsonpath/queryrunner.go: QueryEvaluator.EvaluateTruth, haltingProcessor", "transform/jsonpath/segmentrunner.go"]}
{"id": "C41", "title": "JSONPath comparisons", "statement": "Comparison operators in filters follow RFC 9535 table: an absent operand equals only an absent operand; < and > hold only between numbers or between strings, by numeric and code-point order; == is JSON equality; <= is < or ==; != is the negation of ==.", "quantifier": "all pairs of operands (absent, scalar or structured), all six operators", "why_tests_cant": "unbounded operands", "anchors": ["transform/jsonpath/logicalevaluators.go: ComparisonEvaluator, checkEqual, checkLessThan", "transform/jsonpath/compiler.go: compileComparison"]}
{"id": "C42", "title": "JSONPath function extensions", "statement": "length, count, value, match and search compute what RFC 9535 specifies: number of characters, items or members; number of nodes; the value of a single-node nodelist (otherwise nothing); whole-string and substring regular expression match.", "quantifier": "all arguments, evaluated any number of times", "why_tests_cant": "results depend on whether shared values were consumed by earlier evaluations", "anchors": ["transform/jsonpath/function.go: run_length, run_count, run_value, run_match, run_search", "transform/jsonpath/functionrunnner.go: FunctionRunner.run"]}
{"id": "C43", "title": "Singular queries", "statement": "A singular query in a comparison evaluates to the value of the unique node it selects or to nothing, and evaluates the same way each time; evaluation of a filter leaves the tested item unconsumed.", "quantifier": "all values, all singular queries (relative or rooted), repeated evaluation", "why_tests_cant": "the tested value is a stream which reading would consume", "anchors": ["transform/jsonpath/comparableevaluators.go: SingularQueryRunner, NameSingularSelectorRunner, IndexSingularSelectorRunner", "transform/jsonpath/queryrunner.go: computeRunContext"]}
{"id": "C44", "title": "Filters on the root never crash", "statement": "Applying any compiled query to any well-formed stream terminates normally, without panics.", "quantifier": "all queries, all well-formed streams", "why_tests_cant": "needs queries with rooted subqueries on unusual inputs (scalar roots, missing members)", "anchors": ["transform/jsonpath/queryrunner.go: MainQueryRunner.computeRunContext"]}
{"id": "C45", "title": "Rooted subqueries are shared soundly", "statement": "Replacing each rooted subquery of a filter by a table entry computed once per input value (entries for equal subqueries being shared) does not change the meaning, and an entry only ever needs entries computed before it.", "quantifier": "all queries with nested rooted subqueries", "why_tests_cant": "unbounded nesting and sharing patterns", "anchors": ["transform/jsonpath/compiler.go: compileInnerQuery, compileSingularQuery, getInnerQueries", "transform/jsonpath/queryrunner.go: computeRunContext"]}
{"id": "C46", "title": "Integer literals", "statement": "An integer in a query is accepted iff it is within the I-JSON range [-(2^53-1), 2^53-1], wherever it occurs, and an out-of-range integer makes the query invalid.", "quantifier": "all integer literals in all positions of all queries", "why_tests_cant": "positions of literals in the syntax tree are unbounded", "anchors": ["internal/jsonpath/parser/parse_literals.go: parseInt", "internal/jsonpath/parser/grammar.go: CompileToSelector, DescendantSegment.CompileToSegment, FunctionExpr.CompileToFunctionExpr"]}
{"id": "C47", "title": "Single-quoted string literals", "statement": "A single-quoted string literal of the query syntax denotes the same string as RFC 9535 assigns to it: the conversion to a double-quoted JSON string preserves the denotation.", "quantifier": "all single-quoted string literals accepted by the lexer", "why_tests_cant": "interaction of backslashes and both quote characters in all combinations", "anchors": ["internal/jsonpath/parser/parse_literals.go: parseSingleQuotedString", "internal/jsonpath/parser/lexer.go"]}
{"id": "C48", "title": "I-Regexp translation", "statement": "The translation to Go regular expressions replaces exactly the unescaped dots outside character classes, and compiling a pattern twice gives the same result as compiling it once.", "quantifier": "all patterns, all sequences of compilations", "why_tests_cant": "the cache is global state shared by all evaluations; patterns are unbounded", "anchors": ["internal/jsonpath/iregexp/iregexp.go: iregexpString, Compile"]}
{"id": "C49", "title": "Input format detection", "statement": "Format detection by content recognises the documented formats: input starting with a JPV path is recognised as JPV, a JSON value as JSON.", "quantifier": "all inputs", "why_tests_cant": "detection depends on a prefix of arbitrary data", "anchors": ["cmd/jp/main.go: guessFormat, formatGuessers"]}
{"id": "C50", "title": "Scalar flags are independent of the type", "statement": "The type of a scalar and the three flags (key, alphanumeric, unescaped) are stored independently: setting a flag changes neither the type nor another flag, and every combination is represented.", "quantifier": "all byte values of the type-and-flags field", "why_tests_cant": "256 values, all operations", "anchors": ["token/tokens.go: Scalar.Type, IsKey, IsAlnum, IsUnescaped, NewScalar, NewKey"]}
{"id": "C51", "title": "Alphanumeric flag is accurate", "statement": "A string scalar flagged alphanumeric by a decoder is an identifier: its content is non-empty, starts with a letter or underscore, and contains only letters, digits and underscores; and such strings without escapes are flagged.", "quantifier": "all strings", "why_tests_cant": "empty strings and escaped characters are easy to miss", "anchors": ["encoding/json/decoder.go: ParseString", "encoding/csv/decoder.go: fieldToScalar", "encoding/jpv/encoder.go: writePath"]}
{"id": "C52", "title": "The JPV decoder accepts only JPV", "statement": "If JPV decoding succeeds, the whole input is a sequence of lines `$path = value`, where a path is made of `.name`, `[\"string\"]` and `[index]` and a value is a JSON text.", "quantifier": "all byte strings, all read schedules", "why_tests_cant": "a test can only show that some wrong inputs are rejected", "anchors": ["encoding/jpv/decoder.go: Produce, parseLine, parsePath"]}
{"id": "C53", "title": "Function expressions are checked for types", "statement": "A query whose syntax is right is accepted by the compiler if and only if its function expressions are well typed by RFC 9535: every function is one of length, count, match, search and value, it has as many arguments as parameters, each argument fits the type of its parameter (a value parameter takes literals, singular queries and functions with values as results; a nodes parameter takes queries), and the result fits the place (a test or a comparison).", "quantifier": "all syntax trees of queries, with filters, functions and subqueries nested to any depth", "why_tests_cant": "the rule must hold at every place of an unbounded nesting, also inside subqueries that are looked up in the table of rooted queries instead of being compiled again", "anchors": ["transform/jsonpath/compiler.go: CompileQuery, compileCondition, compileComparable, compileFunctionExpr, compileFunctionArg", "transform/jsonpath/function.go: DefaultFunctionRegistry, ConvertsTo", "internal/jsonpath/ast/ast.go: AsSingularQuery"]}
{"id": "C54", "title": "The parser accepts exactly the queries of RFC 9535", "statement": "A text is accepted by the strict parser and the compiler if and only if it is derived from the grammar of RFC 9535 (appendix A), with integers in range and well typed function expressions; and then it is read as the syntax tree that it denotes, in particular with the precedence of the logical operators and the strings and numbers denoted by the literals.", "quantifier": "all byte strings that are UTF-8", "why_tests_cant": "the tokeniser and the parser commit to the first alternative that matches, so each text may be cut or grouped in a wrong way; tests (also the compliance test suite) try a few hundred texts", "anchors": ["internal/jsonpath/parser/lexer.go: tokenise", "internal/jsonpath/parser/grammar.go: ParseQueryString, ParseQueryStringStrict, CompileToQuery and the rules", "internal/jsonpath/parser/parse_literals.go"]}
{"id": "C55", "title": "The program from texts to texts", "statement": "For every query text of RFC 9535 given as an argument of the program, and every input that is a stream of JSON texts, the standard output is a stream of JSON texts, and its values are those of the nodelists that RFC 9535 gives for the values of the input, in their order; the exit status is 0 and no error is reported.  With several arguments each works on the result of the one before: split gives the items of arrays, join gives one array, depth=n cuts values, trace gives nothing.", "quantifier": "all inputs, all query texts, all lists of arguments, all ways in which the input arrives, all output options", "why_tests_cant": "The claim composes the input choice, the decoder, the query parser and compiler, the iterators and the encoder; tests of the program compare a few fixed inputs with fixed outputs.", "anchors": ["cmd/jp/main.go:33-291", "transform/jsonpath/compiler.go: CompileQuery", "encoding/json/decoder.go", "encoding/json/encoder.go"]}
{"id": "C56", "title": "The arguments of the program", "statement": "An argument is accepted exactly if it is split, join, trace, depth= followed by an integer of 64 bits, or a query of RFC 9535 that is well typed; and then it has this meaning.  The arguments are read in their order.", "quantifier": "all byte strings as arguments, all lists of arguments", "why_tests_cant": "Acceptance of exactly the right texts is a statement about infinitely many wrong texts.", "anchors": ["cmd/jp/main.go:200-206", "cmd/jp/main.go:258-291"]}
{"id": "C57", "title": "The result of the program does not depend on how the input arrives", "statement": "Two runs of the program with the same options on the same bytes end with the same output and the same status, however the reads cut the input.", "quantifier": "all inputs, all options, all ways to cut the input", "why_tests_cant": "Tests feed strings, which arrive at once; the ways to cut an input are infinitely many.", "anchors": ["cmd/jp/main.go:143-189", "internal/scanner/scanner.go"]}
{"id": "C58", "title": "The exit status", "statement": "The exit status of the program is 0 exactly if no error was reported.  If it is 1, nothing was written to the standard output.  If no error was reported for JSON input, the input was a stream of JSON texts.", "quantifier": "all inputs, all options and arguments", "why_tests_cant": "Quantifies over all wrong inputs and arguments.", "anchors": ["cmd/jp/main.go:33-43", "cmd/jp/main.go:192-256", "cmd/jp/main.go:321-324"]}
{"id": "C59", "title": "Compact form of arrays and objects", "statement": "With a positive width limit, an array of scalars is printed on one line exactly if the scalars with their separators are not wider than the limit.  Otherwise its items are distributed over lines in their order, collections have lines of their own, no line of scalars is wider than the limit unless it has only one, and no scalar could have been put on the line before.  An object is printed on one line exactly if its values are scalars, there are at most as many as the limit allows, and it is not wider than the limit.", "quantifier": "all values, all limits, all colour tables", "why_tests_cant": "The greedy loop has a running total that is changed in five places; wrong totals show only for certain sequences of widths.", "anchors": ["encoding/json/encoder.go:88-149: writeObjectCompact", "encoding/json/encoder.go:178-258: writeArrayCompact"]}
{"id": "C60", "title": "The help texts describe the program", "statement": "What the help texts say about colours, about the guess of the input format, about the width of inline arrays and about the order of results of descendant queries is so, and the queries in them are accepted.", "quantifier": "all scalars, all inputs; the examples of the help texts", "why_tests_cant": "Help texts are not tested.", "anchors": ["cmd/jp/main.go:358-363", "cmd/jp/main.go:440-860"]}
{"id": "C61", "title": "CSV and JPV with the program", "statement": "With CSV input the program reads one array for each record; with -csv-header, which is a list of names separated by commas, one object for each record with these names; with csv-with-header (csvh, csv-header) one object for each record but the first, which has the names.  The arguments are applied to these values.  JPV is transparent: writing JPV and reading it with a second run of the program has the same result as one run.", "quantifier": "all CSV records, all lists of names, all JSON inputs, all arguments and options of the second run, all ways in which the input arrives", "why_tests_cant": "Quantifies over all inputs and all combinations of options; the transparency relates two runs of the program with one.", "anchors": ["cmd/jp/main.go:163-189", "cmd/jp/main.go:208-245", "encoding/csv/decoder.go", "encoding/jpv/encoder.go", "encoding/jpv/decoder.go"]}
{"id": "C62", "title": "Output in lines", "statement": "With -json-lines (or -json-compact) the program writes one line for each value, and each line is a JSON text of its value; JSON Lines are read as their values, and what was written is written again if it is read.  CSV records give one line each.  With -out jpv it writes one line for each leaf, in the order of the text, with a path and the text of the leaf.", "quantifier": "all JSON and CSV inputs, all arguments that C55 gives a meaning to, all widths, all ways in which the input arrives", "why_tests_cant": "That no layout and no literal has a line feed is a statement about all values and widths; the options interact.", "anchors": ["cmd/jp/main.go:74-75", "cmd/jp/main.go:212-226", "cmd/jp/main.go:534-560", "encoding/json/encoder.go", "encoding/jpv/encoder.go", "internal/format/printer.go"]}
{"id": "C63", "title": "Two programs in a pipe", "statement": "jp ARGS1 | jp ARGS2 has the same result as jp ARGS1 ARGS2.", "quantifier": "all JSON inputs, all arguments and options of both programs, all ways in which the input arrives", "why_tests_cant": "Relates pairs of runs with single runs, for all inputs and arguments.", "anchors": ["README.md:261-272", "cmd/jp/main.go:143-245"]}
{"id": "C64", "title": "The command line", "statement": "The words of the command line are accepted exactly if they are documented options, with values of the right form, followed by arguments; the options have the documented effects and defaults, other names of options mean the same, and with any other words the program ends with status 2 and does nothing.", "quantifier": "all command lines (lists of words of any bytes), all inputs", "why_tests_cant": "The command lines are unbounded lists of unbounded words; acceptance is characterised exactly, including the syntax of numbers.", "anchors": ["cmd/jp/main.go:44-141", "cmd/jp/main.go:378-460"]}
{"id": "C65", "title": "Immediate output", "statement": "Results are written as soon as the input determines them: when a stage of the program waits for its next token, it has written all that follows from what it has read (queries that need not look ahead: all nodes found so far; encoders: all text but a rest that is bounded independently of the value), on a terminal the text is visible, and a query for the first N items stops reading after them.", "quantifier": "all streams of values, cut off after any complete item or member at any depth, all continuations, all queries of the class, all settings of the encoders", "why_tests_cant": "Tests see the whole output at the end; what has been written before the next token is read, for all continuations, cannot be observed by comparing outputs.", "anchors": ["cmd/jp/main.go:209-226", "cmd/jp/main.go:693-760", "iterator/streamiterator.go:19-30", "encoding/json/encoder.go:20-260", "internal/format/printer.go:82-131", "transform/jsonpath/queryrunner.go:14-21"]}
{"id": "C66", "title": "The result of the program does not depend on the schedule", "statement": "The decoder, the transformers and the encoder run as goroutines that are connected by unbuffered channels and may be scheduled in any order. Whatever the schedule, the program ends after a bounded number of steps, without a deadlock, with the output, status and report that the same steps give when run one after the other; an error of the decoder is reported before the program ends.", "quantifier": "all inputs and ways in which they arrive, all options, all lists of arguments, all schedules of all lengths, all positions of the decoder's own steps, all sufficiently large bounds for loops", "why_tests_cant": "A test run sees one schedule; the number of schedules grows exponentially with the number of tokens, and races show only on rare ones.", "anchors": ["token/pipeline.go:20-49", "token/tokenstream.go:15-50", "cmd/jp/main.go:191-256", "iterator/transformer.go:22-27", "iterator/streamiterator.go:19-30", "encoding/json/encoder.go:29-37", "encoding/jpv/encoder.go:33-42"]}
{"id": "C67", "title": "Failures of the standard output do not go unnoticed", "statement": "If the standard output fails while the program writes, then what it took is a prefix of the output, and the program reports the error and ends with status 1, unless the other side of a pipe was closed, in which case it ends silently with status 0. So if the program ends with status 0, reports nothing and no pipe was closed, all of the output was taken.", "quantifier": "all inputs, all options and arguments, all ways in which writes to the standard output can fail (any write, any part of it taken, any error)", "why_tests_cant": "A test would need a standard output that fails after a given number of bytes, for every number and every way in which the buffer divides the output.", "anchors": ["cmd/jp/main.go:208-256", "cmd/jp/main.go:33-42", "cmd/jp/main.go:321-324", "internal/format/printer.go:36-138", "encoding/json/encoder.go:29-37", "encoding/jpv/encoder.go:33-42"]}
{"id": "C68", "title": "CSV files are read as RFC 4180 says", "statement": "A text of the grammar of RFC 4180 (lines end with CRLF or LF, fields may be quoted) is read without an error, and the records are those of the grammar: one for each record of the text, with the contents of the fields. It does not matter how the text arrives. For other texts, the records before the first error are delivered and the error is reported.", "quantifier": "all texts, all ways in which they arrive, all three ways to read CSV", "why_tests_cant": "The texts are unbounded, with quoted fields that contain separators and span any number of lines and buffers; the tests of the repository read a few small files, and one of them accepts an error without noticing (encoding/csv/decoder_test.go:423-441).", "anchors": ["encoding/csv/decoder.go:25-49", "encoding/csv/decoder_test.go:413-447", "cmd/jp/main.go:163-189", "README.md:198-214", "README.md:562-568"]}
{"id": "C69", "title": "JPV lines decode to the values that they describe", "statement": "However JPV lines were edited, decoding gives exactly the values that they describe: consecutive lines that agree in the first key of their paths describe the same member or item, by the rest of their paths; indices only separate items; no line is lost. Lines that describe nothing (a path with the same keys as the previous one, or one that extends it or leads to a container of it, or that continues a collection with keys of the other kind) are refused.", "quantifier": "all texts of JPV lines", "why_tests_cant": "The README recommends to edit the lines with sed, awk and grep, so any list of lines with any paths may come; the tests decode a few outputs of the encoder.", "anchors": ["encoding/jpv/decoder.go:62-153", "token/tokens.go:149-176", "README.md:299-466"]}
{"id": "C70", "title": "match and search follow RFC 9485", "statement": "The functions match and search decide as RFC 9535 and RFC 9485 say: for every I-Regexp p and string s, match(s, p) is true exactly if the whole of s is in the language of p, and search(s, p) exactly if some part of s is.", "quantifier": "all I-Regexps and all strings", "why_tests_cant": "Patterns and strings are unbounded, and the differences between leftmost-first matching of Go and the languages of RFC 9485 only show for some combinations of alternatives; the tests use a few simple patterns.", "anchors": ["internal/jsonpath/iregexp/iregexp.go:8-56", "transform/jsonpath/function.go:133-173"]}
{"id": "C71", "title": "Scalars made from Go values", "statement": "For every Go value v that is nil, a boolean, a string, an int, an int64 or a float64, ToScalar(v) is a JSON literal that denotes v, ToGo gives v back (with numbers as float64), and two scalars made in this way are equal exactly if the values are the same JSON data; values of other types are rejected with an error.", "quantifier": "all Go values of these types: all byte strings, all float64 numbers, all int64 integers", "why_tests_cant": "There are 2^64 numbers of type float64 and of type int64 and unboundedly many strings; which of them lose information depends on rounding in both directions and on the validity of UTF-8.", "anchors": ["token/tokens.go:188-202", "token/tokens.go:233-277", "token/tokens.go:149-176"]}
{"id": "C72", "title": "Colours tell names from values", "statement": "In coloured JSON output of the program every name of a member is written in the colour for keys and every other scalar in the colour of its type, whatever the format of the input (JSON, JPV, CSV), the arguments and the layout options.", "quantifier": "all inputs of the three formats, all arguments with a meaning (C55), all options for the layout, all colour tables", "why_tests_cant": "The colour is taken from a flag that is set in many places in the decoders and has to survive all transforms; tests look at single examples, mostly without colours.", "anchors": ["internal/format/colorizer.go:11-16", "encoding/csv/decoder.go:84-158", "encoding/json/decoder.go", "encoding/jpv/decoder.go", "token/tokens.go:133"]}
{"id": "C73", "title": "Reader failures with JPV and CSV input", "statement": "If the reader fails after delivering some bytes, the JPV and CSV decoders return the error of the reader (unless these bytes contain an error of their own), and what they have emitted is a prefix of what they emit for every input that begins with these bytes; the JPV decoder adds only tokens that close the collections it has opened.", "quantifier": "all inputs, all continuations of them, all reader errors, schedules and buffer sizes, all configurations of the CSV decoder", "why_tests_cant": "The tests read from complete strings; no test has a reader that fails, let alone at every position of every input.", "anchors": ["encoding/jpv/decoder.go:45-153", "encoding/csv/decoder.go:31-49", "internal/scanner/scanner.go"]}
{"id": "C74", "title": "The program does not crash", "statement": "Whatever the options, the arguments and the input (also input that is not of its format, or that cannot be read to the end), `jp` ends in a regular way, if need be with an error message: no goroutine panics, which would end the program with a stack trace, and none runs for ever.", "quantifier": "all options, arguments and inputs; all ways in which the input arrives or fails", "why_tests_cant": "The tests of the packages run decoders and transforms on chosen inputs, mostly valid ones; no test runs the program, and none combines a transform with input that ends early.", "anchors": ["cmd/jp/main.go:33-256", "token/pipeline.go:20-49", "iterator/streamiterator.go", "transform/builtin.go", "encoding/json/encoder.go", "encoding/jpv/encoder.go"]}
{"id": "C75", "title": "Memory does not grow with the input", "statement": "Data are extracted from JSON input without memory usage increasing with the size of the input: at any moment of a run, what is stored is limited by the size of the scanner's buffer, by the length of the longest scalar, and by what the query has to remember.", "quantifier": "all inputs and ways in which they arrive, all moments of a run; all queries", "why_tests_cant": "The tests look at results, and never at what is stored on the way; a benchmark measures some inputs, of bounded size.", "anchors": ["doc.go:22-23", "README.md:507-521", "internal/scanner/scanner.go", "token/cursor.go", "iterator/streamiterator.go", "transform/jsonpath/segmentrunner.go"]}
{"id": "C76", "title": "Arguments that can be combined", "statement": "Transformers are applied one after the other, each to what the one before it writes. So `jp '$X' '$Y'` has the same result as `jp '$XY'` (if filters of the second query do not refer to the root, which is another value then), `jp '$'` the same as `jp`, `jp '$[*]'` the same as `jp split` for arrays, `jp join split` the same as `jp`, and `jp depth=m depth=n` the same as `jp` with the smaller depth; whatever arguments follow, and for all formats and other options.", "quantifier": "all queries, all inputs that give a stream of values, all options and further arguments", "why_tests_cant": "Two different runs have to be compared for all pairs of queries and all inputs; the tests look at single runs, with two queries only one, on one input.", "anchors": ["cmd/jp/main.go:200-206", "cmd/jp/main.go:258-291", "token/pipeline.go:20-46", "transform/jsonpath/compiler.go", "README.md"]}
{"id": "C77", "title": "Queries and the program come to an end", "statement": "Evaluating a JSONPath query never runs for ever: for every query that compiles, on every sequence of tokens (whole values or input that is incomplete or badly nested), in strict mode or not, and whatever the regular expression library says, evaluation ends, with the same result each time. Without queries from the root in filters, no loop makes more rounds, and no descent goes deeper, than there are tokens. So `jp` ends on all finite inputs: with a result, with an error or with a crash.", "quantifier": "all queries, all sequences of tokens, both modes; all options, arguments and inputs", "why_tests_cant": "A test cannot show that no query and no input makes a loop run for ever; the tests run chosen queries on whole values.", "anchors": ["transform/jsonpath/segmentrunner.go", "transform/jsonpath/queryrunner.go", "transform/jsonpath/logicalevaluators.go", "transform/jsonpath/comparableevaluators.go", "transform/jsonpath/function.go", "iterator/streamiterator.go", "cmd/jp/main.go:33-256"]}
{"id": "C78", "title": "Input that breaks off", "statement": "If reading the input fails after some bytes, then what `jp` has written by then is a prefix of what it writes for every input that begins with these bytes: no member is written that is not there, no array or object is closed, and no string or number is cut and passed on. The same holds if JSON input ends too early, but not in the middle of a number, or CSV input at the end of a line.", "quantifier": "all inputs, all places where they break off, all continuations, all options; all token sequences for the encoders, split and depth", "why_tests_cant": "Two runs have to be compared, for every place where the input can break off and every way to go on; the tests run on whole inputs and compare complete outputs.", "anchors": ["encoding/json/encoder.go", "encoding/jpv/encoder.go", "encoding/json/decoder.go", "encoding/csv/decoder.go", "encoding/jpv/decoder.go", "iterator/streamiterator.go", "transform/builtin.go", "cmd/jp/main.go:192-256"]}
{"id": "C79", "title": "Strings and numbers are passed on as they are in the input", "statement": "Whatever the options, the arguments and the input, `jp` makes up no data: every key, string, number and literal that a transformer writes is one that it has read, with the same bytes and flags; the output is made of layout, codes of colours and the bytes of scalars that the decoder has sent (for JPV output also indices, and keys without their quotes); and each of these scalars is, byte by byte, a slice of the JSON or JPV input (for JPV also a key after a dot, with quotes added) or is made of one field of the CSV input, so that `1.50` stays `1.50` and `\"\\u0041\"` stays `\"\\u0041\"`.", "quantifier": "all queries, all other transformers, all token sequences (well formed or not), both modes, all inputs (valid or not) and all ways in which they arrive, all options; also for output before a panic", "why_tests_cant": "Queries move data through cursors, clones, buffers and normalised values; a test sees only the spellings and the paths through the engine that it was given, and not that no query, for no input, writes a value that was computed instead of read.", "anchors": ["transform/jsonpath/queryrunner.go", "transform/jsonpath/segmentrunner.go", "transform/jsonpath/selectorrunners.go", "transform/jsonpath/comparableevaluators.go", "transform/jsonpath/logicalevaluators.go", "iterator/streamiterator.go", "iterator/transformer.go", "token/cursor.go", "transform/builtin.go", "internal/legacy/transformers.go", "encoding/json/encoder.go", "encoding/jpv/encoder.go", "encoding/json/decoder.go", "internal/scanner/scanner.go", "cmd/jp/main.go:33-256", "encoding/jpv/decoder.go", "encoding/csv/decoder.go"]}
{"id": "C80", "title": "UTF-8 in, UTF-8 out", "statement": "If the input of `jp` is valid UTF-8 (and so are the names given for CSV fields and the codes of colours), then its output is valid UTF-8: strings, numbers, keys and CSV fields are only cut at ASCII characters, keys lose only their quotes, and no transformer and no encoder splits a character.", "quantifier": "all inputs in all formats, valid or not, and all ways in which they arrive; all options, arguments and queries; also if an error is reported or the program panics; all token sequences for the encoders", "why_tests_cant": "The scanner, the CSV reader, the JPV keys and the printer all cut bytes at computed places; the tests use a few characters beyond ASCII at most, never all positions of them relative to quotes, commas, ends of lines and ends of buffers.", "anchors": ["internal/scanner/scanner.go", "encoding/json/decoder.go", "encoding/jpv/decoder.go", "encoding/csv/decoder.go:84-158", "encoding/json/encoder.go", "encoding/jpv/encoder.go", "internal/format/colorizer.go:18-40", "cmd/jp/main.go:33-256"]}
{"id": "C81", "title": "No control characters in the output", "statement": "The output of `jp` without colours has no control characters (bytes below 0x20) other than line feeds, so that data cannot send control sequences to the terminal. Intended for all inputs; true for JSON and JPV input unless a backslash is followed by a raw control character, and for all formats unless the input or the names given for CSV fields have control characters.", "quantifier": "all inputs in all formats, valid or not, and all ways in which they arrive; all options but colours, all arguments and queries; also if an error is reported or the program panics", "why_tests_cant": "No test has a control character after a backslash or in a CSV field; and that no other way leads to a control character in the output is a statement about all inputs and all ways through decoders, transformers and encoders.", "anchors": ["encoding/json/decoder.go:234-291", "encoding/jpv/decoder.go", "encoding/csv/decoder.go:84-158", "encoding/json/encoder.go", "encoding/jpv/encoder.go", "cmd/jp/main.go:33-256"]}
{"id": "C82", "title": "Formatting again changes nothing", "statement": "Only the values in JSON input count, not its layout: inputs with the same values give the same results with all options and arguments. So formatting with `jp` before another run of `jp` does not change the result of that run, formatting is idempotent (the output, formatted again with the same options, is the same bytes), and it loses nothing: inputs whose outputs are the same, even with different options, have the same values, with the bytes of all strings and numbers and the order of all members.", "quantifier": "all sequences of JSON texts (and texts with unknown escapes, which the decoder accepts), all layouts of them and all ways in which they arrive; all widths, indentations and compact forms; for the second run all options, arguments and queries", "why_tests_cant": "The tests format single texts with a few options once; idempotence relates two runs, and must hold for all values, widths and indentations, where line breaks depend on computed widths.", "anchors": ["encoding/json/decoder.go", "encoding/json/encoder.go", "internal/format", "cmd/jp/main.go:33-256"]}
{"id": "C83", "title": "Line endings and blank lines of CSV files", "statement": "It does not matter whether the lines of CSV input end with LF or CRLF, or with either: inputs that are the same when every CRLF has become LF give the same results, also for line breaks in quoted fields, for texts that are not valid CSV, and if reading fails. In particular a file with CRLF throughout gives the same results as the file with LF. If reading does not fail, a line feed added at the end of the input does not matter either. A blank line before, between or behind the records does not matter, whatever comes after it.", "quantifier": "all texts, valid CSV or not, all ways in which they arrive, all CSV formats, options, arguments and queries", "why_tests_cant": "The tests have CSV texts with line feeds only; a CRLF can be split between two reads or two buffers, and can be in quoted fields, blank lines or at the end of the file.", "anchors": ["encoding/csv/decoder.go", "cmd/jp/main.go:145-189"]}
{"id": "C84", "title": "Names of CSV columns from the command line or from the first line", "statement": "Column names given with -csv-header have the same effect as the same names in a first line of the input, read with -in csv-with-header: the program has the same results.", "quantifier": "all lists of names, all CSV texts, all ways in which they arrive, all other options, arguments and queries", "why_tests_cant": "The two ways take different paths through the program (strings.Split and encoding/csv); tests compare each of them with an expected output for a few texts, not with each other for all texts.", "anchors": ["cmd/jp/main.go:163-187", "encoding/csv/decoder.go:31-87"]}
{"id": "C85", "title": "White space in JPV input", "statement": "Only the paths and values of the lines of JPV input count: on two inputs with the same lines, which describe values, but with other white space before the lines and around the equal sign (also blank lines, CRLF or LF, and whether there is a line break at the end), and in the values, the program has the same results.", "quantifier": "all JPV texts whose lines describe values and whose keys are Unicode strings or indices below 2^53 (see C69), all ways in which they arrive, all options, arguments and queries", "why_tests_cant": "Tests have a few texts with one space and a line feed; there is white space in many places, which can also be where a buffer ends.", "anchors": ["encoding/jpv/decoder.go:47-87", "internal/scanner/scanner.go:189-230", "cmd/jp/main.go:168-175"]}
{"id": "C86", "title": "Other names of formats", "statement": "Different names of the same format are interchangeable: csv-with-header, csvh and csv-header as input, path and jpv as input and as output give the same results with all other options, arguments and inputs. All names that the program does not know are refused.", "quantifier": "all options, arguments, queries and inputs", "why_tests_cant": "Tests try each name with few of the other options; the check of one option against another has a list of names of its own.", "anchors": ["cmd/jp/main.go:163-187", "cmd/jp/main.go:225-243"]}
