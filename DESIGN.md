# Formal model of gernest/requiemdb in Lean 4 — design

Layout (all under `lean/Verif/`):

* `Model/*.lean`  – definitions transcribed from the Go code, each with a comment `file:lines` and its simplifications.
* `Spec/*.lean`   – small specifications that do not mention the model's helpers.
* `Lemmas/*.lean` – helper lemmas.
* `Props/*.lean`  – the property theorems (named `Cnn_…`), with non-vacuity `example`s beside them.

Conventions: Go strings/[]byte are `List UInt8`; integers are `Nat`/`Int`, with explicit `% 2^64` where wrap-around
matters; error returns are values; Go map iteration order is an arbitrary permutation given as argument; a crash is an
explicit operation; external libraries are parameters or small models listed in the trusted base.

A property that is false of the code is kept with its full statement; the theorem proves its negation with a concrete
witness (`…_refuted`) and a `…_partial` theorem proves what does hold.

## Plan per property

| id | modelled | proof |
|----|----------|-------|
| C01,C02 | `Label.Encode` on bytes, decimal printing of int32 | decimal injectivity, separator argument; witness for '=' |
| C03 | `keys.Sample.Encode/Prefix` | same lemmas |
| C04 | big-endian 64-bit codec | arithmetic, lexicographic order by induction |
| C05–C08 | badger as a key/value map with optimistic transactions, badger `Sequence`, Go slice append with aliasing, `Translate` as a state machine with begin/commit/crash/reopen | invariant by induction over histories; aliased opening refuted with a >4096 key history |
| C09 | `Sequence` with lease, crash, release | invariant over histories |
| C10 | lossy cache as arbitrary sub-map after each step | invariant: every cached value is the translator's |
| C11,C12 | Go's civil-date algorithm, `Format("2006010215")`, `ViewsBuf` | arithmetic; round trip against an independent Gregorian calendar spec |
| C13,C14 | `ChooseQuantum`, `TimeBounds` | case analysis |
| C15–C17 | `Batch` with fragments as maps of bit sets | induction on entries |
| C18–C20 | OTLP trees, `transform.Context` | induction on trees; witnesses for C19, C20 |
| C21,C22 | `Shards.Rows/rows/get`, arbitrary map order | permutation invariance, witness |
| C23,C24 | `DataFrame.appendView/read` | layout invariant over batch histories, witness |
| C25 | flush as list of atomic writes, crash = prefix | invariant over prefixes and orders |
| C26–C32 | `Storage.SaveSamples/Scan/CompileFilters/Labels` composed of the above | refinement to a list of flushed samples |
| C33–C36 | `data.Collapse*`, `Sorter` | multiset induction; witnesses |
| C37–C39 | `visit.All`, `Compile`, Visit functions | induction on trees; witnesses |
| C40,C41 | `js.Scan` builder, `JS.Scan` | induction over call chains |
| C42,C43 | `Service` as interleaving state machine | invariant over schedules; witnesses |
| C44–C46 | `rows.Row` with sorted segments, cached counts, writable flags | refinement to sets |

Later additions are listed at the end of this file.

## Trusted base

* Lean 4.33.0 kernel; axioms used at most `propext`, `Classical.choice`, `Quot.sound`.
  AXIOMS.md lists them for every theorem of MANIFEST.json (generated by tools/axioms.py from `#print axioms`).
* The reading of /repo as transcribed in `Model/`. COVERAGE.md lists, for every function of /repo, the definitions that model it, or
  why it is not modelled (generated by tools/coverage.py from the citations in the comments).
* External code modelled from its documented behaviour: badger (transactions, `Sequence`), Go `fmt` verbs `%d`/`%s`,
  Go `time` (civil date), roaring bitmaps as finite sets, rbf transactions and row/column filters, ristretto as a lossy
  map, xxhash as an arbitrary function, `quantum.ViewsByTimeRange` as an arbitrary function.
  For `internal/visit` xxhash is also modelled concretely (`Model/XxHash.lean`, both the seeded function and the zero-valued
  `Digest` that the code uses for attributes), because a property depends on the two being different; the theorems there
  hold for an arbitrary pair of hash functions and the witnesses use the concrete one.
* `time.ParseDuration`, goja and github.com/jinzhu/now are outside: the first is an arbitrary function there (C86 has it), scripts are
  arbitrary chains of builder calls, of `now` only the four functions used are modelled.

## Later additions

* C47: `Shards.Row` over the heap model of rows.
* C48–C50: what filtering keeps, attribute confusion, crashes of filtering.
* C51: deadlock freedom of the service.
* C52, C53: end to end, from requests to the answers of scans, with the dictionary of the code (`Props/RealDict.lean` shows that
  it meets Spec/Dict.lean while ids last).
* C54: dictionary, sequence and data frame on one shared database.
* C55–C57: `internal/arrow3` (schema of any message type, column builders, reading rows) and the choice of columns in
  `internal/dataframe/columns.go`. Trusted: the arrow and parquet libraries, as described in Model/Arrow.lean (among others: a parquet schema cannot have a struct without fields); faithful
  serialization of `AnyValue`.
* C58: a scan interleaved with flushes (`Model/Concurrent.lean`): each transaction of the scan sees the store at some moment of a
  course of flushes. A moment is in the middle of a translation (any dictionary between before and after) or between two commits.
  Trusted: transactions of badger and rbf are atomic and see a snapshot.
* C59–C61: `internal/rows/bsi.go` (`Model/Bsi.lean`): `PivotDescending` over the heap model of rows, `AddBSI` with shared bitmaps,
  builders with arrays, masks and containers. Trusted: `roaring.Add` (ripple carry), container unions.
* C62–C64: `internal/f2` (`Model/Flat.lean`): flattening metrics to rows with one reused message; the dictionary, id sequence, hash and
  int-to-float conversion are parameters. Trusted: arrow builders (modelled for C55), badger sequences (modelled for C11).
* C65–C67: `internal/self` (`Model/Self.lean`): grouping of spans with the pointers of its two maps; attribute values; metrics with
  the errors of the package and `errors.Is`. Trusted: `attribute.Distinct` compares attribute sets, `errors.Is` as documented.
* C68: `internal/commands/query/query.go` (`Model/QueryCache.lean`): processes that share the cache directory, in steps (read, compile,
  open, write in pieces, finish, crash). The compiler and the hash are parameters.
* C69: `internal/arena` (`Model/Arena.lean`): arrays in a heap, `append` with any growth, the pool; the compressor is a parameter.
* C70: `internal/render` (`Model/Render.lean`): text of attributes and metrics; quoting, tables and the printing of floats are parameters (quoting: C87; tables: C88).
* C71: `internal/compress` (`Model/Codec.lean`): pools of encoders and decoders used by any number of users; zstd is a parameter.
* C72: time windows. `Model/Quantum.lean` transcribes `quantum.ViewsByTimeRange` (external library, source not in /repo; from the
  published Pilosa/FeatureBase source), `Lemmas/Quantum.lean` its calendar steps, `Lemmas/Walk.lean` its two loops,
  `Spec/Window.lean` says which times a window takes in. `C72_contract` holds for any view function that covers its ranges; only the
  other theorems of C72 rest on the transcription.
* C73: filters. `Spec/Filter.lean` says what a filter asks for, in terms of the fields of OTLP payloads and the numbers of
  scan.proto; `Props/Filter.lean` proves that `Matches` (what scans are proved exact for, C29) is that.
* C74: the layout of the database (`Spec/Layout.lean`: texts as string literals, `Spec/Decimal.lean`: decimal text), proved for the
  shared machine of C54 by closing the dictionary, the sequence and the data frame under what they write.
* C75: recycled objects. `Model/Pool.lean`: the objects of the pools, and a machine that runs any number of programs on shared pools;
  `Model/PoolScan.lean`, `PoolFlush.lean`, `PoolTrim.lean`, `PoolTranslate.lean`: the functions of Model/Store.lean, Model/Visit.lean,
  Model/Translate.lean again, as programs that name every `Get`, use and `Put`. `Spec/Pool.lean`: what a program does alone. One
  invariant (each object has at most one owner; what is in a pool is as new) carries every interleaving; each program is proved to
  obey it and to compute what the function of the model computes.
* C76: simultaneous lookups. `Model/Lookup.lean` splits `Find` into its append (on the heap of Model/GoSlice.lean) and its read;
  `Spec/Lookup.lean` gives the same history with one-step lookups. Proved equal for keys longer than the room; exact for all.
* C77: what a script gets is what was exported. A `Line` is a record with what its resource and scope say (`Spec/Script.lean`).
  Merging keeps the multiset of lines if no two resources, scopes or metrics are confused by hashing (`C77_merge`, by provenance of
  everything in the merged payload, `Lemmas/Merge.lean`); composed with C53 (service, flush, index, data frame, scan), the gRPC call
  and C41 (trimming in the script engine): `C77_query`, `C77_latest`, and for straight filters, in terms of the exported records
  alone, `C77_straight`.
* C78: what internal/self makes of single spans and data points (`Model/SelfDetail.lean`, opaque in C65–C67): field by field, and as
  an equivalence of exported forms (`Spec/SelfDetail.lean`).
* C79: the rest of internal/rows/row.go (tables, values, JSON, shifting, clearing, freezing, roaring files): `Model/RowsOut.lean`,
  `Props/RowsOut.lean`, on the invariants of C44–C46.
* C80: the pool of script engines and the cache of compiled scripts (`Model/Engine.lean`, `Props/Engine.lean`): any number of users and
  any choice of the pool; by an invariant on who holds which engine, a user's engine is what his own steps alone make of a new one, but
  for the globals of the runtime.
* C81: paths (`Model/Paths.lean`, `Props/Paths.lean`): `filepath.Clean` and `Join` on Unix, the directories of a server and the home
  directory. A cleaned path is a list of parts in normal form, and its text determines it.
* C82: numbers with units (`Model/Unit.lean`; `Spec/Duration.lean` reads durations; `Props/Unit.lean`): doubles as `m * 2^e` with rounding to 53 bits.
* C83: the programs of C75 with arbitrary answers; `Lemmas/PoolFail.lean` proves what is in the log of questions by a logic over programs (`Prog.Logs`), `Spec/PoolFail.lean` says which
  answers are failures.
* C84: `run` of main.go (`Model/Run.lean`) as a process with deferred closings, the flushing goroutine and requests; an invariant over all schedules.
* C85: the script package (`Model/Package.lean`, TypeScript) over the builder and the scans of scripts; what an object asks for is told in `Spec/Package.lean` from the methods called on it alone; an invariant (every object has a builder of its own) and C40. How goja converts arguments, and esbuild, are not modelled.
* C36, C77 with a real hash: `Spec/Confusion.lean` asks only that the 64-bit hash tells apart the texts hashed for the payloads merged (no injectivity), and that groups differ when their fields are run together; shown for xxHash64.
* C64, C68: likewise no hash is asked to be injective any more, only to tell apart the bitmaps of the two rows compared, and the scripts that are run.
* C86: Go's `time.ParseDuration`, which C40 and C85 left open as a function, is modelled (`Model/Parse.lean`): digits in 64 bits, fractions in doubles (rounded quotients and products), the sum modulo 2^64. `Spec/Parse.lean`: how a duration is spelled, and what a piece is worth. Rounding: relative bounds of each operation, multiplied out over the naturals; powers of ten are exact up to 10^22 and checked one by one up to 10^39, beyond which everything is below a nanosecond. `Ago` negates: the least `int64` is its own opposite, in the model and in `Spec/Js.lean`.
* C87: `%q`, which C70 left open as a function with `Fmt.Quotes`, is modelled (`Model/Quote.lean`: `strconv.Quote`, `utf8.DecodeRuneInString`, `utf8.AppendRune`, `strconv.IsPrint` up to U+00FF; above it a parameter). `Spec/Quote.lean`: the grammar of Go string literals, with Lean's own UTF-8. By induction over the one way to read the bytes as characters and stray bytes; `Fmt.Quotes` is then a theorem.
* C88: `text/tabwriter`, which C70 left open, is modelled (`Model/Tabwriter.lean`): a machine over the bytes written, and the recursion over column blocks. `Model/Render.lean` now gives it exactly the bytes that the code writes. `Spec/Tabwriter.lean`: tables whose columns line up, as a relation. Uniform tables by induction over the columns; everything else (nothing lost, number of lines) by invariants of the machine. `Model/Tabwriter.out` ties C70, C82, C87 and C88 together.
* C89: `internal/compile` is a state machine over the temporary directory (`Model/Compile.lean`): any number of calls, a failure or a kill at every point, Go's map order as a parameter; esbuild
  is a function of version, aliases and the files of its working directory. It justifies C68's view of compiling as a function. Invariant by induction over the course of events; who owns a
  directory is read off the history (`Holds`).
* C90: printing of doubles, which C70, C82 and C88 left open, is modelled (`Model/Float.lean`: strconv's `formatDigits`, `fmtE`, `fmtF`, Go's `fmt` around it). The shortest digits (Ryu) are a parameter with the promise of
  `FormatFloat` (`Spec/Float.lean`: `Right`, over the rationals; `right_exists`). `Lemmas/Float.lean`: a double is the only one nearest to what reads as it; doubles differ by one part in 2^53, so 17 digits do.
* C91: `humanize.IBytes`, the last printing that C82 and C88 left open (`Model/Humanize.lean`), with rounded floating point arithmetic kept as integer fractions; the logarithm is a parameter, asked to be near
  the true one (`Spec/Humanize.lean`). With C90, `C91_numbers` discharges the assumption of C88 on printed numbers.
* C92, C93: the protobuf wire format (`proto.Marshal`, `proto.Unmarshal` v1.33.0) over message types as a parameter, with the table of OTLP
  and `Data` (Model/Wire.lean, Model/WireOtlp.lean); Spec/Wire.lean states the format by itself (which bytes spell which number, value,
  message; what a value of a type is). Reading every spelling gives the message (induction over fields and nesting), writing gives a spelling,
  and whatever is accepted is a value of its type (invariant over the fields read). Discharges the hypothesis of C55. Not modelled: maps, extensions,
  required fields, lazy and weak fields (the message types have none); the order of fields is that of the tables of protobuf's `impl`.
* C94: the encoding of attributes that merging hashes (a parameter of C33–C36) is now that of protobuf; unique decodability by induction over the attributes.
* C95: the exact meaning of bytes (Spec/WireDecode.lean: pieces, which count, what they mean together) proved equal to `unmarshal`: one field by cases of its type, the loop as a run over pieces with an invariant per field, uniqueness of the meaning, induction on the depth of messages.
* C96: requests over the network: the message types of proto/rq/v1/scan.proto (Model/WireScan.lean) in the format of C92, a request as a record, written and read; `TimeBounds` with Go's `time.Unix`, `Time.Add`, `AsDuration` in wrapping int64 arithmetic. Proved: the request arrives (C92 and a calculation for each field), the window is that of unbounded arithmetic for times less than 2^62 seconds away (omega on the 64-bit cases), the answer is that of the scan. Not modelled: gRPC framing; what Go does with times further away is in the model, but only examples speak of it.
* C97: the `Export` calls. Model/WireExport: the bytes of a request are read as `ExportMetricsServiceRequest`, … (one field, as `MetricsData`), wrapped as
  `v1.Data` (service.go:137-192), and read out of the message as the data types the other models have; the client is the other direction (`ofData`). Proved by
  putting messages together field by field (`asm`), and by the theorems of C92/C93: what is sent arrives; whatever arrives is data that could have been sent;
  sent back as an answer it is read exactly if the request is nested less deep than the limit of protobuf (10000), as `Data` is one message more.
* C98: the answer over the network (Model/WireAnswer): what the store's scan returns is written as `v1.Data`, received within gRPC's 4 MiB, read and handed to the script. Proved: what a
  scan returns is of the form of C97 one level less deep (an invariant of the frame along every history of C52, kept by column reads, projection and `Collapse`); such data is read as it was
  written (C92, C97); so a script's scan over the network is the store's scan behind `rpc` of C41, or an error when a message has more than 4 MiB. The limit is now also part of C96 and C97.
  For the data of a history no more is asked than that it is what the server saved for some bytes of a request: a bound for the length of what is read (Lemmas/WireWeight, C93_length) shows
  that it can be written again.
* C99: scripts of `rq query` over the network. Every scan that the builder builds (Model/Js, Model/Package, with Go's durations of Model/Parse) is shown to be one that can be written
  (windows of any time zone table stay in the range of Timestamps), so that C98 applies to every script: `query()` over `netScan` is `query()` over the store, or an exception for
  messages beyond 4 MiB. With C52: what the script reads was in a request that was received. An example computes a whole run: bytes exported, flushed, asked for by a script, answered.
* C100: metrics as JSON (internal/render/metrics.go:19-21, internal/js/rq.go:122). Model/Json.lean transcribes protojson of google.golang.org/protobuf v1.33.0: the writer of the text is a
  state machine (what was written last, the indentation), the tree is made from a message as Model/Wire has it. Spec/Json.lean has the grammar of RFC 8259 as an inductive relation between
  values and texts, base64 by the bits (RFC 4648), and `Shows`, what a tree shows of a message. Proved: the grammar is unambiguous (a text spells one value, whatever the spaces), what the
  writer writes is in the grammar (invariants of the state machine), the tree shows the message, and `Shows` determines the message (numbers by C90, base64 by place value, the
  order of the fields by C95's lemmas). Not modelled: `\u` escapes beyond ASCII in the grammar (never written), and the error that is found in the middle of writing. Props/JsonTable.lean compares the table of fields with what the repository says of them: the columns of C52's model (names and order) and the Parquet schema in internal/arrow3/testdata (bits and signs), and checks the two texts in /repo that protojson wrote from known metrics (internal/js/testdata/metrics/render_json.json, internal/arrow3/testdata/otel_metrics_data_parquet_read_decoded.json).
* C101: what a script of `rq query` prints as JSON (internal/js/rq.go:122-129, packages/rq/src/core_metrics.ts `renderJSON`; Model/WireRender.lean). `Vs.visit` keeps data answerable (induction over resources, scopes and records; Props/WireRender.lean `visit_at`), so what a script gets is a message that fits the schema, and C100 applies; that the message is what the script has is the roundtrip of C98.
* C102: what a script prints as text (internal/js/rq.go:131-134, internal/render; Model/RenderWire.lean: the message that came over the network as the types of Model/Render.lean). Spec/RenderWire.lean: attributes that are printed and have no value, inductively over the message. Proved by induction on the size of values, C70_crash_all and C101's invariant; `C102_reached` is such a history.
* C40: time zone tables are now asked to be consistent only for the instants that Go can represent, so that UTC and tables with changes meet the hypothesis (shown beside the theorem).
* C70: `Spec/RenderText.lean` is a grammar of the printed page; `C70_page` proves the printer exact for it.
* Exact versions: where the intuitive property is false of the code, the property now says exactly what the code does, next to the
  refutation. `Props/ScanExact.lean` (C26–C32: what a scan returns, as an equation over the recorded history), `Props/VisitExact.lean`
  (C48–C50: which attributes are confused, when filtering crashes), `Props/CollapseExact.lean` with `Spec/Clash.lean` (C35),
  `Props/FlatExact.lean` (C62), `Props/RowsExact.lean` (C45, C46: the safe calls are exactly those after which rows are independent),
  `Props/BsiExact.lean` (C60: which later writes to a sum change an existing row), `Props/JsExact.lean` (C41: what a script scan
  returns), `Spec/Ids.lean`, `Lemmas/Ids.lean`, `Props/Ids.lean` (C06, C07: the dictionary refines a book of ids with one or two
  counters, over all histories and capacities), `Props/Lost.lean` (C43: what a life holds when it ends; C53 for any lawful dictionary),
  `Props/RealWide.lean` (C53 with the dictionary of the code and its cache, any number of labels; `wideDict` is `realDict` with the
  invariant of Lemmas/Translate as its `Good`), `Spec/During.lean`,
  `Lemmas/During.lean`, `Props/During.lean` (C58 for every history and interleaving; a scan that no moment explains),
  `Spec/QueryTrace.lean`, `Props/QueryExact.lean` (C68: contents of the cache read off the course of events), `Spec/RenderShape.lean`,
  `Props/RenderExact.lean` (C70: what of attributes can be seen in their text; whole metrics data).
* Time zones (C40): the clock of `rq query` is in the local time zone, so `Model/Js.lean` takes the zone as a parameter: a function from
  instants to the period (offset, begin, end) they lie in, as in Go's `Location.lookup`, and `ofWall` is `time.Date`'s two-step guess.
  The theorem holds for every zone table that satisfies `Zone.Ok`; `C40_fixed` for every fixed offset without conditions.
