import json
P=[]
def p(id,title,statement,quant,why,anchors):
    P.append(dict(id=id,title=title,statement=statement,quantifier=quant,why_tests_cant=why,anchors=anchors))
p("C01","Label encodings separate resources and prefixes",
 "The byte encoding of an index label determines its resource and its prefix, and two labels have the same encoding exactly when resource and prefix agree and the remainder (key, followed by '=' and value when the value is non-empty) is byte-for-byte equal. Labels of different signals or different label kinds can never be confused in the index.",
 "all pairs of labels: every int32 resource and prefix (also negative, proto3 enums are open), every byte string as key and value",
 "Pairs of arbitrary byte strings are unbounded; a test fixes a handful of literals (the repo's has two).",
 ["internal/labels/labels.go:Label.Encode","internal/labels/labels.go:Label.String"])
p("C02","Distinct labels have distinct encodings",
 "Two labels that differ in resource, prefix, key or value never encode to the same bytes, so an attribute filter can only match samples that carry exactly that attribute key and value. (False of the code when a key contains '='. Exactly: different labels share an encoding if and only if resource and prefix agree and the key of one is the key of the other followed by '=' and the beginning of its value, the rest being its own value.)",
 "all pairs of labels with arbitrary byte-string keys and values",
 "The failing pairs are a measure-zero subset of an unbounded domain; example tests do not contain a key with '='.",
 ["internal/labels/labels.go:Label.Encode","internal/transform/transform.go:Context.Label","internal/store/scan.go:Storage.CompileFilters"])
p("C03","Sample keys are injective and prefix-scannable",
 "The key of a stored sample determines its resource and id, and the prefix returned for a resource is a prefix of the keys of exactly the samples of that resource (prefix of resource 1 never matches a key of resource 12).",
 "all resources (int32) and all uint64 ids",
 "2^96 possible keys; prefix confusion needs specific digit patterns.",
 ["internal/keys/keys.go:Sample.Encode","internal/keys/keys.go:Sample.Prefix"])
p("C04","Ids survive their byte encoding, in order",
 "Encoding a 64-bit id to bytes and decoding gives the same id back; the encoding has 8 bytes, is injective, and byte-wise lexicographic order of encodings is numeric order of ids.",
 "all uint64 values",
 "2^64 values.",
 ["internal/translate/translate.go:u64tob","internal/translate/translate.go:btou64"])
p("C05","A key's id never changes",
 "Once a translator has returned id n for a key, every later translate or find of that key, in the same process or after any number of crashes, clean closes and reopens, returns n.",
 "every history of TranslateKey/Find/TranslateID/TranslateBulkID/Close/crash/reopen operations",
 "Requires all operation histories and all crash points, including those around sequence lease renewals.",
 ["internal/translate/translate.go:Translate.TranslateKey","internal/translate/translate.go:Translate.Find","internal/translate/translate.go:New"])
p("C06","Distinct keys get distinct ids",
 "A translator should never assign one id to two different keys, over any history of operations, crashes and reopens. That is false of the program as deployed: three appends in New alias one backing array, so the counter read at opening and the counter used afterwards are different entries of the store. What holds, exactly, for every spare capacity of the slice given to New: every answer in every history of operations, failed commits, crashes and reopens is that of a book of ids with one counter if there is room for less than three more bytes and with two counters otherwise; with one counter no id is ever given twice; with two, the new keys of the first life get the ids 0, 1, .., lease-1, 0, 1, 2, .., so two of them share an id exactly if one comes a lease (4096) after the other, in the first lease; and no two keys share one as long as no process translates more than one lease.",
 "every history of operations with crashes and reopens; every spare capacity of the prefix slice",
 "The failure needs more than 4096 distinct keys in one history and depends on slice capacity; per-key unit tests pass.",
 ["internal/translate/translate.go:New","internal/translate/translate.go:Translate.TranslateKey","cmd/rq/main.go"])
p("C07","TranslateID inverts TranslateKey",
 "If TranslateKey(k) has returned n then TranslateID(n) should return k at any later time, bulk translation of a list of ids should return exactly their keys in order, and an id that was never returned should be reported as not found. That holds if the slice given to New has room for less than three more bytes, and is false of the program as deployed. What holds, exactly, for every capacity and history: TranslateID(n) returns, of the keys that were given n, the one that was given it last; if there is none it reports n as not found, except that with room for four more bytes an id whose bytes are the letter s and a translated key of seven bytes is answered with the id of that key; bulk translation returns these answers in order, up to the first id without one.",
 "every history, crash and reopen; every id and list of ids",
 "Needs an invariant linking two key spaces of the store over all histories.",
 ["internal/translate/translate.go:Translate.TranslateID","internal/translate/translate.go:Translate.TranslateBulkID"])
p("C08","Find never allocates",
 "Find returns the id of a key iff that key was translated before, otherwise an error; it changes neither the stored mapping nor the id sequence.",
 "every reachable store state and every key",
 "All reachable states.",
 ["internal/translate/translate.go:Translate.Find"])
p("C09","Sample ids are unique and increasing for ever",
 "Ids handed out to samples are strictly increasing over the whole life of a database, whatever mix of allocations, crashes, clean releases and restarts happens, and whatever the lease size.",
 "every history of Next/Release/crash/reopen, every positive bandwidth",
 "Crash points between lease write and use, and 2^20 lease boundaries, are not reachable by unit tests.",
 ["internal/seq/seq.go:Seq.SampleID","internal/seq/seq.go:Seq.Release"])
p("C10","The translation cache is transparent",
 "Translating a label through the store's cache returns the same id as translating without it, no matter which entries the cache drops, evicts or rejects, provided two different labels do not have the same 64-bit hash.",
 "every history of translations, every eviction/rejection schedule of the cache",
 "The cache is a lossy concurrent cache with nondeterministic admission.",
 ["internal/store/store.go:Storage.Translate","internal/f2/translate.go"])
p("C11","Every timestamp has its four nested views",
 "For every sample timestamp the index is written under exactly four views - year, month, day, hour of the UTC time - each one a prefix of the next, and view construction never fails.",
 "all 64-bit nanosecond timestamps",
 "2^64 timestamps; error branch depends on every character of the formatted time.",
 ["internal/batch/time.go:QuantizedTime.Set","internal/batch/time.go:QuantizedTime.Views","internal/batch/batch.go:Batch.makeFragments"])
p("C12","Views separate calendar periods exactly",
 "Two timestamps share the hour view iff they fall in the same UTC clock hour, the day view iff same calendar day, the month view iff same month of the same year, the year view iff same year.",
 "all pairs of 64-bit nanosecond timestamps",
 "Pairs over 2^64 values, leap years, century rules, negative times before 1970.",
 ["internal/batch/time.go:QuantizedTime.Set","internal/batch/time.go:QuantizedTime.ViewsBuf"])
p("C13","Scan quantum follows window length",
 "The granularity used for a scan depends only on the length of its window: hour below 24h, day below 30 days, month below 360 days, year otherwise; longer windows never use a finer granularity.",
 "all pairs of start and end times",
 "Thresholds over all durations.",
 ["internal/view/view.go:ChooseQuantum"])
p("C14","Time window of a scan",
 "A scan with an explicit time range uses exactly that range; otherwise it uses the 15 minutes ending at now (the request's now if given) minus the offset.",
 "all scan requests and clock values",
 "Unbounded requests; interactions of four optional fields.",
 ["internal/x/x.go:TimeBounds"])
p("C15","The index batch sets exactly the right bits",
 "After adding any sequence of (sample id, timestamp, label ids) to a batch and building it, bit (label l, sample s) is set under a view iff some added entry for sample s has that label and that view is one of the four views of its timestamp; no other bit is set.",
 "every batch: any number of samples, labels, duplicate ids, nil label sets",
 "Unbounded batches, and a no-extra-bits claim over a 64-bit position space.",
 ["internal/batch/batch.go:Batch.Add","internal/batch/batch.go:Batch.Build","internal/batch/batch.go:Batch.makeFragments"])
p("C16","Index positions are decodable",
 "A (sample, label) pair is recovered uniquely from its shard and bit position as long as sample ids stay below 2^44; the first id at which positions wrap and collide is exactly 2^44.",
 "all sample ids and label ids in uint64",
 "2^128 pairs; overflow boundary.",
 ["internal/view/view.go:Pos","internal/batch/batch.go:Batch.makeFragments"])
p("C17","Batches do not leak into one another",
 "Building a batch depends only on entries added since the last successful build; after a build the batch is empty, and a failed build keeps its entries for the next attempt.",
 "every sequence of Add and Build calls, successful or failing",
 "Object reuse over arbitrary histories.",
 ["internal/batch/batch.go:Batch.Build","internal/batch/batch.go:Batch.Reset"])
p("C18","Samples are indexed by every label they carry",
 "The label set of a sample contains a label for every non-empty schema url, scope name and version, metric/span name, severity, trace/span/parent id and every non-empty string attribute of its resources, scopes, data points and log records - and no other labels (apart from the resource label of C20).",
 "every OTLP metrics, logs or traces payload: any nesting, any attribute values",
 "Payload trees are unbounded; missing one branch of five metric kinds is invisible to a sample test.",
 ["internal/transform/transform.go","internal/transform/metrics.go","internal/transform/logs.go","internal/transform/trace.go"])
p("C19","Sample time bounds cover its data",
 "min_ts and max_ts stored for a sample are the minimum and maximum timestamps of its data points. (The maximum always is. The minimum is false of the code when a timestamp is 0. Exactly: it is the least timestamp after the last zero, so it is a lower bound of the data if and only if no timestamp is zero or the last one is.)",
 "every payload with any list of timestamps, zero included",
 "The wrong result depends on order and on zeros in arbitrary positions.",
 ["internal/transform/transform.go:Context.Timestamp","internal/transform/transform.go:Context.Range"])
p("C20","Under which signal a sample is indexed",
 "Every sample should carry the resource label (metrics/traces/logs) of its own payload, so that a scan without filters over one signal finds it. That is false of the code (witness): the label is written before the sample's signal is known. What holds, for every sequence of samples of one context: each sample carries the label of the signal of the latest earlier sample that has a payload (none of the three before there is one); so it is its own exactly when that signal is.",
 "every sequence of samples processed by one context",
 "Depends on the history of earlier samples in the batch.",
 ["internal/transform/transform.go:Context.processSample","internal/transform/transform.go:Context.init"])
p("C21","What a row lookup returns",
 "Looking up samples for a set of label columns over a set of views should return the samples that have all columns. That is false of the code when the columns of one shard match nothing (witness). What holds for every history, and for every (random) iteration order: nothing, if the shard of a column is not open; otherwise exactly the samples that, for each shard in which anything is found at all, have all the columns of that shard in one of the views.",
 "every index content, every set of columns and views, every iteration order of the shard map",
 "Go randomises map order; the wrong answer needs columns in several shards.",
 ["internal/shards/shards.go:Shards.Rows","internal/shards/shards.go:Shards.rows"])
p("C22","Stored samples after a restart",
 "A lookup that found a sample should find it again after the database is closed and reopened. That is false of the code for every database: after a restart every lookup with a column finds nothing, until the shards of its columns are written to again; from then on it returns exactly what the whole history committed.",
 "every index content and restart history",
 "Requires process restart histories.",
 ["internal/shards/shards.go:Shards.rows","internal/shards/shards.go:Shards.get"])
p("C23","Row numbers in the data frame",
 "Row i of a view's data frame should hold the payload of sample i, with empty fillers in between. That is false of the code for the first batch of a view if its first id is not 0 (witness). What holds for every sequence of batches with increasing ids: the exact layout, in which the rows of such a first batch are shifted down by one (so row i holds sample i+1, and the newest sample's row is missing until the next batch) and all later batches are in place.",
 "every sequence of batches with strictly increasing ids",
 "The defect depends on how ids are split into batches; the repo's test starts at id 0.",
 ["internal/dataframe/dataframe.go:DataFrame.Append","internal/dataframe/dataframe.go:DataFrame.appendView"])
p("C24","Data frame reads return only the requested kind and rows",
 "Reading a signal's rows from a view hands out only ids that were requested and that were appended to that view as that signal, reads nothing for a missing view, and appends to one view never change another view.",
 "every history of appends and every requested row set",
 "All histories and row sets.",
 ["internal/dataframe/dataframe.go:DataFrame.read","internal/dataframe/dataframe.go:setSample"])
p("C25","Crash during a flush leaves no dangling index entry",
 "If the process dies at any point during a flush, every sample the index can return after restart already has its payload in the data frame; the opposite (payload without index) can happen.",
 "every crash point between the individual store writes of a flush, every iteration order of views and shards",
 "All crash points and map orders.",
 ["internal/store/store.go:Storage.SaveSamples"])
p("C26","Filters are conjunctive and unknown values match nothing",
 "A scan's filters compile to the set of column ids of all its filters; if any filter names a label never seen, the result is empty rather than unfiltered. Further filters find no more samples, if every index shard that is asked for a label finds some sample; otherwise they can (witness): the exact condition under which a sample is found is that of C29.",
 "every list of filters and every dictionary state",
 "Unbounded filter lists and dictionary states.",
 ["internal/store/scan.go:Storage.CompileFilters"])
p("C27","What instant scans return",
 "A scan without a time range picks, of all samples it finds (exactly those of C29), the one with the highest id, and returns what the data frame has at that row in each view it is filed in, or the empty payload if nothing is found. (That this is the payload of the latest matching sample is false of the code, with a witness for scans without filters, and holds under the conditions of C20 and C23.)",
 "every store content and scan without time range",
 "All contents.",
 ["internal/store/scan.go:Storage.Scan"])
p("C28","Which data scans return",
 "Every payload contributed to a scan result should come from a stored sample of the scanned signal that matches every filter and has an index view in the scanned window. Found samples do match every filter, if every shard that is asked for a label finds some sample, in particular if all labels are in one shard; the payload read for a found sample is its own, empty, or (false of the code then, witness) that of the sample with the next id, namely if it came with the first batch of a view that does not begin with sample 0.",
 "every history of flushed batches and every scan",
 "Composition of translator, batch, shards and frame over all histories.",
 ["internal/store/scan.go:Storage.Scan","internal/store/store.go:Storage.SaveSamples"])
p("C29","What every scan returns",
 "After every history of flushes, each cut off by a crash at any commit, and restarts, every scan returns, without read errors, exactly: the merged payloads of the samples it finds, which are those filed in a view of the window and having, for every shard in which anything is found at all, the asked labels of that shard (if all labels are known and their shards open), each read at its row as laid out by C23. So a sample whose flush succeeded and that matches all filters is found by a scan over one of its views if and only if the shards of all asked labels have been opened by a write of this process (false of the code after a restart, witness).",
 "every history of flushed batches and every scan",
 "Composition over all histories.",
 ["internal/store/scan.go:Storage.Scan","internal/store/store.go:Storage.SaveSamples"])
p("C30","Which read errors are reported",
 "If reading stored data fails during a scan the scan should return an error. That is false of the code: errors of the data frame read are discarded and a partial or nil result is returned as success (witness). What holds, for every placement of faults: a scan returns an error if and only if looking up its labels runs into a read error before an unknown label, or all are known and reading the index fails, or samples are found for a scope that is no signal.",
 "every fault placement in a scan",
 "Needs fault injection at every read.",
 ["internal/store/scan.go:Storage.Scan"])
p("C31","Limit and reverse do nothing",
 "A scan with limit n should return at most n samples and reverse should change the order. That is false of the code (witness): the result of every scan is the same whatever its limit and reverse flag.",
 "every store content and every limit",
 "Universally quantified over store contents.",
 ["internal/store/scan.go:Storage.Scan"])
p("C32","Labels of a sample that can be read back",
 "Asking for the labels of a successfully flushed sample at a view it is filed in returns exactly the encoded labels it was indexed with whose numbers lie in open shards; so all of them if it was flushed by this process and there are fewer than 2^20 labels, and none after a restart (witness).",
 "every history of flushed samples",
 "Round trip through translator, batch, shards over all histories.",
 ["internal/store/scan.go:Storage.Labels","internal/shards/shards.go:Shards.Row"])
p("C33","Collapse neither loses nor invents records",
 "Merging scan payloads keeps every log record, span and data point exactly once (as a multiset), with the resource and scope hash group it came from.",
 "every list of payloads of one signal (metrics: of consistent kinds)",
 "Unbounded trees and duplicate structure.",
 ["internal/data/data.go:Collapse","internal/data/logs.go","internal/data/trace.go","internal/data/metrics.go"])
p("C34","Collapse groups by resource, scope and metric",
 "In the merged result no resource appears twice, no scope appears twice under a resource unless a single input payload already repeated it, and groups are ordered by first occurrence.",
 "every list of payloads",
 "Unbounded trees.",
 ["internal/data/sort.go:Sorter","internal/data/data.go:Collapse"])
p("C35","When merging payloads crashes",
 "Merging stored payloads should never panic. That is false of the code (two metrics with equal resource, scope and name but different kinds of data dereference nil; so do payloads of different signals). What holds, exactly, for every hash function and map order: merging panics if and only if there are at least two payloads, the first is not empty, and either some payload is of another signal than the first, or all are metrics and some metric that carries data arrives in an already known scope and is merged into a metric of the same hash that carries no data of that kind. Logs and traces never panic.",
 "every list of metric payloads",
 "Needs payload pairs a generator would rarely draw.",
 ["internal/data/metrics.go:CollapseMetrics"])
p("C36","Which scopes are merged",
 "Two instrumentation scopes that differ in name, version or schema url should be kept apart when merging. That is false of the code even for a perfect hash (witness): with a perfect hash two scopes of a resource are merged if and only if the concatenations of their schema url, name, version and attributes are equal (so, for example, name 'ab' with version 'c' and name 'a' with version 'bc').",
 "all pairs of scopes, all injective hashes",
 "Requires adversarial string splits.",
 ["internal/data/sort.go:Sorter.hashScope"])
p("C37","Visitors only return matching data",
 "Filtering a payload returns a sub-structure of it: every record returned was in the input, under the same resource and scope, within [start,end), and matches every filter as the code reads it (C39), provided the hash neither confuses nor misses an asked value.",
 "every payload and filter configuration",
 "Unbounded trees and filters.",
 ["internal/visit/visit.go:All","internal/visit/logs.go","internal/visit/trace.go","internal/visit/metrics.go"])
p("C38","Visitors keep everything that matches",
 "Filtering drops no record that satisfies all filters as the code reads them (C39), keeps order, and with no filters every record in the time window is kept, provided the hash neither confuses nor misses an asked value.",
 "every payload and filter configuration",
 "Unbounded trees and filters.",
 ["internal/visit/visit.go:All","internal/visit/logs.go","internal/visit/trace.go","internal/visit/metrics.go"])
p("C39","What each filter kind enforces",
 "A filter on attributes, span id, parent span id, or (for logs) trace id should restrict the returned records to those that have that value. That is false of the code, with a witness for each: attribute filters demand attributes of the scope, the span-id filter demands nothing, the parent filter is compared with the span's own id, log trace ids are not checked, an id that is not hexadecimal is ignored, a long attribute is not recognised. What holds for every payload and filters: the result is exactly the payload trimmed to the records that match the filters read this way; all other filter kinds are enforced as they should be.",
 "every payload and filter",
 "Universal over payloads; the repo has no such tests.",
 ["internal/visit/visit.go:Compile","internal/visit/trace.go:Trace.Visit","internal/visit/logs.go:Logs.Visit"])
p("C40","The scan builder builds what was asked",
 "Any chain of builder calls yields a scan whose signal, limit, offset, now, direction and window are those of the last call of each kind and whose filters are exactly the filter calls in order. \"Today\", \"this week\" (from Sunday), \"this month\" and \"this year\" end at the moment of the call and start when the clocks of the time zone of the script's clock (for rq query: the zone of the machine) show the midnight that begins them, provided they show it at all and are changed at most once within a day of it.",
 "every sequence of builder calls",
 "Unbounded chains.",
 ["internal/js/scan.go"])
p("C41","Script scans trim only when asked",
 "A script scan returns the stored result untouched when it has neither a time range nor filters, and passes errors on. Otherwise it should return exactly the part of the stored result selected by the filters and the window, whatever the payload. That is false of the code: a scan function that answers with a nil payload crashes the script, and a window that starts before 1970 returns nothing. What holds, exactly: with a time range or filters, a nil payload crashes the script; another payload crashes it if and only if filtering gets to an attribute without a value; otherwise the result is exactly the part of the payload selected by the filters that the code enforces (C39) and by the window with its bounds read as unsigned numbers, so a window that starts before 1970 selects only records after 2262. Run by the query command, a nil or failed store answer gives the script an empty result or an error, not a crash.",
 "every scan and store result",
 "Universal.",
 ["internal/js/rq.go:JS.Scan"])
p("C42","Accepted samples are flushed exactly once, in order",
 "Whatever the interleaving of concurrent exports and flush ticks, every sample the running process has accepted is in exactly one flushed batch, in the flusher's hands or still buffered; across flushes, failures, crashes and restarts the batches concatenate to samples in strictly increasing id order.",
 "every interleaving of export calls and flush ticks",
 "All schedules.",
 ["internal/service/service.go:Service.Save","internal/service/service.go:Service.start"])
p("C43","Acknowledged samples survive shutdown",
 "Samples acknowledged before a shutdown should be stored. That is false of the code: the buffer is not flushed on shutdown (witness), and a flush that fails drops its batch (witness). What holds, exactly, for every schedule of exports, flushes, shutdowns, crashes and restarts: the exports answered with success in a life, followed by those whose answer is still to come, are in order those handed to flushes of that life followed by those it still holds when it ends; what it holds is in no flush of that or any later life, so the answered exports of a life were all handed to flushes exactly if it holds no more than those still unanswered; a failed flush is followed by the exit of the flusher, and what is exported later in that life is handed to no flush.",
 "every schedule ending in shutdown",
 "All schedules.",
 ["internal/service/service.go:Service.start"])
p("C44","Row bitmaps behave as sets",
 "Setting bits, merge, union, intersection, difference and xor on rows give the corresponding set operation on column sets, for any rows, including rows spread over different shards.",
 "all rows built by any sequence of operations",
 "Unbounded sets and sequences.",
 ["internal/rows/row.go:Row"])
p("C45","Row observers agree",
 "Columns lists each member once in ascending order; Any and Includes agree with it; Clone is equal; Count never exceeds the number of columns. Count should also be equal to it, and IsEmpty agree. That is false of the code: once a row that shares a segment with an operand is modified, the other row's count is stale. What holds, exactly: after a program whose calls hand on no writable segment uncopied (safe calls), counts and IsEmpty are right; and a further call keeps Count right through every later SetBit on every row if and only if it is safe (unless some row holds all 2^20 columns of a shard).",
 "all reachable rows",
 "Cached counts over all operation sequences.",
 ["internal/rows/row.go:Row.Columns","internal/rows/row.go:Row.Count","internal/rows/row.go:Row.Includes","internal/rows/row.go:Row.Any"])
p("C46","Combining rows never modifies the operands",
 "Building a row from others leaves the existing rows as they are, in every program. They should also stay so when the result is modified. That is false of the code: segments present in only one operand are shared, not copied (witnesses for union, difference, xor and merge). What holds, exactly: after a program of safe calls, a further call leaves every row independent of every later SetBit on any other row if and only if the call is safe, that is hands on no writable segment uncopied (unless some row holds all 2^20 columns of a shard); Intersect, Clone, NewRow and SetBit are always safe.",
 "all rows and operation sequences",
 "Aliasing of segments between rows over all histories.",
 ["internal/rows/row.go:Row.Merge","internal/rows/row.go:rowSegment.ensureWritable"])
p("C47","Row read-back over shards",
 "Reading one row of a view returns exactly the columns committed for it in any shard used since the last restart, ascending and without repetition, whatever the order in which shards are visited; rolled back writes are never visible.",
 "all histories of updates (committed or rolled back), views and restarts, all iteration orders of the shard map",
 "Arbitrary histories and map orders.",
 ["internal/shards/shards.go:Shards.Row","internal/shards/shards.go:row","internal/shards/shards.go:Shards.AllShards","internal/rows/row.go:Row.Merge"])
p("C48","What filtering keeps about a kept record",
 "A record returned by filtering still has its resource, resource schema, scope and, for data points, kind, temporality and monotonicity; the schema URL of every scope and the description and unit of every metric are lost (contrary to what a user expects; filtering a filtered payload by the same scope schema therefore loses everything).",
 "every payload and filter configuration",
 "Unbounded trees.",
 ["internal/visit/metrics.go","internal/visit/logs.go","internal/visit/trace.go"])
p("C49","Which attributes a filter confuses",
 "A filter on attribute k with value v should never match because of an attribute with another key or value. That is false of the code, for every hash function: key and value are joined by '=' before hashing. Exactly those are confused (unless the hash collides) in which one key goes on with '=' where the other stops and the values make up for it; so none if the keys contain no '='.",
 "every key, value and hash function",
 "Universal over strings.",
 ["internal/visit/visit.go:SetResourceAttr","internal/visit/visit.go:matchAttr"])
p("C50","When filtering crashes",
 "Filtering should return for every payload that can be exported. That is false of the code: it crashes if and only if attributes of resources (or scopes; a filter on record attributes counts as one) are asked for and a resource (or scope) it gets to has an attribute without a value.",
 "every payload and filter configuration",
 "Unbounded trees.",
 ["internal/visit/visit.go:matchAttr"])
p("C51","Exports cannot be blocked for ever","In every reachable state of a living server, whatever other exports and the flusher are doing, every export in progress can be brought to its successful answer within seven steps of goroutines that are already running: no deadlock on the sample buffer.","every schedule of exports, flushes, failures, shutdowns and restarts; every moment in it","All schedules.",["internal/service/service.go:Service.Save","internal/service/service.go:Service.start"])
p("C52","Nothing is invented","Every log record, span and data point in the answer to a scan (of the store, of a script or of the query command) was in some export request, whatever was exported, flushed, cut off, lost in a crash and restarted before, and even if the index or the dictionary do not fit the stored samples.","every schedule of exports, flushes with faults anywhere, crashes and restarts; every dictionary and index; every scan","All schedules, faults and scans.",["internal/service/service.go:Service.Save","internal/store/store.go:Storage.SaveSamples","internal/store/scan.go:Storage.Scan","internal/dataframe/dataframe.go:DataFrame.View","internal/collapse/collapse.go:Collapse"])
p("C53","Answered exports are what scans return",
 "Exports answered with success should be exactly what scans return. After a settled period (everything flushed, no faults) in the first process this holds: a range scan with filters returns exactly the records of the exports answered with success that carry the labels asked for in the scanned views, each once, and an instant scan the latest such export. It is false in general (C29, C43). What holds, exactly, for the deployed dictionary with its cache, any number of labels and every schedule of exports, flushes cut off anywhere, shutdowns, crashes and restarts: there is an account of what each flush of the schedule committed, everything for a flush that succeeded, in the order of the flushes and of the exports in them, and every scan without read errors returns what follows from this account: the merged payloads of the samples found by their numbered labels in the opened shards, each read at its row.","every schedule of concurrent exports and flushes, every payload, every scan","All schedules and payloads, and the whole path from request to answer.",["internal/service/service.go:Service.Save","internal/store/store.go:Storage.SaveSamples","internal/store/scan.go:Storage.Scan","internal/translate/translate.go:Translate.TranslateKey","internal/transform/context.go:Context.Process"])
p("C54","One database for dictionary, sequence and samples","The dictionary, the sequence of sample ids and the stored samples share one database; whatever is done with them in whatever order, with restarts, each answers as if it had a database of its own, the data frame as a map from views, and a view is never found without its sets.","every interleaving of dictionary, sequence and data frame operations and restarts; every view and key","All keys (namespaces must never collide) and all interleavings.",["cmd/rq/main.go:run","internal/translate/translate.go:New","internal/seq/seq.go:New","internal/dataframe/dataframe.go:DataFrame.appendView","internal/dataframe/dataframe.go:DataFrame.read"])
p("C55","Messages stored as columns come back unchanged",
  "For every protobuf message type that the column store accepts, and every sequence of messages appended to it, in one batch or several, decoding any rows of the columns gives exactly those messages, in the order asked for: unset and empty fields, lists of any length, nested lists, oneofs and serialized attribute values included.",
  "all message types with a schema, all sequences of messages and of batches, all lists of rows",
  "Tests decode a handful of literal messages; the claim is about every schema (a recursive structure), every nesting of empty and non-empty lists and every row.",
  ["internal/arrow3/node.go:createNode","internal/arrow3/node.go:unmarshal","internal/arrow3/node.go:baseType","internal/arrow3/arrow3.go:Append","internal/arrow3/arrow3.go:Proto","internal/arrow3/parquet.go:WriteParquetRecords"])
p("C56","Which message types have a column schema",
 "Making the column schema of a message type always ends; it fails exactly when a field that can be reached through message fields is a map, a group, nested deeper than ten levels, or of a message type that has no fields, so for every type that contains itself, and it succeeds for the data the store keeps.",
  "all tables of message types, cyclic ones included",
  "Termination and failure on cyclic types is a statement about all type graphs.",
  ["internal/arrow3/node.go:createNode","internal/arrow3/node.go:build","internal/arrow3/arrow3.go:New"])
p("C57","Reading one signal's columns",
  "The columns selected for metrics, logs or traces are all the columns of that signal and no column of another one, and decoding a row from only those columns gives the stored message with the other signals cleared.",
  "all schemas whose top-level fields are messages, all stored messages, all rows",
  "Columns are chosen by a prefix of a dotted path; that no other path has the prefix and none is missed has to hold for every schema and message.",
  ["internal/dataframe/columns.go:NewColumns","internal/arrow3/parquet.go:Read","internal/arrow3/node.go:unmarshal"])
p("C58","A scan made while samples are flushed is as if made at one moment",
 "A scan that runs while flushes are going on should return exactly what a scan made in one piece at some moment in between would return. With the labels asked for in one index shard that holds (views beginning with sample 0); with labels in several shards it is false of the code: a witness returns what no moment whatever explains. What holds, exactly, for every history, flushes cut off anywhere and every interleaving of the scan's transactions with theirs: there is an account of what was committed when each transaction of the scan began, which only grows, and of which a scan in one piece at that moment would return the answer; the scan returns what follows from it, each label looked up, each shard and each view read at its own moment. Among the samples found are all matching ones whose flush had succeeded before the scan began, if the shards of their labels were open.",
"all histories, all flushes under way with any crash point and map order, all interleavings of the scan's transactions with theirs, all filters",
"The interleaving of two goroutines over several databases cannot be enumerated by tests.",
["internal/store/scan.go:Scan","internal/store/store.go:SaveSamples","internal/shards/shards.go:rows","internal/data/dataframe.go:Unmarshal"])
p("C59","Walking a bit-sliced integer lists columns by descending value",
 "Walking a BSI with a filter reports exactly the filter's columns, each with the value its bits encode (also 0), larger values first and columns of equal value ascending; with a limit and an offset exactly the corresponding page of that list is reported, one callback per value and none without columns, and no row changes; an offset requires that the filter's Count is right (see C45; false otherwise).","every program over rows, every choice of up to 64 bit rows and a filter, every limit and offset","The walk is a recursion over all bit patterns; off-by-one errors in paging show only for particular group sizes",["internal/rows/bsi.go BSIData.PivotDescending","internal/rows/row.go Row.Count"])
p("C60","Adding two bit-sliced integers adds the value of every column",
 "The BSI returned by AddBSI gives every column the sum of its values in the two operands (a missing column counts as 0), its rows are correctly counted, and the call changes no existing row. Existing rows should also survive later modification of the result. That is false of the code; exactly: setting a column in row i of the result changes an existing row if and only if the column is new to that row and, in its shard, only one operand has any columns, some of them in its i-th row.","all pairs of BSIs built by any program over rows, all columns","Carries propagate over arbitrarily many slices and shards; a test checks a few sums",["internal/rows/bsi.go AddBSI"])
p("C61","Builders reproduce what was inserted",
 "A row builder given ascending columns builds a row with exactly these columns and the right count and can be used again; a BSI builder given ascending columns with values builds a BSI in which every inserted column has its value and every other column 0; building, adding and walking reports the sums. (Columns may even go back to an earlier container of 2^16 columns. For a column inserted twice, against the documented contract, the count is wrong: witness.)","all ascending sequences of 64-bit columns and values, of any length","The representation switches at 4096 values per container and at every 65536 columns; tests sample lengths",["internal/rows/bsi.go RowBuilder.Add","internal/rows/bsi.go RowBuilder.Build","internal/rows/bsi.go BsiBuilder.Insert","internal/rows/bsi.go BsiBuilder.Build"])
p("C62","One flattened row per data point",
 "Appending metrics to the flattened table adds exactly one row per data point, in order, with consecutive ids; the row carries the name, description, unit, kind, temporality, monotonicity, attributes, times, exemplars and contents of the point. It should also carry the point's value and never end the process. That is false of the code: the value written is that of the last point of the same metric, up to and including this one, that has a value (so a point without value repeats an earlier one's, if there is one); and, while the dictionary works, appending ends the process exactly if some attribute of a resource, scope or data point has no value.","all lists of requests with any nesting of resources, scopes, metrics and points, all dictionaries, all earlier contents","The message under construction is reused between points and reset field by field; tests compare one file",["internal/f2/metrics.go Metrics.Append","internal/f2/metrics.go Metrics.metric","internal/f2/attr.go"])
p("C63","Flattened rows are indexed by their labels",
 "In the bitmap of the flattened table, the bits of a row should be exactly those of its labels: its name and its string attributes, including those of its resource and scope. That is false of the code: resource and scope attributes are lost, columns 2^20 apart share a bit, and a key containing '=' is ambiguous. What holds, exactly: the bits of a row are those of the columns, modulo 2^20, of its name and of the data point's own string attributes, in every dictionary and after any requests; rows with different ids below 2^44 never share a bit, and over all 64-bit ids two bits coincide exactly if the ids agree modulo 2^44 and the columns modulo 2^20.","all lists of requests, all dictionaries, all rows","Needs distinct rows and labels not to interfere, for every dictionary content",["internal/f2/metrics.go Metrics.Append","internal/f2/attr.go"])
p("C64","The series hash identifies the series",
 "Two flattened rows should have the same hash exactly when they agree in name and attributes, provided the hash function does not collide. That is false of the code (attributes of resource and scope do not count). What holds, exactly: if the hash does not collide, two rows have the same hash if and only if their names and the sets of labels of the points' own string attributes agree.","all pairs of rows of all lists of requests, all dictionaries","Ranges over all pairs of points and all dictionary histories",["internal/f2/metrics.go Metrics.Append","internal/f2/attr.go"])
p("C65","Own spans are exported once, grouped","The request made of a batch of SDK spans contains every span that is not nil exactly once, in one group per set of resource attributes and one subgroup per instrumentation scope, spans in the order of the batch; resource and schema URL of a group are those of its first span (a later span of the same attributes with another schema URL is exported under the first one).","all batches, with nil spans, nil resources and repeated resources and scopes in any interleaving; all map iteration orders","Two maps of pointers are kept in step; a test fixes one interleaving",["internal/self/trace/tracetransform/span.go Spans","internal/self/trace/tracetransform/instrumentation.go InstrumentationScope","internal/self/trace.go Trace.ExportSpans"])
p("C66","Own attributes keep their values",
 "Exported attribute values are equal exactly when the SDK values are, except that unsupported values become the text INVALID and empty lists of different element types become equal (exact condition for all pairs).","all pairs of attribute values, lists of any length","Ranges over all pairs",["internal/self/metrics/transform/attribute.go Value","internal/self/trace/tracetransform/attribute.go Value"])
p("C67","Own metrics are converted or reported","Converting metrics exports, per scope and in order, exactly the metrics whose kind and temporality are supported, with unchanged name, description, unit, points and the same temporality; each other metric is reported exactly once, in order, in one error, and errors.Is on that error finds a cause exactly if some metric fails for it. The exporter sends a request exactly if all metrics are supported (one that is not keeps all others from being sent).","all lists of scopes with any metrics; all depths of error chains","errors are flattened and unwrapped recursively, over any number of metrics",["internal/self/metrics/transform/metricdata.go Metrics","internal/self/metrics/transform/metricdata.go ScopeMetrics","internal/self/metrics/transform/error.go multiErr","internal/self/metrics.go Metrics.Export"])
p("C68","rq query runs the compiled form of the script it was given",
 "`rq query` compiles the script and keeps the result in a cache directory, under the hash of the script. The program it runs should be the compiled form of its own script: in full, by the same version. That is false of the code (witnesses: a process killed while writing, one reading while another writes, an upgrade, hashes that collide, zero bytes left in a gap). What holds, exactly, whatever other rq processes do at the same time and whenever they are killed, for any compiler and hash: the process reads the cache once; if there is no file, it runs the compiled form of its own script; if there is one, it runs byte for byte what processes with scripts of the same hash had written into it by then, since it was last emptied. With one version and no collisions that is its own script, possibly with bytes missing, and in full exactly if every byte had been written. A file nobody is writing stays for ever.","every number of processes, every interleaving of their steps, every point where one is killed or fails, every script, compiler and hash","depends on crash points and interleavings of processes and on what is left in the cache by earlier runs",["internal/commands/query/query.go: build, run"])
p("C69","Bytes got from an arena stay what they are until the arena is released","The bytes that `Marshal`, `Compress` and `Bytes` return are the message, the compressed message, or what was written since `NewWriter`, and stay so whatever is done with this or other arenas, until this arena is released: so what the data frame commits is what it wrote.","every sequence of operations on any number of arenas, interleaved in any way, every message and failure, every choice of the pool and every capacity of new arrays","aliasing depends on capacities, on the pool and on the interleaving with other users",["internal/arena/arena.go: NewWriter, Write, Bytes, Marshal, Compress, Release, New","internal/dataframe/dataframe.go: appendView"])
p("C70","Printed attributes and metrics tell different data apart",
 "The text that `rq` prints for attributes should be different for different attributes, and printing should never end the process. That is false of the code (witnesses: bytes and doubles that look like integers, keys with spaces, an array of one unset value, histograms). What holds, exactly: attributes with keys without spaces have the same text exactly if they look the same, that is, the same keys and nesting, the same strings, and the same words for numbers, booleans and bytes; printing metrics ends the process exactly if there is a nil value in attributes that are printed (of points of gauges and sums always, of resources and scopes if the option is set); the table of a gauge or sum has one line per point, in order, with the times of the points as calendar seconds in UTC and the unit of the metric (ns if it has none and its description speaks of nanoseconds); other metrics are printed without their points.","all attribute lists of any depth and size; all metrics","unambiguity is a statement about all pairs of values, nested to any depth",["internal/render/attribute.go: value, attr","internal/render/metrics.go: metrics, numeric"])
p("C71","Compressed gRPC messages of different calls never mix","What a user of the zstd codec writes and closes reaches its own writer, compressed, and nothing else does; what a reader gets is its own input decompressed, a prefix at any time and all of it at the end; whoever else uses pooled encoders and decoders at the same time. An operation panics exactly if it uses a codec that was closed or read to the end before.","all interleavings of any number of users, every choice of the pools, every sequence of read sizes","pool reuse and interleavings are outside what a test schedules",["internal/compress/grpc.go: codec, writeCodec, readCodec","internal/compress/zstd.go: Compress, To, Decompress, getEncoder, putEncoder"])
p("C72","Which stored samples the time window of a scan covers","A scan reads the samples of whole clock hours, days, months or years, by the length of its range. If the function that lists the periods of a range (an external library) did cover its ranges, a stored sample that has everything asked for would be returned exactly if its hour (day, month, year) has a moment in the range. As the library is published, ranges of a day and more leave out the whole day (month, year) in which they end, a range shorter than a day leaves out its last clock hour unless it has more than the whole hours up to it, samples before the range are returned if they lie in the period in which it begins, a range of months that begins after the 28th and ends in the next month can be empty, and a scan without a range finds exactly the samples of the one clock hour that contains the moment 15 minutes before the time asked for - so up to 15 minutes after a full hour no sample of that hour is found.","every history of flushes (cut off anywhere) and restarts, every sample, every start and end of a range or time of an instant scan in the range of the program's times","it depends on calendar arithmetic at every pair of instants together with every history of the store",["internal/store/scan.go: Scan","internal/x/x.go: TimeBounds","internal/view/view.go: ChooseQuantum, Search","internal/shards/shards.go: Rows","internal/dataframe/dataframe.go: View"])
p("C73","What each filter of a scan selects","A filter on a field (resource or scope schema, scope name or version, name, trace, span or parent id, log level) selects exactly the samples of the signal of the scan whose payload has this field with exactly this text: ids in lower-case hexadecimal, an empty text only for metric names and ids. A filter on an attribute of resources, scopes or records (data points, for metrics) selects exactly the samples with a non-empty string attribute there that spells the same key=value text; with keys without '=' that is this key with this value. Filters are joined by and. Attributes of spans are never found, and a trace id given in upper case is found in no sample although the same id is recognised when results are cut down.","all payloads of any size, all filters and lists of filters, all texts","the answer must be right for every payload, every text and every combination of filters",["internal/store/scan.go: Scan","proto/rq/v1/scan.proto: Scan.BaseProp, Scan.AttributeProp","internal/transform/transform.go: Context","internal/labels/labels.go: Label.Encode","internal/visit/visit.go: hex ids"])
p("C74","What is kept in the database, and under which keys","After any history of a new database, with restarts, its entries are exactly: the counter of sample ids under 12 fixed bytes; the counters of label ids under 5seq (written at start) and 5ids (written later: the intended key is overwritten in memory); for each label that got an id, 5idss+label with the id in eight bytes (the intended prefix 5keys is overwritten in memory), and 5ids+id with one of the labels of this id; for each view that was written, its columns under the name of the view and its three sets under sets_metrics_, sets_traces_ and sets_logs_ and the name, as last written. Labels are kept as resource:prefix:key or resource:prefix:key=value with decimal numbers.","every history of operations of the dictionary, the sequence and the store, interleaved, with restarts; every label, view and value; fewer than 2^56 ids","the layout must hold after every history",["internal/translate/translate.go: New, TranslateKey","internal/seq/seq.go: New","internal/dataframe/dataframe.go: appendView","internal/labels/labels.go: Label.Encode","internal/keys: Sample.Encode","cmd/rq/main.go: run"])
p("C75","Recycled objects never carry data from one request to another","Scans, flushes, the trimming of results for scripts, and dictionary calls take bitmaps, labels, keys, quantized times, visitors, sorters, buffers and column builders out of pools shared by all goroutines and put them back. However these goroutines interleave, whichever pooled object each Get returns, whenever the garbage collector empties a pool, and whatever the databases answer, each call returns exactly what it would have returned with new objects of its own and the same answers; none is ever stuck, and each ends. In particular a scan answered from a state of the store returns what that state says, and a flush answers and writes what it would alone. (A function that used an object after putting it back, or put it back twice, would see other requests' data.)","any number of concurrent calls, all their arguments, all interleavings of their single steps, all choices of pooled objects, all moments of garbage collection, all answers of the databases","sync.Pool hands out objects depending on scheduling and garbage collection; leaks between requests appear only in particular interleavings",["internal/bitmaps/bitmaps.go: New, Bitmap.Release","internal/labels/labels.go: NewLabel, Label.Release","internal/keys/keys.go: Sample.Release","internal/batch/time.go: QuantizedTime.Release","internal/visit/visit.go: New, All.Release","internal/data/sort.go: Sorter.Reset","internal/dataframe/dataframe.go: View, Append","internal/translate/translate.go: get, put","internal/store/scan.go: Scan","internal/store/store.go: SaveSamples"])
p("C76","Lookups at the same time do not disturb each other","Scans of any number of clients look up labels in the dictionary at the same time. Each lookup builds its database key by appending to a slice shared by all, then asks the database. In the program, however these steps interleave with each other and with translations, commits, id lookups and restarts, every lookup of a label answers exactly as if it were one step: the id its own label was given, if it was given one, otherwise nothing; and no lookup changes what others or the translations see. This rests on labels having at least four bytes and the shared slice having room for three. For any other opening of the dictionary the answer is exactly: a key that does not fit into the room is safe; one that fits is covered by every fitting key another lookup built in between, so that a lookup can return another key's id.","all histories of interleaved lookups (each in two steps) and other dictionary operations, all labels and keys, all capacities of the shared slice","the race shows only for particular interleavings, capacities and key lengths",["internal/translate/translate.go: Find, New","internal/store/scan.go: CompileFilters","internal/labels/labels.go: Label.Encode","cmd/rq/main.go: run"])
p("C77","What a script gets is what was exported",
 "End to end: in the process that created the database, with at most 4096 labels, once all exports are answered and flushed and no faults occurred, a script that scans a time range with filters gets exactly the log records, spans or data points that lie in the window and match the filters, of all the exports answered with success that are filed under the scanned views; each once, and each with the resource and scope it was exported with (the schema URL of the scope excepted, C48). Merging attributes no record to another resource or scope, unless their hashes are the same. The scan fails only if metrics of the same name have different kinds (C35), and crashes only if an exported attribute has no value (C50). An instant scan gets the wanted part of the latest matching export.",
 "every schedule of concurrent exports and flushes, every payload, every scan with filters whose views start with the first export, every order of Go's maps",
 "All schedules and payloads and all combinations of filters; the property is about the composition of the service, the store, merging, the remote call and the script engine.",
 ["internal/service/service.go:Service.Save","internal/service/api.go:Service.ScanSamples","internal/store/scan.go:Storage.Scan","internal/data/data.go:Collapse","internal/js/rq.go:JS.Scan","internal/visit/visit.go:All.Visit","internal/commands/query/query.go"])
p("C78","What the exported telemetry of the database itself tells",
 "The database exports its own spans and metrics to itself. An exported span holds what the span holds, field by field: ids, trace state, parent (none if it has none), kind, name, times, status, attributes, events, links and dropped counts, the status codes translated; two spans have the same exported form exactly if they agree in all of these. The same holds for data points of gauges, sums, histograms, exponential histograms and summaries (values exactly and with their type; sums, minima and maxima of histograms as doubles) and for whole metrics. Not exported are the flags of contexts, the trace id of the parent, the trace state of links and the zero threshold of exponential histograms; times outside 1678 to 2262 become other times, and attribute values are told apart as in C66.",
 "all spans, data points and metrics of any size; times and counts in range",
 "unambiguity is a statement about all pairs of values",
 ["internal/self/trace/tracetransform/span.go: span, links, spanEvents, status, spanKind","internal/self/trace/tracetransform/attribute.go: KeyValues","internal/self/metrics/transform/metricdata.go: DataPoints, HistogramDataPoints, ExponentialHistogramDataPoints, SummaryDataPoints, Exemplars, timeUnixNano","internal/self/metrics/transform/attribute.go: AttrIter, KeyValues"])
p("C79","Reading rows of the index out of the package",
 "The table of a row lists its columns (or its string keys) one per line, in order, the headers first, and reading the values gives them back; a callback gets these lines in order until it fails. Two rows have the same JSON text exactly if they have the same columns. ShardColumns lists the columns in order, each within its shard; the number of common columns is counted right; a row written as a roaring file and read back has the same columns; clearing a column removes this column from this row and nothing else (in programs whose calls are safe in the sense of C46). Exactly what shifting gives: all columns plus n are listed, but Includes finds only those that stayed in their shard. Reading an integer as a double ends the process, a double reads as 0, and Freeze protects nothing.",
 "all programs over rows, all columns, keys and callbacks, all shifts",
 "must hold after every sequence of operations, for all columns of all shards",
 ["internal/rows/row.go: RowsToTable, Row.ToTable, Row.ToRows, Value, Row.MarshalJSON, Row.ShardColumns, Row.Shift, RowSegment.ClearBit, Row.Freeze, Row.Roaring, NewRowFromRoaring, Row.intersectionCount"])
p("C80","Scripts do not see each other","Script engines are pooled and reused. In every history of any number of users who take an engine, set its clock, scan function and writer, run scripts on it and give it back, interleaved in any way and with any engine handed out by the pool: the engine of a user is at every moment what a new engine would be to which only his own steps since he took it had been applied, so what his script prints reaches the writer he set and no other, and it is evaluated with his own clock, scan function and last request; the only thing carried over is the set of globals of the JavaScript runtime, which is that of a new runtime or the one left by an earlier user when he gave the engine back (it does carry over: Reset keeps the runtime). The engine of `rq query`, the first of its process, starts with a new runtime. A script that itself calls RQ.Release() breaks this: it then shares its engine. The cache of compiled scripts answers with the program (or the error) of the text asked for, or with that of a text asked for earlier with the same 64-bit hash; without such a collision always with the right one, whatever the cache evicts.","every history of users, steps and pool choices; every history of compile requests, evictions and hash functions","pooling bugs show only when one user's engine is handed to another after a particular interleaving, and hash collisions cannot be provoked by a test",["internal/js/rq.go: New, Reset, Release, WithNow, WithScan, WithOutput, Run","internal/snippets/snippets.go: GetProgramData"])
p("C81","A server finds its own files again","The database and the index of a server are the directories data/db and data/index below its home directory, which is the path given on the command line, cleaned, or .rq in the user's home directory; if that is not known (HOME unset) it is .rq in the current directory, so where a server without argument keeps its data depends on where it was started. For every argument: database, index and script cache of a home directory are different directories, none inside another; two servers (or two runs of one) use the same database exactly if they use the same index, exactly if their arguments clean to the same path, and the database of one is never the index of another; repeated or trailing slashes, ./ and name/../ do not matter. Every shard has its own file in the index directory and every script hash its own file in the cache directory. On Windows the home directory of the user is the one given by the four documented rules.","every argument (any bytes), environment and file system state; all pairs of servers, shards and hashes","all paths cannot be tried; that no argument whatever makes two directories coincide needs an argument about path cleaning",["internal/commands/home.go: Home, Cache, Data, DB, Index","internal/home/homedir.go: Dir","cmd/rq/main.go: run","internal/shards/shards.go: get"])
p("C82","Values with units of time are shown as what they are","A data point of a metric with unit h, m, s, ms or ns is rendered as a duration. For every value: reading the text as a sum of numbers with units gives back the duration to the nanosecond (so different durations have different texts), written with the largest fitting unit below a second and in hours, minutes and seconds above, without zeros at the end of a fraction; the duration is exactly value times unit for integer values up to 2^53 ns (104 days), and within the two roundings of floating point arithmetic otherwise, for doubles within one rounding and one nanosecond towards zero, with the right sign, below 2^63 ns (292 years; beyond, Go leaves the conversion open). Every other unit (among them us, min and d) is ignored and the bare number shown, except By, which is shown by a library.","every integer and double value, every unit text","no finite set of values covers rounding and carry in all ranges",["internal/render/unit.go: formatUnit","internal/render/metrics.go: numericDataValue"])
p("C83","Requests stop at the first failing database access and do not pass it off as success",
 "A flush first translates labels, then updates the tables of the views, then the index; a scan looks up labels, then reads the index, then the tables, and changes nothing. Each goes on only while every access is answered (that a key, shard or view does not exist is an answer): everything before its last access succeeded. If a translation fails the process exits; if another access of a flush fails the flush returns an error, so it returns success only if nothing failed; if the dictionary or the index fails a scan returns an error. (If reading a table fails, a scan returns no data and no error.) A table that a flush writes begins with the rows that it read for it. A dictionary translation returns an error exactly if an access failed; looking up the keys of ids hands over the keys before the first failure and returns an error exactly if there is one.",
 "all requests, all answers and failures of the databases, all interleavings with other requests, all choices of pooled objects",
 "each of the many accesses of a request can fail, after any history and at any point of a concurrent run",
 ["internal/store/store.go: SaveSamples","internal/store/scan.go: Scan, CompileFilters","internal/dataframe/dataframe.go: Append, appendView, read","internal/shards/shards.go: rows, Update","internal/translate/translate.go: TranslateKey, TranslateID, TranslateBulkID"])
p("C84","Starting and stopping the server",
 "The server makes its parts in a fixed order: database, dictionary, index, sequence of sample ids, service, listener, gRPC server, own telemetry. If one cannot be made, or when the server is interrupted or its listener ends, the parts that were made are closed, each once and in reverse order (so the dictionary and the sequence, which write to the database when they are closed, while it is open), and nothing is closed before; the one exception is a listening address that cannot be used: the process ends with the database, dictionary, index and sequence still open. An interrupt at any moment makes it return by its own steps. Flushes and requests begin to use parts only when all are made, and use a closed part only after the server was told to stop; this does happen, since nobody waits for them.",
 "all points of failure while starting, all moments of interruption, all interleavings with flushes and requests",
 "the interrupt and the failures can come at any step, and the flushing goroutine and requests run concurrently with the shutdown",
 ["cmd/rq/main.go: run","internal/service/service.go: Start, start, Save, Close"])
p("C85","Scripts ask for what they say","In every script, whatever it does with any number of query objects in any order and whatever exceptions it catches: `query()` on an object made by `new Metrics(name)`, `new Logs()` or `new Trace()` executes a scan of that class's signal, with the name given to `Metrics` (unless it is empty) and the filter methods called on that object as filters, in order, the limit, offset, now and window of the last method on that object that sets them (`latest()` is the last 15 minutes before the call) and reversed exactly if `reverse()` was called on it. Calls on other objects change nothing. A method throws exactly if it is given a duration that cannot be parsed, and then changes nothing. `query()` throws exactly when the scan fails, and otherwise returns the whole answer: with the store of a server, in any state, the answer is a message of the object's own signal and is returned as it is, or it has no records and null is returned.","All scripts (sequences of constructors, methods and queries on any number of objects, with caught exceptions), arguments, time zones, clocks and states of the store.","Objects, methods and orders combine without limit, and what one object asks for must not depend on any other; tests run single chains with one object.",["packages/rq/src/core.ts: Config","packages/rq/src/core_metrics.ts: Metrics","packages/rq/src/core_logs.ts: Logs","packages/rq/src/core_trace.ts: Trace","internal/js/bundle/index.js","internal/js/scan.go: Scan.Create"])
p("C86","The durations that scripts write are read as they say",
"`offset(text)` and `ago(text)` accept exactly zero (`0`, `+0`, `-0`) and texts of an optional sign followed by numbers with units (ns, us, µs, ms, s, m, h; digits before or after the point) whose parts and sum are within int64; everything else is an exception in the script and changes nothing. The duration used is the sum of the parts with the sign: exact where a part's digits are whole nanoseconds, otherwise cut off to the nanosecond with an error of less than a hundredth of a nanosecond, whatever the number of digits. Every duration the program itself prints reads back as itself. `ago` then asks for the window that ends at the time of the call and is as long as the text says. (Go's reading has one odd case: two parts of exactly 2^63 ns each add up to 0.)",
"all texts, all durations, all scripts",
"The texts are unbounded; floating point rounding of fractions and 64-bit limits matter at values no test lists.",
["internal/js/scan.go:Scan.Offset, Scan.Ago","packages/rq/src/core.ts: offset, ago, latest"])
p("C87","Strings are shown as Go string literals","When metrics are shown as text, a string attribute appears as a Go string literal that stands for exactly its bytes, whatever they are, valid UTF-8 or not. The text is one line of valid UTF-8 without control bytes, where the string ends can be told from the text alone whatever follows, so different strings never look the same, no string can forge the end of its own quotes, a line or a cell of a table; and printable text without quotes and backslashes is shown as it is. So attribute lists of strings, booleans, integers, arrays and lists with keys without spaces have the same text only if they are the same.","every byte string, every set of printable characters, every attribute list","the strings are unbounded and come from any client; an escape that collides or a decoder that takes an overlong or cut sequence for a character shows only on inputs that nobody thought of",["internal/render/attribute.go: value","internal/render/attribute.go: attr"])
p("C88","Tables line up, and only keys can break them","What is printed for metrics comes in tables. For all points, times, values and attribute values, and attribute keys without tabs, line ends and the byte 0xFF, the table of a gauge or sum is a heading and one line for each point, in order, each cell filled up with spaces to the width of the widest cell of its column plus one, counted in characters (bytes that are not UTF-8 count one each); the same holds of the tables of resources and scopes (right-aligned) and of description and unit, for names, schemas, versions, descriptions and units without such bytes. Whatever is written to a table, nothing but spaces, tabs and line ends is lost, added or reordered, and without the byte 0xFF there are as many lines as were written. A key with line ends can make up further points with any time and value: the page is then, to the byte, that of the other points.","every list of points, resources and scopes, every number of rows and every cell text, every set of printable characters","widths depend on all rows at once and cells on any client; the interplay of wide characters, stray bytes, escapes and line ends is unbounded",["internal/render/metrics.go: numeric","internal/render/metrics.go: scope","internal/render/metrics.go: resource","internal/render/metrics.go: metrics"])
p("C89","Compiling a script is a function of the script, and cleans up after itself unless the file system fails",
"Compiling a script writes it, and the bundled packages, into a fresh temporary directory, runs esbuild there and removes the directory. Whatever other processes compile at the same time, are killed or fail: if the files were written, the outcome is what esbuild makes of this version's packages, their aliases and the script alone (so it is one function of version and script, as C68 needs it), and otherwise it is an error of the file system. The directories that remain are exactly those a call made and did not remove; a call that ends removes its own, also when esbuild reports errors or gives no output, exactly if every file was written and the removal did not fail. A call that cannot write a file leaves its directory behind for ever, and so does one that is killed.",
"every course of events of any number of concurrent calls, any order of Go's map iteration, failure and kill points, any esbuild, any table of packages whose last name parts differ",
"needs all interleavings, failure points and map orders",
["internal/compile/compile.go: Compile, createPackage, setup","internal/js/bundle/bundle.go: PKG"])
p("C90","Doubles are printed so that they can be read back",
 "A double, as an attribute value or as the value of a data point without a unit, is printed as one word of at most 24 bytes, of digits, point, signs and letters of e, Inf and NaN only. For every finite double, reading the printed text as a decimal number gives its sign and a number whose nearest double (the even one of two) is the one printed; so two different doubles (0 and -0 among them) never have the same text, and only the values that are not a number look all alike. The exponent form is used exactly for numbers shown as less than 0.0001, or as 1000000 or more. Whole numbers below 10^15 are shown exactly, and below a million as plain decimal digits. Attributes with doubles have the same text exactly if they look the same.",
 "all 2^64 doubles, all integer values, all attribute lists",
 "There are 2^64 doubles; a test tries a few.",
 ["internal/render/attribute.go:29","internal/render/unit.go:25 formatUnit","internal/render/metrics.go numericDataValue"])
p("C91","Numbers of bytes are shown to within 5.6 percent",
 "A data point of a metric with unit By is shown in B, KiB, MiB, GiB, TiB, PiB or EiB. For every number of bytes: reading the text as number times unit gives the size to within 5.6 percent, and exactly below 1024 bytes; it is the nearest number of tenths of the unit (up to the roundings of floating point arithmetic, a part in 2^30), printed with one decimal below 10 units and as a whole number (halves to even) above, and the unit is the largest one not larger than the size, except right next to a power of 1024. Whatever the value (negative, infinite or not a number among them) printing never crashes and takes at most 8 bytes, without a minus sign: Go leaves open what a negative value becomes, so its sign is lost. No printed number can break a table.",
 "all values of data points, all sizes below 2^64, any logarithm accurate to one part in 2^40 of its argument",
 "64-bit sizes cannot be enumerated; rounding errors and the logarithm go wrong only at particular sizes.",
 ["internal/render/unit.go:22-23 formatUnit","internal/render/metrics.go numericDataValue"])
p("C92","Messages and attribute values survive being written as bytes","A message of any of the program's types (OTLP data, attribute values of any nesting) that is serialized is deserialized as the same message, fields of newer versions of the protocol included; serializing fails exactly if some string in the message is not valid UTF-8; two different messages never serialize to the same bytes. Every spelling the wire format allows (lengths and field numbers with superfluous bytes, up to 10000 messages inside each other) is read as the message it spells. In particular attribute values that are stored as bytes in the columns of internal/arrow3 come back as they were, however deeply lists and pair lists are nested.","all proper message schemas, all messages, all spellings, all attribute values","values and nesting depths are unbounded, and the round trip must hold for each combination of set fields",["internal/arrow3/node.go: newNode (AnyValue: proto.Marshal, proto.Unmarshal)","internal/data/sort.go: hashAttributes","internal/arena/arena.go: Arena.Unmarshal/Marshal","proto/rq/v1/scan.proto: Data"])
p("C93","Whatever bytes a peer sends, an accepted message is a proper one",
 "If arbitrary bytes are accepted as a message, the result is a message of its type: at most one member of each oneof is set, no field twice that is not a list, numbers within the range of their type, all strings valid UTF-8, nesting at most 10000; it can always be serialized again, to at most 15 times as many bytes, and deserializing that gives the same message, with the fields this version does not know.","all proper message schemas, all byte strings","input from the network is arbitrary: hostile or cut-off bytes, groups, repeated fields, members of a oneof that follow each other",["internal/x/x.go: Decode","internal/arrow3/node.go: newNode","proto/rq/v1/scan.proto: Data"])
p("C94","Attributes decide which resources and scopes are merged","When payloads are merged and the hash does not collide on their texts, two resources are merged exactly if they have the same schema URL and the same attributes in the same order, and two scopes exactly if their resources are merged, their attributes are the same, and schema URL, name and version, run together, are the same. This is so as long as attributes have keys and schema URLs, names and versions have no line feeds; without that it is false: an attribute without a value that is followed by one without a key is taken for one attribute, attributes without key and value leave no trace, and a schema URL with a line feed may read like attributes.","all payloads, all lists of attributes with values of any nesting, all hashes that tell the texts of the payloads apart","attribute lists are unbounded and are hashed without separators; whether two different lists give the same text cannot be tried out",["internal/data/sort.go: Sorter.attr, hashResource, hashScope","internal/data/metrics.go: collapse","internal/data/logs.go","internal/data/trace.go"])
p("C95","Bytes from a peer mean what the wire format says","Bytes are accepted as a message exactly if they are a sequence of fields (any order, any number of times, unknown ones among them), each well-formed by itself: strings UTF-8, lengths that fit, numbers of at most ten bytes, messages at most 10000 deep. The message is then the one the format's rules give, and only that: lists have all their elements in order, whether numbers come packed, one by one or in several parts; of other fields the last occurrence counts, zero meaning not set; the parts of a message field are put together as if their bytes followed each other; of a oneof only the member that came last is set, without what it had before another member came; 32-bit numbers are the low bits; fields that are unknown, or come with another wire type, are kept with their bytes. So the bytes of two messages, one after the other, are a message too.","all proper message schemas, all byte strings","input is arbitrary; repeated, split, reordered and unknown fields combine without limit",["internal/x/x.go: Decode","internal/arrow3/node.go: newNode","proto/rq/v1/scan.proto: Data"])
p("C96","A scan that is requested over the network is the scan that is answered",
 "A client writes a Scan request (scope, time range whose ends may be missing, filters, limit, reverse, now, offset) as protobuf. The server reads back exactly that request, whatever its values are; bytes that it accepts in any other form (fields in any order, repeated, unknown ones) are a request whose strings are UTF-8 and whose numbers are in range. With the 64-bit arithmetic of Go's Timestamp, Duration and time, the window that is searched is the one that the times of the request give in unbounded arithmetic, for every clock and every time that is less than 2^62 seconds away from 1970; a missing end of a time range is the beginning of 1970, a range makes now and offset count for nothing, and an offset is subtracted, up to 292 years; an offset of 292 years or more into the future leads 292 years into the past. The answer is that of the scan that the request asks for, unless the request has more than 4 MiB, which gRPC refuses; limit and reverse change nothing. A time that a script gives reaches the scan unchanged (every 64-bit number of milliseconds does), and so does every duration.",
"all requests, all bytes, all clocks and times, all states of the store","The times are products and sums that can overflow in 64 bits in several places, each with its own way of saturating or wrapping; tests try a few times near today.",
["internal/service/api.go: ScanSamples","internal/x/x.go: TimeBounds","proto/rq/v1/scan.proto: Scan, TimeRange, Filter","internal/js/scan.go: Offset, Now, rangeTS","internal/store/scan.go: Scan"])
p("C97","Exported data arrives as it was sent",
 "A client that exports metrics, logs or traces over gRPC (strings in UTF-8, times of 64 bits, ids absent or not empty, nested at most 10000 messages deep) can write the request, and if it has at most 4 MiB (gRPC refuses longer ones) the data the server saves for it is that data: the same resources, scopes, metrics with their points, logs and spans with their names, times, attributes and ids, in the same order, with what the server does not look at carried along byte for byte. Whatever bytes are sent instead, what is saved if they are accepted is data of the kind of the call of this form: no ids of length zero, no text that is not UTF-8, no time outside 64 bits. Sent to a client as the answer to a scan, that data can be written, and is read by the client as it was exactly if the request was nested less than 10000 messages deep; there are requests of about a hundred kilobytes that are accepted but whose data no client can read.",
 "every exported data, and every sequence of bytes sent as a request",
 "Requests are trees of unbounded size with 30 message types, fields in any order, repeated or unknown; a test sends a few of them, and none at the nesting limit.",
 ["internal/service/service.go: Export, Save","internal/transform/transform.go: data","internal/transform/metrics.go","internal/transform/logs.go","internal/transform/trace.go","proto/rq/v1/scan.proto: Data"])
p("C98","The answer of a scan reaches the client as it is","Scripts that `rq query` runs make their scans over the network: the request is written as protobuf, answered by the server, and the answer is written and read again. Whatever was exported before (data nested less than 10000 messages deep), flushed, lost in a crash and restarted, such a scan gives the script exactly what the scan of the store returns: a nil answer becomes an empty one and a crash of the server an error. The one exception is a request or an answer that has more than 4 MiB: gRPC refuses it, and the scan is an error, never a part of the data. What a scan returns is always of the form of what was exported: text in UTF-8, times of 64 bits, ids absent or not empty, nested no deeper.","all histories of calls, flushes, crashes and restarts; all scans a script can build; all clocks; all data","An answer is put together from samples of many requests, stored as columns and projected; that its bytes are always a message that the client reads back the same needs an argument about every such combination.",["internal/service/api.go: ScanSamples","internal/commands/query/query.go: run","internal/commands/home.go: Conn","cmd/rq/main.go: run","internal/data/data.go: Collapse"])
p("C99","A script run by the client sees the data of the server","For every script that `rq query` runs, whatever it does with any number of query objects in any order: `query()` on an object made by `new Metrics(name)`, `new Logs()` or `new Trace()` asks the server over the network for the scan that the methods called on that object ask for, and gets exactly what the same script would get from the server's store itself; or an exception, if the request or the answer has more than 4 MiB. Every scan that a script can build can be sent (its texts are UTF-8, as JavaScript's strings are handed over; every window such as `today` or `ago` and every 64-bit time arrives as it is); only an offset of exactly 292 years into the future, the least duration there is, is excluded. Every log record, span and data point in the value that the script gets was in some request that the server received, whatever was exported, flushed, cut off, lost in a crash and restarted before.","all histories of the server; all scripts, with any times of their operations, any time zone table and any texts; all clocks","A script's answer depends on the script, the time zone, the bytes of the request, the history of the store and the bytes of the answer; no example covers a combination of them.",["internal/commands/query/query.go: run","internal/js/scan.go","packages/rq/src/core.ts","internal/service/api.go: ScanSamples","internal/store/scan.go: Scan"])
p("C100","Metrics as JSON say all that is in them",
 "A script that renders metrics as JSON writes one text that RFC 8259 accepts and that spells exactly one value; pretty or not, with the random spaces of the library or without, it is the same value. The value shows the metrics: a message is an object with one member for each field that is set, under its name, in the order of the .proto file; lists are arrays in order; 64-bit numbers are strings of decimal digits, 32-bit numbers are numbers, bytes are base64, the temporality is its name; a finite double is a number whose nearest double is the one that was there, with its sign, and the others are the strings NaN, Infinity and -Infinity. Nothing is lost: two metrics that give the same value are the same, but for fields that OTLP does not have, and which NaN a double is. Without Pretty the text is one line whatever the strings contain, and never has it another control character than line ends. It fails exactly if a string is not valid UTF-8.",
 "all metrics of any nesting with any values of the fields, both layouts, both builds of the library, any correct digits of doubles",
 "Strings, numbers and nesting are unbounded; that a text is well-formed, and that no two metrics have the same text, is about all of them.",
 ["internal/render/metrics.go: MetricsDataJSON, JSONOptions","internal/js/rq.go: RenderMetricsDataJSON"])
p("C101","A script at the client can print what it got as JSON, and prints all of it",
"Whatever was exported before (data nested less than 10000 messages deep), flushed, cut off, lost in a crash and restarted, and whatever else the script does: whenever query() on an object made by new Metrics(name) in a script that rq query runs returns a value, renderJSON prints it, pretty or not; it never throws. The text is JSON that spells exactly one value, and that value shows the metrics the script has (a query without metrics prints {}). Two results that print texts of the same value are the same, but for which NaN a double is.",
"every history of the server, every script (any operations on any number of query objects, at any times, in any time zone), every clock, JSON with indentation and without, and with the random spaces of the library and without",
"Whether printing can fail depends on what was stored (bytes that are not UTF-8), what filtering makes of it, and how the bytes travel, for all histories and scripts; a test prints a few texts.",
["internal/js/rq.go:RenderMetricsDataJSON","packages/rq/src/core_metrics.ts:renderJSON","internal/render/metrics.go:MetricsDataJSON","internal/commands/query/query.go","internal/visit/metrics.go"])
p("C102","What printing as text does to the client",
"When a script that rq query runs prints what it got of a query for metrics as text, the process of the client ends exactly if it got null (there are no metrics), or an attribute that is printed has no value, or holds, at any depth of arrays and lists, a pair without a value. Printed are the attributes of the points of gauges and sums always, those of resources and scopes if asked for. It holds whatever was exported, flushed, cut off, lost in a crash and restarted before, and whatever else the script does. Exporters can make it happen: the server accepts and stores attributes without values, and the client's filters keep them.",
"every history of the server, every script, all options of the text, every nesting of attribute values",
"Whether a script survives depends on data that any exporter sent at any time; a test prints a few samples whose attributes have values.",
["internal/render/attribute.go:value","internal/render/metrics.go:MetricsData","internal/js/rq.go:RenderMetricsData","packages/rq/src/core_metrics.ts:render"])
with open('/verif/properties.jsonl','w') as f:
    for x in P: f.write(json.dumps(x)+"\n")
print(len(P))
