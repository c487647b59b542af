# Which functions are modelled

Generated by `tools/coverage.py`: every function of the repository outside tests and generated code, with the definitions of the model whose
comments cite its lines, or the reason why it has none of its own.

340 of 488 functions are cited.

## cmd/rq/main.go

| function | lines | model |
|---|---|---|
| `main` | 36–69 | — logging, flags, command descriptions or wiring of libraries |
| `run` | 71–153 | Model/Paths: `serverDB`; Model/Run: `(module)`, `OnFail`, `Part`, `Proc`, `stages`, `step`; Model/Service: `atExit`, `start`; Model/Shared: `(module)`, `boot`; Model/Translate: `deployed`; Model/WireScan: `recvLimit` |
| `setupLogging` | 155–169 | — logging, flags, command descriptions or wiring of libraries |
| `Logger.Errorf` | 175–177 | — logging, flags, command descriptions or wiring of libraries |
| `Logger.Warningf` | 178–180 | — logging, flags, command descriptions or wiring of libraries |
| `Logger.Infof` | 181–183 | — logging, flags, command descriptions or wiring of libraries |
| `Logger.Debugf` | 184–186 | — logging, flags, command descriptions or wiring of libraries |

## internal/arena/arena.go

| function | lines | model |
|---|---|---|
| `Arena.NewWriter` | 16–19 | — part of `Marshal`, `Compress` in Model/Arena.lean |
| `Arena.Bytes` | 21–23 | — part of `Marshal`, `Compress` in Model/Arena.lean |
| `Arena.Write` | 25–28 | — part of `Marshal`, `Compress` in Model/Arena.lean |
| `Arena.Compress` | 30–41 | Model/Arena: `squeeze` |
| `Arena.Marshal` | 43–52 | Model/Arena: `marshal`; Model/Wire: `(module)` |
| `Arena.Release` | 54–59 | — part of `Marshal`, `Compress` in Model/Arena.lean |
| `New` | 61–63 | — part of `Marshal`, `Compress` in Model/Arena.lean |

## internal/arrow3/arrow3.go

| function | lines | model |
|---|---|---|
| `New` | 19–38 | Model/Arrow: `build` |
| `Schema.Append` | 42–44 | Model/Arrow: `append` |
| `Schema.NewRecord` | 48–50 | — a constructor, setter, getter or one-line wrapper: reflected in the definition of its callers |
| `Schema.Parquet` | 53–55 | — a constructor, setter, getter or one-line wrapper: reflected in the definition of its callers |
| `Schema.Schema` | 58–60 | — a constructor, setter, getter or one-line wrapper: reflected in the definition of its callers |
| `Schema.Read` | 62–64 | — a constructor, setter, getter or one-line wrapper: reflected in the definition of its callers |
| `Schema.WriteParquet` | 66–68 | — a constructor, setter, getter or one-line wrapper: reflected in the definition of its callers |
| `Schema.WriteParquetRecords` | 70–72 | — a constructor, setter, getter or one-line wrapper: reflected in the definition of its callers |
| `Schema.Proto` | 75–77 | Model/Arrow: `proto` |
| `Schema.Release` | 79–81 | — a constructor, setter, getter or one-line wrapper: reflected in the definition of its callers |

## internal/arrow3/node.go

| function | lines | model |
|---|---|---|
| `unmarshal` | 42–95 | Model/Arrow: `(module)`, `proto`, `read`; Model/Wire: `wireType` |
| `build` | 97–143 | Model/Arrow: `build`, `createNodes`, `toParquet` |
| `message.build` | 153–159 | Model/Arrow: `empty` |
| `message.append` | 161–163 | — an option of the Arrow schema; the model's builders accept nulls |
| `message.NewRecord` | 165–167 | — an option of the Arrow schema; the model's builders accept nulls |
| `createNode` | 168–366 | Model/Arrow: `(module)`, `createNode`, `createNodes`, `kidsAt`, `read`, `write`; Model/Wire: `(module)`, `Card`, `Field`, `Field.wireType`, `Got`, `Kind` …; Model/WireOtlp: `isNil`, `keyValue`, `ofAny`, `ofKey`, `ofList`, `ofPairs` |
| `node.build` | 368–370 | — an option of the Arrow schema; the model's builders accept nulls |
| `node.WriteMessage` | 372–377 | Model/Arrow: `append`, `write` |
| `node.baseType` | 379–568 | Model/Arrow: `createNode`, `hasImplicit`, `read`, `write` |
| `nullable` | 570–573 | — an option of the Arrow schema; the model's builders accept nulls |

## internal/arrow3/parquet.go

| function | lines | model |
|---|---|---|
| `message.Parquet` | 15–17 | — parquet, a library: a faithful list of rows in the model |
| `message.Read` | 21–45 | Model/Arrow: `readColumns` |
| `message.WriteParquet` | 48–52 | — parquet, a library: a faithful list of rows in the model |
| `message.WriteParquetRecords` | 56–80 | Model/Arrow: `concat` |

## internal/batch/batch.go

| function | lines | model |
|---|---|---|
| `New` | 28–32 | Model/Batch: `Batch.new` |
| `Batch.Reset` | 34–49 | Model/Batch: `Batch.reset`; Model/PoolFlush: `releaseTimes` |
| `Batch.addTs` | 51–55 | Model/Batch: `Batch.add`; Model/PoolFlush: `addTs` |
| `Batch.Add` | 57–62 | Model/Batch: `Batch.add` |
| `Batch.Build` | 64–71 | Model/Batch: `Batch.build` |
| `Batch.makeFragments` | 73–97 | Model/Batch: `addCols`, `makeFragments`, `pos`; Model/PoolFlush: `makeFragments`; Model/Time: `sampleViews` |
| `Batch.shardWidth` | 99–101 | — the constant `shardWidth` |
| `Fragments.String` | 105–127 | — debug text: not called by the program |
| `Fragments.GetOrCreate` | 129–142 | Model/Batch: `Frags.directAdd` |

## internal/batch/time.go

| function | lines | model |
|---|---|---|
| `NeqQuantumTime` | 20–22 | — takes from or returns to a pool (C69, C71, C75) or allocates; reflected where it is used |
| `QuantizedTime.Reset` | 24–26 | Model/Pool: `Obj.release` |
| `QuantizedTime.Release` | 28–31 | Model/Pool: `Obj.release` |
| `QuantizedTime.Clone` | 33–37 | — not called by the program |
| `QuantizedTime.Set` | 43–45 | Model/PoolFlush: `Obj.setTime`; Model/Time: `ymdh` |
| `QuantizedTime.SetYear` | 49–51 | — not called by the program |
| `QuantizedTime.SetMonth` | 55–57 | — not called by the program |
| `QuantizedTime.SetDay` | 61–63 | — not called by the program |
| `QuantizedTime.SetHour` | 67–69 | — not called by the program |
| `QuantizedTime.Time` | 71–73 | — not called by the program |
| `QuantizedTime.Views` | 77–82 | — a constructor, setter, getter or one-line wrapper: reflected in the definition of its callers |
| `QuantizedTime.ViewsBuf` | 84–116 | Model/Time: `viewsOf` |

## internal/bitmaps/bitmaps.go

| function | lines | model |
|---|---|---|
| `New` | 15–17 | — a constructor, setter, getter or one-line wrapper: reflected in the definition of its callers |
| `Bitmap.WithKey` | 19–22 | — a constructor, setter, getter or one-line wrapper: reflected in the definition of its callers |
| `Bitmap.Key` | 24–26 | — a constructor, setter, getter or one-line wrapper: reflected in the definition of its callers |
| `Bitmap.Size` | 31–33 | — a constructor, setter, getter or one-line wrapper: reflected in the definition of its callers |
| `Bitmap.Release` | 35–40 | Model/Pool: `Obj.release`; Model/Visit: `(module)` |

## internal/commands/home.go

| function | lines | model |
|---|---|---|
| `Home` | 14–21 | Model/Paths: `home` |
| `Cache` | 23–27 | Model/Paths: `cache` |
| `Data` | 29–33 | Model/Paths: `data` |
| `DB` | 35–39 | Model/Paths: `db` |
| `Index` | 41–45 | Model/Paths: `index` |
| `FLags` | 47–56 | — logging, flags, command descriptions or wiring of libraries |
| `Conn` | 58–62 | Model/WireScan: `recvLimit` |

## internal/commands/query/query.go

| function | lines | model |
|---|---|---|
| `Cmd` | 32–40 | — logging, flags, command descriptions or wiring of libraries |
| `run` | 42–76 | Model/Js: `(module)`, `queryScan`; Model/WireAnswer: `(module)`, `back`, `got`, `netScan` |
| `build` | 78–100 | Model/Paths: `scriptFile`; Model/QueryCache: `compileStep`, `finishStep`, `openStep`, `readStep`, `writeStep` |

## internal/commands/version/version.go

| function | lines | model |
|---|---|---|
| `Cmd` | 12–31 | — logging, flags, command descriptions or wiring of libraries |

## internal/compile/compile.go

| function | lines | model |
|---|---|---|
| `Compile` | 17–36 | Model/Compile: `buildStep`, `mkdirFailStep`, `outcome`, `removeFailStep`, `removeStep` |
| `createPackage` | 38–52 | Model/Compile: `buildStep`, `mkdirFailStep`, `mkdirStep`, `writeFailStep` |
| `setup` | 54–66 | Model/Compile: `fileName`, `writeFailStep`, `writeStep` |

## internal/compress/grpc.go

| function | lines | model |
|---|---|---|
| `init` | 12–14 | — logging, flags, command descriptions or wiring of libraries |
| `codec.Name` | 18–20 | — logging, flags, command descriptions or wiring of libraries |
| `codec.Compress` | 22–26 | Model/Codec: `step` |
| `codec.Decompress` | 28–32 | Model/Codec: `step` |
| `writeCodec.Close` | 38–44 | Model/Codec: `step` |
| `readCodec.Read` | 50–58 | Model/Codec: `step` |
| `readCodec.WriteTo` | 60–66 | Model/Codec: `step` |

## internal/compress/zstd.go

| function | lines | model |
|---|---|---|
| `Compress` | 12–26 | Model/Codec: `step` |
| `To` | 28–37 | Model/Codec: `step` |
| `Decompress` | 39–50 | Model/Codec: `step` |
| `getEncoder` | 52–54 | Model/Codec: `Pool.take` |
| `putEncoder` | 56–59 | Model/Codec: `Pool.giveBack` |
| `getDecoder` | 69–71 | Model/Codec: `Pool.take` |
| `putDecoder` | 73–76 | Model/Codec: `Pool.giveBack` |

## internal/data/data.go

| function | lines | model |
|---|---|---|
| `Zero` | 10–21 | Model/Collapse: `zero` |
| `Collapse` | 23–52 | Model/Collapse: `collapse`; Model/PoolScan: `collapse` |

## internal/data/logs.go

| function | lines | model |
|---|---|---|
| `CollapseLogs` | 9–44 | Model/Collapse: `addResource`, `addScopes`, `collapseG`, `plainOps`, `regScopes`; Model/PoolScan: `collapseG`; Model/PoolTrim: `acceptLog`, `visitResources`, `visitScopes`; Model/Transform: `group`, `labelId`, `labelText`, `logRecord`; Model/Visit: `acceptLog`, `visitLogs`, `visitResources`, `visitScopes`; Model/WireExport: `optTxt` |
| `newLogsSorter` | 50–52 | Model/PoolTrim: `visitResources`; Model/Visit: `visitLogs`, `visitResources` |
| `logsSorter.Release` | 54–57 | — takes from or returns to a pool (C69, C71, C75) or allocates; reflected where it is used |

## internal/data/metrics.go

| function | lines | model |
|---|---|---|
| `CollapseMetrics` | 9–76 | Model/Collapse: `addMetrics`, `addResource`, `addScopes`, `collapseG`, `mergeMetric`, `regMetrics` …; Model/Flat: `M`, `append`, `metric`, `metricLoop`, `nameKey`, `resourceLoop` …; Model/PoolScan: `collapseG`; Model/PoolTrim: `selectMetrics`, `visitResources`, `visitScopes`; Model/RenderWire: `renderText`; Model/Transform: `addDataBase`, `group`, `metric`; Model/Visit: `selectMetrics`, `visitMetrics`, `visitResources`, `visitScopes` |
| `newMetricsSorter` | 82–84 | Model/Flat: `append`, `metric`; Model/PoolTrim: `selectMetrics`, `visitResources`, `visitScopes`; Model/Visit: `selectMetrics`, `visitMetrics`, `visitResources`, `visitScopes` |
| `metricsSorter.Release` | 86–89 | Model/Flat: `append`, `metric`; Model/PoolTrim: `selectMetrics`, `visitResources`, `visitScopes`; Model/Visit: `selectMetrics`, `visitMetrics`, `visitResources`, `visitScopes` |

## internal/data/sort.go

| function | lines | model |
|---|---|---|
| `Sorter.Reset` | 25–33 | Model/Pool: `Obj.release`; Model/WireHash: `wirePar` |
| `newSorter` | 35–43 | — takes from or returns to a pool (C69, C71, C75) or allocates; reflected where it is used |
| `Sorter.hashMetrics` | 45–50 | Model/Collapse: `hashMetric`; Model/Pool: `Sorter` |
| `Sorter.hashNum` | 52–56 | Model/Collapse: `hashScope`; Model/Pool: `Sorter` |
| `Sorter.hashResource` | 58–65 | Model/Collapse: `hashResource`; Model/Pool: `Sorter` |
| `Sorter.hashScope` | 67–79 | Model/Collapse: `hashScope`; Model/Pool: `Sorter` |
| `Sorter.Len` | 81–83 | — a constructor, setter, getter or one-line wrapper: reflected in the definition of its callers |
| `Sorter.Result` | 85–93 | Model/Collapse: `result` |
| `Sorter.Sort` | 95–105 | Model/Collapse: `result`; Model/PoolScan: `Obj.sort` |
| `Sorter.Less` | 106–108 | Model/Collapse: `result` |
| `Sorter.Swap` | 110–112 | — takes from or returns to a pool (C69, C71, C75) or allocates; reflected where it is used |
| `Sorter.attr` | 114–119 | Model/Collapse: `hashResource`; Model/Pool: `Sorter`; Model/Wire: `(module)`; Model/WireHash: `kvBytes`, `valueBytes`; Model/WireOtlp: `keyValue` |

## internal/data/trace.go

| function | lines | model |
|---|---|---|
| `CollapseTrace` | 9–44 | Model/Collapse: `addResource`, `addScopes`, `collapseG`, `plainOps`, `regScopes`; Model/PoolScan: `collapseG`; Model/PoolTrim: `acceptSpan`, `visitResources`, `visitScopes`; Model/Transform: `group`, `labelId`, `labelText`, `span`; Model/Visit: `acceptSpan`, `visitResources`, `visitScopes`, `visitTraces` |
| `newtraceSorter` | 50–52 | Model/PoolTrim: `visitResources`; Model/Visit: `visitResources`, `visitTraces` |
| `traceSorter.Release` | 54–57 | Model/Visit: `visitTraces` |

## internal/dataframe/columns.go

| function | lines | model |
|---|---|---|
| `Columns.Release` | 30–33 | — a constructor, setter, getter or one-line wrapper: reflected in the definition of its callers |
| `NewColumns` | 35–64 | Model/Arrow: `columns`; Model/Frame: `project` |
| `Columns.AllMetrics` | 66–68 | — a constructor, setter, getter or one-line wrapper: reflected in the definition of its callers |
| `Columns.AllTraces` | 69–71 | — a constructor, setter, getter or one-line wrapper: reflected in the definition of its callers |
| `Columns.AllLogs` | 73–75 | — a constructor, setter, getter or one-line wrapper: reflected in the definition of its callers |

## internal/dataframe/dataframe.go

| function | lines | model |
|---|---|---|
| `New` | 37–42 | — a constructor, setter, getter or one-line wrapper: reflected in the definition of its callers |
| `DataFrame.Metrics` | 44–46 | — a constructor, setter, getter or one-line wrapper: reflected in the definition of its callers |
| `DataFrame.Traces` | 48–50 | — a constructor, setter, getter or one-line wrapper: reflected in the definition of its callers |
| `DataFrame.Logs` | 52–54 | — a constructor, setter, getter or one-line wrapper: reflected in the definition of its callers |
| `DataFrame.Unmarshal` | 56–73 | Model/Concurrent: `unmarshalAt`; Model/Frame: `readView`, `unmarshal`; Model/PoolScan: `readTable`, `unmarshal` |
| `readRows` | 75–79 | Model/Frame: `readRows`; Model/PoolScan: `readTable` |
| `DataFrame.View` | 81–99 | Model/Concurrent: `unmarshalAt`; Model/Frame: `VRec.set`, `unmarshal`; Model/PoolScan: `unmarshal`; Model/Quantum: `(module)`; Model/Store: `Env.views` |
| `DataFrame.read` | 101–138 | Model/Frame: `readView`; Model/PoolScan: `(module)`, `readSet`, `readTable`, `readView`; Model/Shared: `(module)`, `readAt` |
| `DataFrame.Append` | 140–162 | Model/Frame: `appendViews`, `groupViews`; Model/PoolFlush: `append`, `appendViews`, `groupViews`; Model/Time: `sampleViews`, `toInt64` |
| `DataFrame.appendView` | 164–258 | Model/Frame: `AppendState`, `appendOne`, `appendView`, `setSample`, `startState`; Model/PoolFlush: `(module)`, `appendLoop`, `appendView`, `lastId`, `loadSet`, `loadView` …; Model/PoolScan: `(module)`; Model/Shared: `(module)`, `readAt`, `writeAt` |
| `txnValue` | 260–266 | Model/PoolFlush: `loadSet` |
| `txnBitmap` | 267–274 | — delegates to a library that is a parameter of the model |
| `get` | 276–278 | — a constructor, setter, getter or one-line wrapper: reflected in the definition of its callers |
| `put` | 280–282 | Model/Pool: `Obj.release` |

## internal/f2/attr.go

| function | lines | model |
|---|---|---|
| `newAttr` | 21–23 | — takes from or returns to a pool (C69, C71, C75) or allocates; reflected where it is used |
| `Attr.Resource` | 25–29 | Model/Flat: `setResource` |
| `Attr.Scope` | 31–35 | Model/Flat: `setScope` |
| `Attr.Attr` | 37–49 | Model/Flat: `attrOf` |
| `Attr.Reset` | 51–62 | Model/Flat: `append` |
| `Attr.Release` | 64–67 | — takes from or returns to a pool (C69, C71, C75) or allocates; reflected where it is used |
| `Attr.name` | 69–75 | Model/Flat: `attrOf` |
| `Attr.do` | 77–87 | Model/Flat: `addCols`, `doCols` |
| `toString` | 89–97 | Model/Flat: `addCols` |

## internal/f2/id.go

| function | lines | model |
|---|---|---|
| `newID` | 12–18 | — ids of a badger sequence: Model/Seq.lean (Model/Flat.lean takes them from there) |
| `idGen.Next` | 20–26 | — ids of a badger sequence: Model/Seq.lean (Model/Flat.lean takes them from there) |
| `idGen.Close` | 28–30 | — ids of a badger sequence: Model/Seq.lean (Model/Flat.lean takes them from there) |

## internal/f2/metrics.go

| function | lines | model |
|---|---|---|
| `NewMetrics` | 37–58 | Model/Collapse: `addMetrics`, `addResource`, `addScopes`, `collapseG`, `mergeMetric`, `regMetrics`; Model/PoolScan: `collapseG`; Model/PoolTrim: `selectMetrics`, `visitResources`, `visitScopes`; Model/Transform: `addDataBase`, `group`, `metric`; Model/Visit: `selectMetrics`, `visitMetrics`, `visitResources`, `visitScopes` |
| `Metrics.Close` | 60–64 | Model/Collapse: `addMetrics`, `addResource`, `addScopes`, `collapseG`, `mergeMetric`; Model/PoolScan: `collapseG`; Model/PoolTrim: `selectMetrics`, `visitResources`, `visitScopes`; Model/Visit: `selectMetrics`, `visitMetrics`, `visitResources`, `visitScopes` |
| `Metrics.Append` | 66–107 | Model/Collapse: `addMetrics`, `addResource`, `addScopes`, `collapseG`, `mergeMetric`; Model/Flat: `append`, `metric`, `metricLoop`, `resourceLoop`, `scopeLoop`; Model/Pool: `fresh`; Model/PoolScan: `collapseG`; Model/PoolTrim: `selectMetrics`, `visitResources`, `visitScopes`; Model/Visit: `selectMetrics`, `visitMetrics`, `visitResources`, `visitScopes` |
| `Metrics.gauge` | 109–132 | Model/Flat: `fillNum`, `finish`, `numbers`; Model/PoolTrim: `selectMetrics`, `visitResources`, `visitScopes`; Model/Visit: `selectMetrics`, `visitMetrics`, `visitResources`, `visitScopes` |
| `Metrics.sum` | 134–159 | Model/Flat: `fillNum`, `numbers`; Model/PoolTrim: `selectMetrics`, `visitResources`, `visitScopes`; Model/Visit: `selectMetrics`, `visitMetrics`, `visitResources`, `visitScopes` |
| `Metrics.summary` | 160–180 | Model/Flat: `summaries`; Model/PoolTrim: `visitResources`, `visitScopes`; Model/Visit: `visitMetrics`, `visitResources`, `visitScopes` |
| `Metrics.hist` | 182–207 | Model/Flat: `hists` |
| `Metrics.expHist` | 209–237 | Model/Flat: `expHists` |
| `pos` | 239–241 | Model/Flat: `pos` |

## internal/f2/pool.go

| function | lines | model |
|---|---|---|
| `NewPool` | 23–27 | — takes from or returns to a pool (C69, C71, C75) or allocates; reflected where it is used |
| `Pool.Get` | 29–31 | — takes from or returns to a pool (C69, C71, C75) or allocates; reflected where it is used |
| `Pool.Put` | 33–36 | Model/Flat: `metric` |

## internal/f2/translate.go

| function | lines | model |
|---|---|---|
| `cacheTr.Close` | 16–19 | Model/Dictionary: `reopen`; Model/Lookup: `slices`; Model/Translate: `Translate`, `new` |
| `newCacheTr` | 21–38 | Model/Dictionary: `idKey`, `reopen`; Model/Lookup: `slices`; Model/Translate: `new` |
| `cacheTr.Tr` | 42–53 | Model/Cache: `(module)`; Model/Dictionary: `idKey`; Model/Flat: `addCols`; Model/Store: `bulk`; Model/Translate: `bulkKeys` |

## internal/home/homedir.go

| function | lines | model |
|---|---|---|
| `Dir` | 31–92 | Model/Paths: `dir`, `driveAndPath`, `kubeLoop`, `pickLoop` |

## internal/js/rq.go

| function | lines | model |
|---|---|---|
| `New` | 31–33 | Model/Engine: `get` |
| `JS.WithNow` | 35–38 | Model/Engine: `step` |
| `JS.Reset` | 40–45 | Model/Engine: `Engine.reset` |
| `JS.GetNow` | 47–52 | Model/Js: `(module)` |
| `JS.Release` | 54–57 | Model/Engine: `release` |
| `newJS` | 59–74 | Model/Engine: `newJS` |
| `JS.Scan` | 78–99 | Model/Js: `jsScan`; Model/PoolTrim: `jsScan`, `trim` |
| `JS.Run` | 101–104 | Model/Engine: `ran` |
| `JS.WithData` | 106–110 | Model/Engine: `step` |
| `JS.WithScan` | 112–115 | Model/Engine: `step` |
| `JS.WithOutput` | 117–120 | Model/Engine: `step` |
| `JS.RenderMetricsDataJSON` | 122–129 | Model/WireRender: `(module)`, `renderJSON` |
| `JS.RenderMetricsData` | 131–134 | Model/RenderWire: `(module)`, `renderText` |
| `JS.Print` | 136–138 | — prints to the writer of the engine (`writes` in Model/Engine.lean) |
| `JS.PrintLn` | 140–142 | — prints to the writer of the engine (`writes` in Model/Engine.lean) |

## internal/js/scan.go

| function | lines | model |
|---|---|---|
| `Scan.Scan` | 17–19 | Model/WireScan: `reqOf` |
| `Scan.Create` | 21–28 | Model/Concurrent: `scanDuring`; Model/Js: `build`; Model/Package: `create`; Model/PoolScan: `scan`; Model/Store: `scan` |
| `Scan.Resource` | 30–39 | Model/Concurrent: `scanDuring`; Model/Js: `Call`, `call`; Model/PoolScan: `scan`, `scanBody`, `scanColumns`; Model/Store: `scan` |
| `Scan.Limit` | 41–43 | Model/Concurrent: `scanDuring`; Model/Js: `Call`, `call`; Model/PoolScan: `scan`, `scanBody`, `scanColumns`; Model/Store: `scan` |
| `Scan.Offset` | 45–52 | Model/Concurrent: `scanDuring`; Model/Js: `Call`, `call`; Model/Package: `fails`; Model/Parse: `(module)`; Model/PoolScan: `choose`, `scan`, `scanBody`, `scanColumns`, `scanSamples`; Model/Store: `chosen`, `scan`; Model/WireScan: `durOf` |
| `Scan.Now` | 54–57 | Model/Concurrent: `scanDuring`; Model/Js: `Call`, `call`; Model/Package: `fails`; Model/PoolScan: `choose`, `scan`, `scanBody`, `scanColumns`, `scanSamples`; Model/Store: `chosen`, `scan`; Model/WireScan: `stampOf` |
| `Scan.Reverse` | 59–61 | Model/Concurrent: `readSamplesAt`, `scanDuring`; Model/Js: `Call`, `call`; Model/Package: `fails`; Model/PoolScan: `readSamples`, `scan`, `scanBody`, `scanColumns`, `scanSamples`; Model/Store: `readSamples`, `scan` |
| `Scan.ResourceSchema` | 63–65 | Model/Concurrent: `readSamplesAt`, `scanDuring`; Model/Js: `Call`, `call`; Model/PoolScan: `readSamples`, `scan`, `scanBody`, `scanColumns`, `scanSamples`; Model/Store: `readSamples`, `scan` |
| `Scan.ScopeSchema` | 67–69 | Model/Concurrent: `readSamplesAt`, `scanDuring`; Model/Js: `Call`, `call`; Model/PoolScan: `readSamples`, `scan`, `scanBody`, `scanColumns`, `scanSamples`; Model/Store: `readSamples`, `scan` |
| `Scan.ScopeName` | 71–73 | Model/Concurrent: `compileFiltersAt`; Model/Js: `Call`, `call`; Model/PoolScan: `compileFilters`; Model/Store: `compileFilters` |
| `Scan.ScopeVersion` | 75–77 | Model/Concurrent: `compileFiltersAt`; Model/Js: `Call`, `call`; Model/PoolScan: `columnsOf`, `compileFilters`; Model/Store: `compileFilters` |
| `Scan.Name` | 79–81 | Model/Concurrent: `compileFiltersAt`; Model/Js: `Call`, `call`; Model/PoolScan: `columnsOf`, `compileFilters`; Model/Store: `compileFilters` |
| `Scan.TraceID` | 83–85 | Model/Concurrent: `compileFiltersAt`; Model/Js: `Call`, `call`; Model/PoolScan: `columnsOf`, `compileFilters`; Model/Store: `compileFilters` |
| `Scan.SpanID` | 87–89 | Model/Concurrent: `compileFiltersAt`; Model/Js: `Call`, `call`; Model/PoolScan: `columnsOf`, `compileFilters`; Model/Store: `compileFilters` |
| `Scan.ParentSpanID` | 91–93 | Model/Concurrent: `compileFiltersAt`; Model/Js: `Call`, `call`; Model/PoolScan: `columnsOf`, `compileFilters`; Model/Store: `compileFilters` |
| `Scan.LogLevel` | 95–97 | Model/Concurrent: `compileFiltersAt`, `filterLoopAt`; Model/Js: `Call`, `call`; Model/PoolScan: `columnsOf`, `compileFilters`, `filterLoop`; Model/Store: `compileFilters`, `filterLoop` |
| `Scan.ResourceAttr` | 99–101 | Model/Concurrent: `compileFiltersAt`, `filterLoopAt`; Model/Js: `Call`, `call`; Model/PoolScan: `columnsOf`, `compileFilters`, `fields`, `filterLoop`; Model/Store: `Filter.label`, `compileFilters`, `filterLoop` |
| `Scan.ScopeAttr` | 103–105 | Model/Concurrent: `compileFiltersAt`, `filterLoopAt`; Model/Js: `Call`, `call`; Model/PoolScan: `columnsOf`, `compileFilters`, `filterLoop`; Model/Store: `compileFilters`, `filterLoop` |
| `Scan.Attr` | 107–109 | Model/Concurrent: `compileFiltersAt`, `filterLoopAt`; Model/Js: `Call`, `call`; Model/PoolScan: `columnsOf`, `compileFilters`, `filterLoop`; Model/Store: `compileFilters`, `filterLoop` |
| `Scan.TimeRange` | 111–115 | Model/Concurrent: `compileFiltersAt`, `filterLoopAt`; Model/Js: `Call`, `call`; Model/PoolScan: `columnsOf`, `compileFilters`, `fields`, `filterLoop`; Model/Store: `Filter.label`, `compileFilters`, `filterLoop` |
| `Scan.Today` | 117–122 | Model/Concurrent: `compileFiltersAt`, `filterLoopAt`; Model/Js: `Call`, `call`; Model/PoolScan: `columnsOf`, `compileFilters`, `fields`, `filterLoop`; Model/Store: `Filter.label`, `compileFilters`, `filterLoop` |
| `Scan.ThisWeek` | 124–129 | Model/Concurrent: `compileFiltersAt`, `filterLoopAt`; Model/Js: `Call`, `call`; Model/PoolScan: `columnsOf`, `compileFilters`, `filterLoop`; Model/Store: `compileFilters`, `filterLoop` |
| `Scan.ThisMonth` | 131–136 | Model/Concurrent: `compileFiltersAt`; Model/Js: `Call`, `call`; Model/PoolScan: `compileFilters`; Model/Store: `compileFilters` |
| `Scan.ThisYear` | 138–143 | Model/Js: `Call`, `call`; Model/Package: `fails` |
| `Scan.Ago` | 145–153 | Model/Js: `Call`, `addNeg`, `call`; Model/Package: `fails`; Model/Parse: `(module)`; Model/Store: `labels` |
| `Scan.rangeTS` | 155–160 | Model/Js: `rangeTS`; Model/Store: `labels`; Model/WireScan: `stampOf` |
| `Scan.ts` | 162–164 | Model/Store: `labels` |
| `Scan.base` | 166–175 | Model/Js: `base` |
| `Scan.attr` | 176–186 | Model/Js: `attr` |

## internal/keys/keys.go

| function | lines | model |
|---|---|---|
| `New` | 16–18 | — a constructor, setter, getter or one-line wrapper: reflected in the definition of its callers |
| `Sample.WithResource` | 25–28 | — a constructor, setter, getter or one-line wrapper: reflected in the definition of its callers |
| `Sample.Reset` | 30–35 | Model/Pool: `Obj.release` |
| `Sample.Release` | 37–40 | Model/Pool: `Obj.release` |
| `Sample.WithID` | 42–45 | — a constructor, setter, getter or one-line wrapper: reflected in the definition of its callers |
| `Sample.Encode` | 47–50 | Model/Labels: `SampleKey.encode` |
| `Sample.String` | 52–54 | — a constructor, setter, getter or one-line wrapper: reflected in the definition of its callers |
| `Sample.Prefix` | 56–59 | Model/Labels: `SampleKey.scanPrefix` |

## internal/labels/labels.go

| function | lines | model |
|---|---|---|
| `NewLabel` | 18–20 | — a constructor, setter, getter or one-line wrapper: reflected in the definition of its callers |
| `Label.WithResource` | 22–25 | — a constructor, setter, getter or one-line wrapper: reflected in the definition of its callers |
| `Label.WithPrefix` | 27–30 | — a constructor, setter, getter or one-line wrapper: reflected in the definition of its callers |
| `Label.WithKey` | 32–35 | — a constructor, setter, getter or one-line wrapper: reflected in the definition of its callers |
| `Label.WithValue` | 37–40 | — a constructor, setter, getter or one-line wrapper: reflected in the definition of its callers |
| `Label.Encode` | 42–48 | Model/Labels: `Label`, `Label.encode`; Model/PoolScan: `Obj.encode` |
| `Label.String` | 50–52 | Model/PoolScan: `Obj.encode` |
| `Label.Reset` | 54–61 | Model/Labels: `Label.reset`; Model/Pool: `Obj.release`; Model/PoolScan: `Obj.encode` |
| `Label.Release` | 63–65 | Model/Pool: `Obj.release` |

## internal/logger/fail.go

| function | lines | model |
|---|---|---|
| `Fail` | 8–11 | — ends the process: the outcome `exit` of the model |

## internal/logger/setup.go

| function | lines | model |
|---|---|---|
| `Setup` | 8–22 | — logging, flags, command descriptions or wiring of libraries |

## internal/render/attribute.go

| function | lines | model |
|---|---|---|
| `attr` | 11–18 | Model/Render: `attr`; Model/RenderWire: `attrsOf` |
| `value` | 20–60 | Model/Float: `(module)`, `double`; Model/Quote: `(module)`, `decodeRune`, `encodeRune`, `escapedRune`, `first`, `fmt` …; Model/Render: `boolText`, `elems`, `pairs`, `value`; Model/RenderWire: `any`, `anyOf`, `arrayOf`, `bytesIn`, `elemsOf`, `firstOf` … |

## internal/render/metrics.go

| function | lines | model |
|---|---|---|
| `MetricsDataJSON` | 19–21 | Model/Collapse: `addResource`, `collapseG`; Model/Json: `(module)`, `Decl`, `Enc`, `Json`, `Tok`, `Ty` …; Model/PoolScan: `collapseG`; Model/PoolTrim: `visitResources`, `visitScopes`; Model/Transform: `group`, `metric`; Model/Visit: `visitMetrics`, `visitResources`, `visitScopes` |
| `MetricsData` | 23–33 | Model/Collapse: `addResource`, `collapseG`, `regMetrics`, `regScopes`; Model/Flat: `M`, `nameKey`; Model/PoolScan: `collapseG`; Model/PoolTrim: `selectMetrics`, `visitResources`, `visitScopes`; Model/Render: `metricsData`, `parts`; Model/RenderWire: `metricsOf`, `renderText`; Model/Transform: `group`, `metric`; Model/Visit: `selectMetrics`, `visitMetrics`, `visitResources`, `visitScopes` |
| `resource` | 35–54 | Model/Collapse: `addMetrics`, `addResource`, `addScopes`, `collapseG`, `mergeMetric`, `regMetrics`; Model/Flat: `M`; Model/PoolScan: `collapseG`; Model/PoolTrim: `selectMetrics`, `visitResources`, `visitScopes`; Model/Render: `labelLine`, `parts`, `resourceText`; Model/RenderWire: `resourceOf`; Model/Tabwriter: `(module)`, `St.byte`, `format`, `runeCount`, `tab`, `writeCells`; Model/Transform: `addDataBase`, `group`, `metric`; Model/Visit: `selectMetrics`, `visitMetrics`, `visitResources`, `visitScopes` |
| `scope` | 56–76 | Model/Collapse: `addMetrics`, `addResource`, `addScopes`, `collapseG`, `mergeMetric`; Model/Flat: `append`, `metric`, `metricLoop`, `resourceLoop`, `scopeLoop`; Model/PoolScan: `collapseG`; Model/PoolTrim: `selectMetrics`, `visitResources`, `visitScopes`; Model/Render: `labelLine`, `parts`, `scopeText`; Model/RenderWire: `scopeOf`; Model/Tabwriter: `(module)`, `St.byte`, `format`, `runeCount`, `tab`, `writeCells`; Model/Visit: `selectMetrics`, `visitMetrics`, `visitResources`, `visitScopes` |
| `metrics` | 80–106 | Model/Flat: `append`, `metric`; Model/Pool: `fresh`; Model/PoolTrim: `selectMetrics`, `visitResources`, `visitScopes`; Model/Render: `headLine`, `metric`, `metricHead`, `unitOf`; Model/RenderWire: `metricOf`; Model/Tabwriter: `(module)`, `St.byte`, `format`, `runeCount`, `tab`, `writeCells`; Model/Visit: `selectMetrics`, `visitMetrics`, `visitResources`, `visitScopes` |
| `numeric` | 108–121 | Model/Flat: `fillNum`, `numbers`; Model/PoolTrim: `selectMetrics`, `visitResources`, `visitScopes`; Model/Render: `line`, `numeric`, `tableLine`; Model/RenderWire: `pointOf`; Model/Tabwriter: `(module)`, `St.byte`, `format`, `runeCount`, `tab`, `writeCells`; Model/Unit: `cell`; Model/Visit: `selectMetrics`, `visitMetrics`, `visitResources`, `visitScopes` |
| `formatTime` | 123–125 | Model/Flat: `finish`, `numbers`; Model/PoolTrim: `selectMetrics`, `visitResources`, `visitScopes`; Model/Render: `dateTime`; Model/Visit: `selectMetrics`, `visitMetrics`, `visitResources`, `visitScopes` |
| `numericDataValue` | 127–134 | Model/Flat: `finish`, `numbers`; Model/PoolTrim: `selectMetrics`, `visitResources`, `visitScopes`; Model/Render: `Point`; Model/RenderWire: `pointOf`; Model/Unit: `value`; Model/Visit: `selectMetrics`, `visitMetrics`, `visitResources`, `visitScopes` |

## internal/render/pool.go

| function | lines | model |
|---|---|---|
| `get` | 8–10 | — takes from or returns to a pool (C69, C71, C75) or allocates; reflected where it is used |
| `put` | 12–15 | — takes from or returns to a pool (C69, C71, C75) or allocates; reflected where it is used |

## internal/render/unit.go

| function | lines | model |
|---|---|---|
| `formatUnit` | 10–27 | Model/Float: `(module)`, `sprint`; Model/Humanize: `(module)`, `iBytes`, `toUint64`; Model/Unit: `factor`, `formatUnit` |

## internal/retry/retry.go

| function | lines | model |
|---|---|---|
| `Do` | 9–13 | — not called by the program |
| `get` | 15–19 | — not called by the program |
| `put` | 21–23 | — not called by the program |
| `reset` | 25–36 | — not called by the program |

## internal/rows/bsi.go

| function | lines | model |
|---|---|---|
| `BSIData.PivotDescending` | 18–62 | Model/Bsi: `leaf`, `pivotDescending`, `pivotHigh`, `skips` |
| `bsiData.distribution` | 70–76 | — not called by the program |
| `AddBSI` | 83–175 | Model/Bsi: `addBSI`, `addLoop`, `addShard`, `emit`, `headAt`, `nextShard` … |
| `RowBuilder.flushKey` | 188–208 | Model/Bsi: `RowBuilder.flushKey` |
| `RowBuilder.Add` | 212–240 | Model/Bsi: `RowBuilder.add`, `RowBuilder.addLow` |
| `RowBuilder.Build` | 244–255 | Model/Bsi: `RowBuilder.build` |
| `BsiBuilder.Insert` | 263–272 | Model/Bsi: `insert`, `insertAt` |
| `BsiBuilder.Build` | 276–284 | Model/Bsi: `buildBsi` |

## internal/rows/row.go

| function | lines | model |
|---|---|---|
| `RowsToTable` | 30–54 | Model/RowsOut: `tableCb`, `toTable` |
| `StringValue` | 80–84 | Model/RowsOut: `stringValue` |
| `IntValue` | 85–89 | Model/RowsOut: `intValue` |
| `Value.String` | 91–96 | Model/RowsOut: `Val.toStr` |
| `Value.Int` | 98–103 | Model/RowsOut: `Val.toInt` |
| `Value.Float64` | 105–110 | Model/RowsOut: `Val.toDouble` |
| `Value.Time` | 112–117 | Model/RowsOut: `Val.toTime` |
| `NewRow` | 141–147 | Model/Rows: `newRow` |
| `Row.ToTable` | 149–157 | Model/RowsOut: `toTable` |
| `Row.ToRows` | 159–190 | Model/RowsOut: `sendAll`, `toRows` |
| `Row.Clone` | 192–221 | Model/Rows: `clone` |
| `NewRowFromBitmap` | 226–244 | Model/Bsi: `fromConts`; Model/Rows: `fromBitmap` |
| `NewRowFromRoaring` | 248–261 | Model/RowsOut: `fromRoaring` |
| `Row.Hash` | 264–270 | — not called by the program |
| `Row.Roaring` | 273–279 | Model/RowsOut: `roaring` |
| `Row.IsEmpty` | 282–292 | Model/Rows: `isEmpty` |
| `Row.Freeze` | 294–298 | Model/RowsOut: `freeze` |
| `Row.Merge` | 301–322 | Model/Rows: `merge`, `mergeLoop` |
| `Row.intersectionCount` | 325–338 | Model/RowsOut: `common`, `intersectionCount` |
| `Row.Intersect` | 341–354 | Model/Rows: `intersect`, `intersectLoop` |
| `Row.Any` | 357–364 | Model/Rows: `any` |
| `Row.Xor` | 367–384 | Model/Rows: `xor`, `xorLoop` |
| `Row.Union` | 387–429 | Model/Rows: `lowest`, `toProcess`, `union`, `unionLoop`, `unionSeg` |
| `Row.Difference` | 432–452 | Model/Rows: `diffLoop`, `difference`, `sameShard` |
| `Row.Shift` | 473–495 | Model/RowsOut: `shift`, `shiftLoop`, `shiftSegs` |
| `Row.SetBit` | 498–500 | Model/Rows: `setBit` |
| `Row.segment` | 504–511 | Model/RowsOut: `clearBit` |
| `Row.createSegmentIfNotExists` | 513–535 | Model/Rows: `setBit` |
| `Row.InvalidateCount` | 538–542 | Model/Rows: `invalidate` |
| `Row.Count` | 545–555 | Model/Rows: `count` |
| `Row.MarshalJSON` | 558–567 | Model/RowsOut: `marshalJSON` |
| `Row.Columns` | 570–581 | Model/Rows: `columns` |
| `Row.ShardColumns` | 583–594 | Model/RowsOut: `shardColumns` |
| `Row.Includes` | 597–605 | Model/Rows: `includes` |
| `NewSegment` | 624–630 | — a constructor, setter, getter or one-line wrapper: reflected in the definition of its callers |
| `RowSegment.Shard` | 632–634 | — a constructor, setter, getter or one-line wrapper: reflected in the definition of its callers |
| `RowSegment.Freeze` | 636–638 | Model/RowsOut: `freeze` |
| `rowSegment.Raw` | 644–648 | — a constructor, setter, getter or one-line wrapper: reflected in the definition of its callers |
| `RowSegment.Merge` | 653–660 | Model/Rows: `segMerge`, `segSetAll` |
| `RowSegment.IntersectionCount` | 663–665 | Model/RowsOut: `common` |
| `RowSegment.Intersect` | 668–676 | Model/Rows: `fresh` |
| `RowSegment.Union` | 679–691 | Model/Rows: `fresh`, `unionData` |
| `RowSegment.Difference` | 694–706 | Model/Rows: `fresh` |
| `RowSegment.Xor` | 709–717 | Model/Rows: `fresh` |
| `RowSegment.Shift` | 720–733 | Model/RowsOut: `shiftSegs` |
| `RowSegment.SetBit` | 736–743 | Model/Rows: `segSetBit` |
| `RowSegment.ClearBit` | 746–754 | Model/RowsOut: `segClearBit` |
| `RowSegment.InvalidateCount` | 757–759 | Model/Rows: `invalidate` |
| `RowSegment.Columns` | 762–769 | Model/Rows: `columns` |
| `RowSegment.ShardColumns` | 772–780 | Model/RowsOut: `shardColumns` |
| `RowSegment.Count` | 783–783 | — a constructor, setter, getter or one-line wrapper: reflected in the definition of its callers |
| `RowSegment.ensureWritable` | 786–797 | Model/Rows: `ensureWritable` |
| `newMergeSegmentIterator` | 805–807 | — a constructor, setter, getter or one-line wrapper: reflected in the definition of its callers |
| `mergeSegmentIterator.next` | 810–842 | Model/Rows: `pairs` |

## internal/samples/samples.go

| function | lines | model |
|---|---|---|
| `Get` | 13–15 | Model/Service: `get` |
| `List.Release` | 17–20 | Model/Service: `release` |

## internal/self/metrics.go

| function | lines | model |
|---|---|---|
| `Metrics.Export` | 20–32 | Model/Collapse: `addResource`, `collapseG`, `regMetrics`, `regScopes`; Model/Flat: `M`, `nameKey`; Model/PoolScan: `collapseG`; Model/PoolTrim: `selectMetrics`, `visitResources`, `visitScopes`; Model/RenderWire: `renderText`; Model/Self: `export'`; Model/Transform: `group`, `metric`; Model/Visit: `selectMetrics`, `visitMetrics`, `visitResources`, `visitScopes` |
| `Metrics.Temporality` | 34–36 | Model/Collapse: `addResource`, `addScopes`, `collapseG`; Model/Flat: `M`; Model/PoolScan: `collapseG`; Model/PoolTrim: `selectMetrics`, `visitResources`, `visitScopes`; Model/Transform: `group`, `metric`; Model/Visit: `selectMetrics`, `visitMetrics`, `visitResources`, `visitScopes` |
| `Metrics.Aggregation` | 38–40 | Model/Collapse: `addResource`, `addScopes`, `collapseG`, `regMetrics`; Model/PoolScan: `collapseG`; Model/PoolTrim: `selectMetrics`, `visitResources`, `visitScopes`; Model/Transform: `group`, `metric`; Model/Visit: `selectMetrics`, `visitMetrics`, `visitResources`, `visitScopes` |
| `base.ForceFlush` | 44–46 | Model/Collapse: `addMetrics`, `addResource`, `addScopes`, `collapseG`; Model/PoolScan: `collapseG`; Model/PoolTrim: `selectMetrics`, `visitResources`, `visitScopes`; Model/Transform: `group`; Model/Visit: `selectMetrics`, `visitMetrics`, `visitResources`, `visitScopes` |
| `base.Shutdown` | 48–50 | Model/Collapse: `addMetrics`, `addResource`, `addScopes`, `collapseG`; Model/PoolScan: `collapseG`; Model/PoolTrim: `selectMetrics`, `visitResources`, `visitScopes`; Model/Visit: `selectMetrics`, `visitMetrics`, `visitResources`, `visitScopes` |

## internal/self/metrics/transform/attribute.go

| function | lines | model |
|---|---|---|
| `AttrIter` | 15–26 | Model/SelfDetail: `keyValues` |
| `KeyValues` | 29–39 | — element by element, as `sliceValue` of Model/SelfDetail.lean |
| `KeyValue` | 42–44 | Model/SelfDetail: `keyValues` |
| `Value` | 47–96 | Model/Self: `value` |
| `boolSliceValues` | 98–108 | — element by element, as `sliceValue` of Model/SelfDetail.lean |
| `int64SliceValues` | 110–120 | — element by element, as `sliceValue` of Model/SelfDetail.lean |
| `float64SliceValues` | 122–132 | — element by element, as `sliceValue` of Model/SelfDetail.lean |
| `stringSliceValues` | 134–144 | — element by element, as `sliceValue` of Model/SelfDetail.lean |

## internal/self/metrics/transform/error.go

| function | lines | model |
|---|---|---|
| `errMetric.Unwrap` | 27–29 | Model/Self: `isErr` |
| `errMetric.Error` | 31–34 | — the text of errors, which are logged |
| `errMetric.Is` | 36–38 | Model/Self: `isErr` |
| `multiErr.errOrNil` | 49–54 | Model/Self: `errOrNil` |
| `multiErr.append` | 57–68 | Model/Self: `appendErr` |
| `multiErr.Error` | 70–78 | — the text of errors, which are logged |
| `multiErr.Unwrap` | 80–95 | — the text of errors, which are logged |
| `multiErr.Is` | 97–103 | Model/Self: `isErr` |

## internal/self/metrics/transform/metricdata.go

| function | lines | model |
|---|---|---|
| `ResourceMetrics` | 24–33 | — a constructor, setter, getter or one-line wrapper: reflected in the definition of its callers |
| `ScopeMetrics` | 38–57 | Model/Self: `scopeMetrics` |
| `Metrics` | 62–75 | Model/Self: `metrics` |
| `metric` | 77–107 | Model/Self: `metric`, `outData` |
| `Gauge` | 110–116 | Model/Self: `outData` |
| `Sum` | 120–132 | Model/Self: `outData` |
| `DataPoints` | 135–157 | Model/SelfDetail: `base`, `point` |
| `Histogram` | 161–172 | Model/Self: `outData` |
| `HistogramDataPoints` | 176–201 | Model/SelfDetail: `base`, `point` |
| `ExponentialHistogram` | 205–216 | Model/Self: `outData` |
| `ExponentialHistogramDataPoints` | 220–248 | Model/SelfDetail: `base`, `point` |
| `ExponentialHistogramDataPointBuckets` | 252–257 | — a constructor, setter, getter or one-line wrapper: reflected in the definition of its callers |
| `Temporality` | 262–272 | Model/Self: `temporality` |
| `timeUnixNano` | 281–286 | Model/SelfDetail: `timeUnixNano` |
| `Exemplars` | 289–311 | Model/SelfDetail: `exemplars` |
| `Summary` | 314–320 | Model/Self: `outData` |
| `SummaryDataPoints` | 324–338 | Model/SelfDetail: `base`, `point` |
| `QuantileValues` | 342–352 | Model/SelfDetail: `point` |

## internal/self/self.go

| function | lines | model |
|---|---|---|
| `closers.Shutdown` | 32–38 | — logging, flags, command descriptions or wiring of libraries |
| `Setup` | 40–72 | — logging, flags, command descriptions or wiring of libraries |
| `Meter` | 75–80 | — logging, flags, command descriptions or wiring of libraries |

## internal/self/trace.go

| function | lines | model |
|---|---|---|
| `Trace.ExportSpans` | 18–24 | Model/Collapse: `addResource`, `collapseG`, `plainOps`, `regScopes`; Model/PoolScan: `collapseG`; Model/PoolTrim: `visitResources`, `visitScopes`; Model/Transform: `group`, `labelId`, `labelText`, `span`; Model/Visit: `visitResources`, `visitScopes`, `visitTraces` |

## internal/self/trace/tracetransform/attribute.go

| function | lines | model |
|---|---|---|
| `KeyValues` | 13–23 | Model/SelfDetail: `keyValues` |
| `Iterator` | 26–37 | Model/SelfDetail: `keyValues` |
| `ResourceAttributes` | 40–42 | — element by element, as `sliceValue` of Model/SelfDetail.lean |
| `KeyValue` | 45–47 | Model/SelfDetail: `keyValues` |
| `Value` | 50–99 | Model/Self: `value` |
| `boolSliceValues` | 101–111 | — element by element, as `sliceValue` of Model/SelfDetail.lean |
| `int64SliceValues` | 113–123 | — element by element, as `sliceValue` of Model/SelfDetail.lean |
| `float64SliceValues` | 125–135 | — element by element, as `sliceValue` of Model/SelfDetail.lean |
| `stringSliceValues` | 137–147 | — element by element, as `sliceValue` of Model/SelfDetail.lean |

## internal/self/trace/tracetransform/instrumentation.go

| function | lines | model |
|---|---|---|
| `InstrumentationScope` | 11–19 | Model/Self: `instrumentationScope` |

## internal/self/trace/tracetransform/resource.go

| function | lines | model |
|---|---|---|
| `Resource` | 12–17 | — a constructor, setter, getter or one-line wrapper: reflected in the definition of its callers |

## internal/self/trace/tracetransform/span.go

| function | lines | model |
|---|---|---|
| `Spans` | 17–82 | Model/Self: `Groups`, `ResPtr.extend`, `ScopeSpans.push`, `addRes`, `addScope`, `addSpan` … |
| `span` | 85–115 | Model/Self: `(module)`; Model/SelfDetail: `span` |
| `status` | 118–132 | Model/SelfDetail: `status` |
| `links` | 135–157 | Model/SelfDetail: `links` |
| `spanEvents` | 160–176 | Model/SelfDetail: `spanEvents` |
| `spanKind` | 179–194 | Model/SelfDetail: `spanKind` |

## internal/seq/seq.go

| function | lines | model |
|---|---|---|
| `New` | 15–25 | Model/Seq: `(module)`, `bandwidth`, `seqKey`; Model/Shared: `SeqOp` |
| `Seq.Release` | 27–29 | Model/Seq: `(module)`; Model/Shared: `SeqOp` |
| `Seq.SampleID` | 31–37 | Model/Seq: `(module)`; Model/Shared: `SeqOp` |

## internal/service/api.go

| function | lines | model |
|---|---|---|
| `Service.ScanSamples` | 12–14 | Model/Js: `rpc`; Model/WireAnswer: `answerVal`, `back`; Model/WireScan: `(module)`, `bits32`, `entries`, `numVal`, `ofStamp`, `scanSamples` … |
| `Service.GetVersion` | 16–18 | — a constant |

## internal/service/service.go

| function | lines | model |
|---|---|---|
| `NewService` | 44–75 | — logging, flags, command descriptions or wiring of libraries |
| `Service.Start` | 77–80 | Model/Run: `Proc` |
| `Service.start` | 82–101 | Model/Dictionary: `cachedTr`; Model/Run: `(module)`, `Proc`; Model/Service: `Fpc`, `live` |
| `Service.Save` | 103–111 | Model/Run: `(module)`; Model/Service: `Pc`, `live` |
| `Service.Close` | 113–116 | — a constructor, setter, getter or one-line wrapper: reflected in the definition of its callers |
| `Service.Metrics` | 118–120 | — a constructor, setter, getter or one-line wrapper: reflected in the definition of its callers |
| `Service.Trace` | 122–124 | — a constructor, setter, getter or one-line wrapper: reflected in the definition of its callers |
| `Service.Logs` | 126–128 | — a constructor, setter, getter or one-line wrapper: reflected in the definition of its callers |
| `Metrics.Export` | 137–148 | Model/WireExport: `(module)`, `asm`, `build`, `exported`, `fieldsOf`, `ofData` … |
| `Logs.Export` | 157–170 | Model/WireExport: `(module)`, `exported`, `ofData`, `received` |
| `Trace.Export` | 179–192 | Model/WireExport: `(module)`, `exported`, `ofData`, `received` |

## internal/shards/shards.go

| function | lines | model |
|---|---|---|
| `New` | 32–41 | Model/Shards: `Store.new` |
| `Shards.View` | 43–54 | Model/Shards: `Store.view` |
| `Shards.Update` | 56–72 | Model/PoolScan: `(module)`; Model/Shards: `Store.update` |
| `Shards.AllShards` | 77–96 | Model/Shards: `rowLoop` |
| `Shards.Rows` | 98–111 | Model/Quantum: `(module)`; Model/Shards: `Store.rows`, `groupCols`; Model/Store: `Env.views` |
| `Shards.rows` | 113–166 | Model/Concurrent: `(module)`, `rowsLoopAt`; Model/PoolScan: `(module)`, `mergeShard`, `rowsLoop`, `viewLoop`; Model/Shards: `rowsLoop`, `shardRows` |
| `Shards.Row` | 168–182 | Model/Rows: `Op`; Model/Shards: `rowLoop` |
| `row` | 184–199 | Model/Rows: `ofShard`; Model/Shards: `rowOf` |
| `Shards.get` | 201–223 | Model/Paths: `shardFile`; Model/Shards: `Store.get` |
| `Shards.Close` | 225–233 | Model/Shards: `Store.restart` |

## internal/snippets/snippets.go

| function | lines | model |
|---|---|---|
| `New` | 13–23 | — a constructor, setter, getter or one-line wrapper: reflected in the definition of its callers |
| `Snippets.Close` | 25–27 | — a constructor, setter, getter or one-line wrapper: reflected in the definition of its callers |
| `Snippets.GetProgramData` | 29–41 | Model/Engine: `getProgram` |

## internal/store/scan.go

| function | lines | model |
|---|---|---|
| `Storage.Scan` | 20–70 | Model/Concurrent: `readSamplesAt`, `scanDuring`; Model/Js: `Call`, `build`, `call`; Model/PoolScan: `choose`, `readSamples`, `scan`, `scanBody`, `scanColumns`, `scanSamples`; Model/Store: `chosen`, `readSamples`, `scan`; Model/WireScan: `served` |
| `Storage.CompileFilters` | 72–131 | Model/Concurrent: `compileFiltersAt`, `filterLoopAt`; Model/Js: `Call`, `call`; Model/PoolScan: `columnsOf`, `compileFilters`, `fields`, `filterLoop`; Model/Store: `Filter.label`, `compileFilters`, `filterLoop`; Model/WireScan: `toFilter` |
| `MonitorSize` | 134–149 | Model/Js: `Call`, `call` |
| `Storage.Labels` | 151–163 | Model/Js: `Call`, `addNeg`, `call`, `rangeTS`; Model/Store: `labels` |

## internal/store/store.go

| function | lines | model |
|---|---|---|
| `NewStore` | 35–56 | Model/Dictionary: `reopen`; Model/Store: `Store.start` |
| `Storage.Translate` | 58–69 | Model/Cache: `(module)`; Model/Dictionary: `(module)`, `cachedTr`; Model/PoolFlush: `translateAll`; Model/Run: `flushParts`; Model/Store: `Outcome`; Model/Transform: `(module)` |
| `Storage.Close` | 71–74 | — logging, flags, command descriptions or wiring of libraries |
| `Storage.Start` | 76–76 | — does nothing |
| `Storage.SaveSamples` | 78–103 | Model/Concurrent: `Moment.store`; Model/PoolFlush: `flush`, `indexLoop`, `saveAll`; Model/Run: `flushParts`; Model/Store: `indexLoop`, `saveSamples` |

## internal/test/test.go

| function | lines | model |
|---|---|---|
| `MetricsSamples` | 19–41 | — test helper |
| `DB` | 43–55 | — test helper |
| `Now` | 61–63 | — test helper |

## internal/transform/logs.go

| function | lines | model |
|---|---|---|
| `Context.transformLogs` | 11–42 | Model/Collapse: `addResource`, `addScopes`, `collapseG`, `plainOps`, `regScopes`; Model/PoolScan: `collapseG`; Model/PoolTrim: `acceptLog`, `visitResources`, `visitScopes`; Model/Transform: `group`, `labelId`, `labelText`, `logRecord`; Model/Visit: `acceptLog`, `visitLogs`, `visitResources`, `visitScopes`; Model/WireExport: `optTxt`, `toLog` |

## internal/transform/metrics.go

| function | lines | model |
|---|---|---|
| `Context.transformMetrics` | 10–45 | Model/Collapse: `addResource`, `addScopes`, `collapseG`, `regMetrics`, `regScopes`; Model/Flat: `M`, `nameKey`; Model/PoolScan: `collapseG`; Model/PoolTrim: `selectMetrics`, `visitResources`, `visitScopes`; Model/RenderWire: `renderText`; Model/Transform: `group`, `metric`; Model/Visit: `selectMetrics`, `visitMetrics`, `visitResources`, `visitScopes`; Model/WireExport: `dataType`, `kinds`, `pointType`, `toMData`, `toMetric` |
| `Context.addDataBase` | 52–55 | Model/Collapse: `addMetrics`, `addResource`, `addScopes`, `collapseG`, `mergeMetric`; Model/PoolScan: `collapseG`; Model/PoolTrim: `selectMetrics`, `visitResources`, `visitScopes`; Model/Transform: `addDataBase`; Model/Visit: `selectMetrics`, `visitMetrics`, `visitResources`, `visitScopes`; Model/WireExport: `toPoint` |

## internal/transform/trace.go

| function | lines | model |
|---|---|---|
| `Context.transformTrace` | 11–47 | Model/Collapse: `addResource`, `addScopes`, `collapseG`, `plainOps`, `regScopes`; Model/PoolScan: `collapseG`; Model/PoolTrim: `acceptSpan`, `visitResources`, `visitScopes`; Model/Transform: `group`, `labelId`, `labelText`, `span`; Model/Visit: `acceptSpan`, `visitResources`, `visitScopes`, `visitTraces`; Model/WireExport: `optTxt`, `toSpan` |

## internal/transform/transform.go

| function | lines | model |
|---|---|---|
| `NewContext` | 31–36 | — a constructor, setter, getter or one-line wrapper: reflected in the definition of its callers |
| `Context.ProcessSamples` | 38–43 | Model/PoolFlush: `processAll`; Model/Transform: `processAll`, `processSamples` |
| `Context.processSample` | 45–60 | Model/PoolFlush: `processAll`; Model/Time: `sampleViews`, `toInt64`; Model/Transform: `processSample` |
| `Context.data` | 62–81 | Model/Transform: `data`; Model/WireExport: `toData` |
| `Context.WithResource` | 83–86 | — a constructor, setter, getter or one-line wrapper: reflected in the definition of its callers |
| `Context.WithSample` | 88–91 | — a constructor, setter, getter or one-line wrapper: reflected in the definition of its callers |
| `Context.WithTranslate` | 93–96 | — a constructor, setter, getter or one-line wrapper: reflected in the definition of its callers |
| `Context.WithBatch` | 98–101 | — a constructor, setter, getter or one-line wrapper: reflected in the definition of its callers |
| `Context.addResource` | 108–118 | Model/Transform: `addResource`, `labelText`; Model/WireExport: `toResource`, `toResourceG` |
| `Context.addScope` | 125–149 | Model/Transform: `addScope`, `labelText`; Model/WireExport: `toInstr`, `toScopeG` |
| `Context.Label` | 151–158 | Model/PoolFlush: `translateAll`; Model/Transform: `Ctx`, `label`; Model/WireExport: `toKv`, `toValue` |
| `Context.init` | 160–167 | Model/Transform: `Ctx`, `initLabel`; Model/WireExport: `toKv`, `toValue` |
| `Context.attributes` | 169–181 | Model/Transform: `attributes`; Model/WireExport: `toKv`, `toValue` |
| `Context.Timestamp` | 183–189 | Model/Transform: `timestamp` |
| `Context.Reset` | 191–197 | — a constructor, setter, getter or one-line wrapper: reflected in the definition of its callers |
| `Context.Range` | 199–205 | Model/Transform: `range` |

## internal/translate/translate.go

| function | lines | model |
|---|---|---|
| `New` | 19–28 | Model/Dictionary: `reopen`; Model/Lookup: `slices`; Model/Translate: `leaseSize`, `new`, `sSeq` |
| `Translate.Close` | 30–32 | — a constructor, setter, getter or one-line wrapper: reflected in the definition of its callers |
| `Translate.TranslateID` | 34–50 | Model/Dictionary: `idKey`; Model/Flat: `addCols`; Model/PoolTranslate: `translateID` |
| `Translate.TranslateBulkID` | 52–74 | Model/PoolTranslate: `bulkLoop`, `translateBulk`; Model/Store: `bulk`; Model/Translate: `bulkKeys` |
| `Translate.TranslateKey` | 76–108 | Model/PoolScan: `(module)`; Model/PoolTranslate: `(module)`, `addKey`, `translateKey`, `translateWith`; Model/Translate: `translateKey` |
| `get` | 110–112 | — takes from or returns to a pool (C69, C71, C75) or allocates; reflected where it is used |
| `put` | 114–117 | Model/Pool: `Obj.release` |
| `Translate.Find` | 122–135 | Model/Lookup: `(module)`; Model/PoolScan: `(module)`; Model/Store: `Found`; Model/Translate: `findKey` |
| `u64tob` | 138–142 | Model/Bytes: `u64tob` |
| `btou64` | 145–145 | Model/Bytes: `btou64` |

## internal/view/view.go

| function | lines | model |
|---|---|---|
| `Std` | 18–22 | — a constructor, setter, getter or one-line wrapper: reflected in the definition of its callers |
| `ChooseQuantum` | 37–48 | Model/Time: `chooseQuantum` |
| `Search` | 50–53 | Model/Quantum: `(module)` |
| `Pos` | 56–58 | Model/Batch: `pos` |
| `Key` | 61–63 | Model/Batch: `key` |

## internal/visit/logs.go

| function | lines | model |
|---|---|---|
| `Logs.Visit` | 9–52 | Model/Collapse: `addResource`, `addScopes`, `collapseG`, `plainOps`, `regScopes`; Model/PoolScan: `collapseG`; Model/PoolTrim: `acceptLog`, `visitResources`, `visitScopes`; Model/Transform: `group`, `labelId`, `labelText`, `logRecord`; Model/Visit: `acceptLog`, `visitLogs`, `visitResources`, `visitScopes`; Model/WireExport: `optTxt` |

## internal/visit/metrics.go

| function | lines | model |
|---|---|---|
| `Metrics.Visit` | 9–174 | Model/Collapse: `addMetrics`, `addResource`, `addScopes`, `collapseG`, `mergeMetric`, `regMetrics` …; Model/Flat: `M`, `append`, `fillNum`, `finish`, `metric`, `metricLoop` …; Model/Pool: `fresh`; Model/PoolScan: `collapseG`; Model/PoolTrim: `selectMetrics`, `visitResources`, `visitScopes`; Model/RenderWire: `renderText`; Model/Transform: `addDataBase`, `group`, `metric`; Model/Visit: `selectMetrics`, `visitMetrics`, `visitResources`, `visitScopes` |

## internal/visit/trace.go

| function | lines | model |
|---|---|---|
| `Trace.Visit` | 9–54 | Model/Collapse: `addResource`, `addScopes`, `collapseG`, `plainOps`, `regScopes`; Model/PoolScan: `collapseG`; Model/PoolTrim: `acceptSpan`, `visitResources`, `visitScopes`; Model/Transform: `group`, `labelId`, `labelText`, `span`; Model/Visit: `acceptSpan`, `visitResources`, `visitScopes`, `visitTraces` |

## internal/visit/visit.go

| function | lines | model |
|---|---|---|
| `AcceptResource` | 20–23 | Model/PoolTrim: `acceptResource`; Model/Visit: `acceptResource` |
| `AcceptScope` | 25–30 | Model/PoolTrim: `acceptScope`; Model/Visit: `acceptScope` |
| `AcceptDataPoint` | 38–41 | Model/PoolTrim: `acceptPoint`; Model/Visit: `acceptPoint` |
| `All.Visit` | 43–63 | Model/Js: `jsScan`; Model/PoolTrim: `visit`; Model/Visit: `visit` |
| `New` | 81–83 | — a constructor, setter, getter or one-line wrapper: reflected in the definition of its callers |
| `All.Compile` | 87–122 | Model/Visit: `compile`, `step` |
| `All.Reset` | 124–141 | Model/Pool: `Obj.release`; Model/Visit: `All.reset` |
| `reset` | 142–146 | Model/Pool: `Obj.release` |
| `All.Release` | 148–151 | Model/Pool: `Obj.release`; Model/Visit: `(module)` |
| `All.SetResourceSchema` | 153–155 | — a constructor, setter, getter or one-line wrapper: reflected in the definition of its callers |
| `All.SetResourceAttr` | 157–159 | — a constructor, setter, getter or one-line wrapper: reflected in the definition of its callers |
| `attr` | 163–169 | Model/Visit: `(module)`, `attrHash`, `pair` |
| `All.SetScopeSchema` | 171–173 | — a constructor, setter, getter or one-line wrapper: reflected in the definition of its callers |
| `All.SetScopeName` | 174–176 | — a constructor, setter, getter or one-line wrapper: reflected in the definition of its callers |
| `All.SetScopVersion` | 178–180 | — a constructor, setter, getter or one-line wrapper: reflected in the definition of its callers |
| `All.SetScopeAttr` | 182–184 | — a constructor, setter, getter or one-line wrapper: reflected in the definition of its callers |
| `All.SetAttr` | 186–188 | — a constructor, setter, getter or one-line wrapper: reflected in the definition of its callers |
| `All.SetName` | 190–192 | — a constructor, setter, getter or one-line wrapper: reflected in the definition of its callers |
| `All.SetTraceID` | 194–201 | Model/Visit: `addId` |
| `All.SetSpanID` | 203–210 | Model/Visit: `addId` |
| `All.SetParentSpanID` | 212–219 | Model/Visit: `addId` |
| `All.SetLogLevel` | 221–223 | — a constructor, setter, getter or one-line wrapper: reflected in the definition of its callers |
| `All.SetTimeRange` | 225–227 | Model/Visit: `setTimeRange` |
| `All.AcceptResourceSchema` | 229–234 | Model/Visit: `accept` |
| `All.AcceptResourceAttributes` | 236–238 | — a constructor, setter, getter or one-line wrapper: reflected in the definition of its callers |
| `All.AcceptScopeSchema` | 239–242 | — a constructor, setter, getter or one-line wrapper: reflected in the definition of its callers |
| `All.AcceptScopeName` | 243–246 | — a constructor, setter, getter or one-line wrapper: reflected in the definition of its callers |
| `All.AcceptScopeVersion` | 247–250 | — a constructor, setter, getter or one-line wrapper: reflected in the definition of its callers |
| `All.AcceptScopeAttributes` | 251–253 | — a constructor, setter, getter or one-line wrapper: reflected in the definition of its callers |
| `All.AcceptName` | 255–258 | Model/Visit: `accept` |
| `All.AcceptAttributes` | 260–262 | — a constructor, setter, getter or one-line wrapper: reflected in the definition of its callers |
| `All.TimeRange` | 264–266 | Model/Visit: `All.timeRange` |
| `All.AcceptLogLevel` | 268–271 | Model/Visit: `accept` |
| `All.AcceptTraceID` | 272–274 | Model/Visit: `accept` |
| `All.AcceptSpanID` | 275–277 | Model/Visit: `accept` |
| `All.AcceptParentSpanID` | 278–280 | Model/Visit: `accept` |
| `All.AcceptTimestamp` | 282–284 | Model/Visit: `acceptTimestamp` |
| `matchAttr` | 286–307 | Model/PoolTrim: `attrLoop`, `matchAttr`; Model/Visit: `(module)`, `attrHashes`, `matchAttr`, `pair` |

## internal/x/x.go

| function | lines | model |
|---|---|---|
| `Decompress` | 15–23 | Model/Wire: `(module)`, `unmarshal` |
| `HighBits` | 25–25 | Model/Batch: `key` |
| `LowBits` | 26–26 | — not called by the program |
| `UTC` | 28–30 | Model/WireScan: `GoTime` |
| `TimeBounds` | 33–52 | Model/Time: `timeBounds`; Model/WireScan: `(module)`, `GoTime.add`, `GoTime.unixNano`, `Stamp`, `addSec`, `asDuration` … |
