# Formal model of UmaDB: design

Source modelled: `/repo` (umadb workspace, version 0.7.3). Nothing of it is executed here; every model
definition cites the file and lines it was read from. Theorem names and status per property are in `MANIFEST.json`;
mutation experiments are in `seeded/LOG.jsonl`. Its lines cover every attempt. `caught` means that a theorem, lemma or
example failed to check; `not compiled` that only the edited definition failed, which tests no theorem; `killed` that the build
ran out of memory and `not applied` that nothing was built. A `survived` line says whether the edit is equivalent, or which
theorems were tightened and what came of running the edit again. Many of the edits were run against earlier states of the
model, so a line describes the theorems of its time.

## 1. Layers

| layer | Lean modules | models |
|---|---|---|
| L0 specification | `Spec/*` | abstract log, meaning of queries, append as a function on `Spec.Db` (log + tracking map), what a served queue may answer. No reference to the implementation. |
| L1 request logic | `Db/*`, `Core/Meta` | `db.rs`: `read_conditional`, `process_append_request`, `is_request_idempotent`, `UmaDb::{read,append,head,append_batch}`, the blocking writer thread; metadata handling |
| L2 bytes | `Codec/*` | `slice_reader.rs`, `page.rs`, `node.rs`, all `*_nodes.rs`, CRC-32, event validation, tag hash truncation |
| L3 pages | `Page/*` | `Writer` (dirty/freed/reusable pages, copy-on-write), events tree, overflow chains, tags tree with per-tag trees, tracking tree, free-list tree with per-TSN trees, page sizes and splits, commit, crash, readers |
| L4 storage engine | `Mvcc/*` | reader registry, order of recycled pages, grouped page writes (byte-level file), creation, opening, header choice and repair |
| L5 server, network, client | `Server/*`, `Net/*` | streamed reads, subscriptions, API key, error mapping, protobuf conversion, client iterators (async and blocking) |
| properties | `Props/*` | the property theorems and concrete cases |

L1 is written over an arbitrary collection of storage operations (`Db.Backend`); `Db.Lawful` says what they must do in terms
of `Spec.Db`. Two instances: lists (`Db/Mem.lean`, for runnable examples) and pages in a file
(`Page/Lawful.lean: pageLawful`). So every theorem of `Props/Append.lean` holds for the page-level database.
`Lawful.Fails` are the errors a backend may produce on its own; at page level it is `False`: reading and building pages never
fails, only `commit` can.

## 2. Trusted base

* The Lean 4.33 kernel. Axioms used: at most `propext`, `Classical.choice`, `Quot.sound` (no own axioms, no `native_decide`).
* The reading of the Rust code (definitions cite the lines).
* Parameters the theorems quantify over instead of fixing them: tag hash function (any function into keys of the width in
  use), iteration order of hash sets (any permutation: `EnvOk.ord`, `IO.ord`), moments at which cancel flags are raised,
  which messages the writer finds in its queue (`vis`), batch size limit, binary search result on keys that are not strictly
  sorted (`Conf.bs`: any function that is right on sorted input), page size (1024 <= size <= 2^32), preallocation step, `zeroFill`,
  contents of reused buffers, evictions from the page cache, I/O failures, outcome of crashes.
* Standard library/OS contracts: `slice::binary_search`, `BTreeMap`, `HashMap`, `itertools::kmerge_by`, `sort_unstable`,
  tokio `oneshot`/`mpsc`/`watch` channels, `ArcSwap` loads and stores atomic, writes at an offset, `fsync` making all earlier
  writes durable, exclusive file lock, `crc32fast` computing standard CRC-32, `prost` writing and reading
  fields as `Net/Wire.lean` says, tokio's `Semaphore` being fair, `spawn_blocking` running every closure (blocking threads do not run out)
  and `abort` taking back only closures that have not started, `tonic` delivering messages in order and refusing received ones above 4 MiB unless told otherwise.

## 3. What is simplified or not modelled

* Machine integers: `u64` counters are `Nat`. Where wrapping matters it is modelled (`after + 1`), or stated as a hypothesis
  (`Counters`, `Machine`: below 2^64). Lengths written into 16/32-bit fields are modelled with truncation (`Codec/Node.lean`).
* Loops over trees take a bound on the number of turns (`turns`); the theorems show it suffices.
* Page cache: any cached page equals what is in the file, or is a page being written; pages may vanish at any time.
  Pinned headers: `Opened.h0/h1`; `write_header` also updates them.
* A page in memory is its node; pages are encoded when written and decoded when read from the file (`writePages`, `readPage`).
* Crash: pages and headers written since the last `fsync` may be kept, lost, or (data pages) replaced by anything; a header is
  the old one, the new one or unreadable. Trusted: a torn header does not pass its checksum with other content.
  `PDb.disk/loose/doubt` are bookkeeping for this; no operation depends on them.
* Readers and writer interleave at the level of header loads, registry operations, page reads, cache updates, data page writes
  and the header write (`Page/Readers.lean`). The writer computes its transaction in one step.
* Memory-mapped reading is modelled apart from the page-level model (`Mvcc/Mmap.lean`), which reads the file; C50 shows that the
  two ways of reading agree.
* Not modelled: `io_uring` submission details, TLS and HTTP/2, argument
  conversion of the Python bindings, benches, real-time timeouts (a timeout may fire at any call), UUID v5/CRC-64 computations (hash is a
  parameter; truncation to 8 bytes is modelled), logging, metrics.

## 4. Properties: what is modelled and how it is proved

Requests (`Props/Append.lean`, any lawful backend):
* C01, C02, C03, C04, C12, C13, C29, C30, C32: `writerThread` (blocking writer) is shown by induction over batches to produce
  a `Trace`: each request is answered as `Spec.append` says on the state at that time, or belongs to a batch that was
  given up or whose commit failed, with the answers then allowed. Each property is a consequence stated on answers, states and
  heads. C02 is amended: an empty event list answers without events (see `C02_empty_append`).
* C03 excludes `after = 2^64-1`, for which it is false (`C03_after_max_false`).
* C05, C06: characterisation of the idempotency check against `repeatPosition` of the specification.
* C45, C46: false; witness theorems `C45_false`, `C46_false` and what remains true (`_partial`).
* C29 (what bystanders of an aborted batch are told), C49 (which requests make up a batch): directly about `stepJob`, `drain`
  and `finishBatch`, which both writers share; any backend, no invariant needed.
* C40: cancellation polls are a function of the number of polls. `Props/ReadCancel.lean`: how many events a read that is cancelled can still
  have let through (`C40_cancel_stops`), and that a finished scan polled once per event (`C40_cancel_scan`).

Reads (`Props/Read.lean`): C07-C11: `readConditional` over any snapshot that `Refines` the log equals the filter of the log;
the tag path needs a merge lemma and a grouping lemma and no injectivity of the hash (C10).

Bytes (`Props/Codec.lean`): C23 round trips for every node kind within field widths; C24 no read outside the slice;
C25 CRC-32 linearity and injectivity on windows of 32 bits (the type byte is not covered: `C25_type_byte_false`); C43 old
header and tracking formats; C48 metadata builder.

Pages (`Props/Page.lean`, `Props/Sizes.lean`):
* Invariant `LiveAt`: the committed header's roots lead to trees with exactly the log, index, tracking and free list, over
  disjoint pages which together with the free list are all page ids below `nextPage` (C19). Trees are the inductive predicate
  `Tr` (`Page/Tree.lean`) over multisets of pages; updates are proved by one generic path-copy lemma per tree.
* C14, C15, C16: map, storage and lookup as observed after commits and further histories, crashes included.
* C50: windows of memory maps. `Whole`: the file is a whole number of windows and the pager knows its length; created so and
  kept so by commits; then both ways of reading agree.
* C44: free list as a set of pairs, observed by a listing computed from pages alone (`Page/Reach.lean`).
* C26, C27: sizes of all pages built by appends; exact condition for a commit to succeed. Leaves of the tag index and pages of the
  tracking tree are split by count and may overflow: `_partial`, with `C27_tracking_leaf_false` and `C27_tags_leaf_false`. For the
  tag index the exception is exact: only a leaf with two tags, both with positions in the leaf, and by at most 8 bytes.
* C28, C41, C42, C22, C47 (`Props/Mvcc.lean`): registry minimum; order of recycled pages is a permutation; grouped writes
  at byte level; header choice and repair for all contents of the two slots; creation.

Crashes (`Props/Crash.lean`): C20, C21: any crash image of any moment of a commit reopens to the state before or after the
transaction; acknowledged positions survive any further history. Hypothesis `doubt = false`: no header write has failed since the last
successful commit. C52 (`Page/FailedHeader.lean`, `Props/FailedHeader.lean`), partial: `C52_failed_header_partial`, a crash after a
failed header write (slot unchanged, written or unreadable) and before the next batch is written; `C52_retry_false`, a crash while
it is written.

Readers (`Props/Readers.lean`): C17, C18: invariant over all executions of the transition system `SStep`: pages of a confirmed
snapshot are in use or were freed by a later transaction that the running transaction cannot recycle.

Request handler (`Server/Handler.lean`, `Props/Handler.lean`): C55: by induction over the turns of each writer thread, without any
assumption on the storage (`Backed`, `Steady`); `appendReply` is what the caller gets from its two channels. `C11_handler_head`: the
`head` call and the first head announced.

Recency (`Props/Recency.lean`): C53: the committed database only grows along executions (`SysOf.runs`: `Grown`), an open reader shows
the committed database of the moment of its second look at the headers, and that look comes after the reader arrived
(`looked_since`, by the reader's index in the list of readers). `Acked` says when an answer or a head was sent. C54
(`Props/PipelineRecency.lean`), partial: the same for the pipelined writer (`PSysOf.runs`, `Told`), for the executions of C51.

Linearizability (`Spec/History.lean`, `Page/History.lean`, `Props/History.lean`): C58. `Linear` says what it means for a history of
calls, with times, without reference to the model: a list of appends with instants, and an instant for each reader. `WStep` adds
clients to the system of C17: calls are queued, the writer thread takes and commits batches (`Builds`, `commitPages`), answers are
delivered in any order, any time later, readers are opened and asked any number of times, the machine crashes also while a commit is
written. `Book` is the invariant about calls (who asked, waits, was answered), `RInv` about readers (the instant of a reader is that of its
second look at the headers), `SysOfG` about pages: the invariant of C17 with the exact state the running transaction leads to. The
batch takes effect when `commit` returns, or at the crash that finds its header on disk. `C58_real_time`: consequences for the order of calls.
Not part of it: `UmaDb::append` beside a server, a crash in doubt after a failed header write (C52), a panic of the writer thread (nothing
happens afterwards, C55).

Readers beside the pipelined writer (`Page/PipelineReaders.lean`, `Props/PipelineReaders.lean`): C51, partial. `PStep`: the steps
of readers as in `SStep`, with building, writing, landing, failing and dispatching batches as separate steps.
* `C51_snapshot_partial`, `C51_pages_partial`: for executions in which no reader confirms its header while a batch built without
  any reader registered waits for one in flight (`Careful`).
* `C51_snapshot_false`: such a reader of an empty database finds three later events below its root.
* `C51_turns`: every turn of the writer loop for which C31 is proved is a run of this system.

Histories with the pipelined writer (`Page/PipelineHistory.lean`, `Props/PipelineHistory.lean`): C64, partial. `PWStep` adds clients to `PStep`
as `WStep` does to `SStep`; the specification is the same `Linear`. The invariant `PWInv` knows which requests are in flight (`FliesWith`)
and which are in the batch built on them (`BuiltWith`), and the exact states the two lead to. A batch takes effect when it lands, or
at the crash that finds its header on disk; one that was only built has no effect, and its requests are refused when the one before fails.
* `C64_linearizable_partial`: for the executions of C51 (`Careful`). `C64_linearizable_false`: not for all.
* `C64_turns`: every turn of the writer loop is an execution of this system that takes the same requests from the queue, sends the same answers
  and announces the same heads.

Several threads that append through `UmaDb` (`Page/Threads.lean`, `Props/Threads.lean`): C65, partial. `TStep`: calls begin their transactions
and commit in any order; a commit is `PW.commit` of the transaction on the database as it is then. No readers; a transaction is computed in one
step and a commit is one step, so that fewer things overlap than in the program.
* `C65_threads_partial`: if no two transactions overlap (`Alone`), the requests are served one at a time in the order of return.
* `C65_lost`: of any number of calls that began on the same database and committed, only the request of the last is there. Proof: under the
  header of the first state put back, that state is still whole (`Over`), as every transaction writes only pages it may take in that state.
* `C65_threads_false`: two calls, both answered with position 2, which no order explains.

Messages as bytes (`Net/Wire.lean`, `Net/WireProof.lean`, `Props/Wire.lean`): C66, partial. All messages of umadb.proto with prost's encoding and
merging decoder, tonic's two size checks (`carry`), streams (`transport`), and `roundTripWire`, which is C38's `roundTrip` over bytes.
* `C66_requests`, `C66_round_trip`, `C66_answers`: reading back what was written, for every message; sizes are stated apart from the encoder
  (`digits`, `framed`, `eventSize`, …) by the rules of the protobuf specification. `C66_fields`: unknown fields and fields of the wrong kind.
* `C66_stream`: delivery up to the first message above the limit. `C66_readable_partial` puts it together with C33 and C39.
* `C66_too_big`, `C66_readable_false`, `C66_event_false`: logs and events that were accepted and cannot be read.
* Not modelled: fixed-width fields and groups (unused here), compression, and that `ErrorResponse` travels in a header.

Server and client (`Props/Stream.lean`, `Props/Net.lean`): C33 (stream of one read call equals one read of the log as it was at
the first batch; all messages but the last have exactly the asked-for number of events, `C33_message_sizes`), C34, C35 (subscriptions, transition system with the `watch` channel), C36 (also: a key that no header can carry locks everybody out, `C36_unusable_key`), C37, C38, C39.
For C38 also the calls themselves: all five methods of the client reach the server with the caller's arguments
(`C38_calls_reach_server`), results and errors come back unchanged in category and text (`C38_round_trip`), and what a read
sent by another program means when fields are missing (`C38_read_defaults`, `C38_read_deprecated`).

Pipelined writer (`Page/Pipeline*.lean`, `Props/Pipeline.lean`): C31, C32. `Pipe.turn` is one turn of the loop of
`writer_thread_pipelining`, with the batch in flight as part of the state; the invariant `PipeAt` says what the database holds
and which requests are in flight, and that the writer's view (`wet` pages over the file) is the state after them.
* `C31_answers`: the requests not told of a failure, executed one after the other, give the answers sent and the state seen.
* `C31_same`: without failures, answers and database are those of the blocking writer, whatever the batches.
* `C31_durable`: a crash in any state of the loop recovers everything answered `Ok`, and none or all of the batch in flight.
* `C31_failed`: a failed write fails the batch in flight and the one built on it, with no visible effect.
* `C31_progress`, `C31_waits`: if the disk works, nothing is cancelled and pages fit, batches are put in flight and land.
* Hypothesis: pages of 4096 bytes; `prepare_commit` uses `DEFAULT_PAGE_SIZE` for its buffers whatever the page size is.
Damaged pages (`Db/Damage.lean`, `Page/Damage.lean`, `Props/Damage.lean`): C56: `Worn c d' d`: same headers in memory, every page
that can be read in `d'` is the one read in `d`; the damage C25 is about leads to it (`C56_noticed`). Every traversal on fewer
readable pages gives the same or a part and an error (`Worse`), by induction on its fuel.
Writing to a damaged file (`Page/DamageWrite.lean`, `Page/DamageCommit.lean`, `Props/DamageWrite.lean`): C56: a transaction on the
damaged database runs in lockstep with one on its undamaged twin (`Shadow`, `Tame`), or reports a missing page; commits write the
same slots in both. So the damaged database meets the laws of a storage (`Workable`: `Lawful` without reads, for conditions not
checked through the tag index), and the proofs about the writer thread apply (`C56_append`, `C56_thread`, `C56_read_back`). The
file must keep its length here; a file cut short is covered for reads only. `C56_condition_false`, `C56_violated_false` (using
`Page/DamageBlind.lean`: no operation needs the missing root): with the root of the index damaged, an append of untagged events
is accepted although its condition is violated.

The integrity checker (`Tools/Check.lean`, `Props/Check.lean`): C57: `verdict` is how `umadb-check` ends on a file. `Spoiled`
is damage that makes pages unreadable. A pass means that every page below the limit of the header can be read, so the trees
are undamaged and `recover` (C21) applies (`C57_certifies`, `C57_all_read`); `C57_verdict` characterizes passing. `Complete` is a
file with every allocated page written and zeros after them: it passes (`C57_passes`), a new file is complete, and commits
keep files complete unless a page id from the end of the file is freed by the transaction that took it, since such a page is never
written (`C57_stays`). Output and Stage 4 (forensic analysis of tag pages) are not modelled; they do not affect the verdict. `C57_counts`: on a
passing file both event counts agree with the log; `C57_headers`: Stage 1 never has anything to report, because opening repaired it.

Cancellation (`Net/Cancel.lean`, `Net/CancelProof.lean`, `Props/Cancel.lean`): C59 (partial). The async objects are polled: a `Turn` is
what happens before a poll (messages, the timer, the two watch channels), and after a poll that is pending only the sources it has registered
with wake the task (`drive`). `poll_next` reads the channels without registering (`pollNext`), the `fetch` functions register with both
(`select!`). `Over` is a stream that has been cancelled: nothing new enters it (`C59_nothing_new`). `C59_uncancelled` ties this model to the
one of C39. `StreamRegistry` (`Net/Registry.lean`, `Props/Registry.lean`): C60, an invariant over all executions of a process: every open stream
that was not signalled is in the registry of its client under its own id.

Python (`Net/Python.lean`, `Props/Python.lean`): C61 (partial). `pyNext` is the loop of `__next__`: poll with a timeout, check for signals.
The proof carries the invariant `SInv` of C39 through the rounds and splits the stream into the part each call consumed.

Connections and paths (`Net/Connect.lean`, `Props/Connect.lean`): C62 (partial), C63. URLs and paths are lists of characters. `dial` is the trusted
behaviour of `tonic`: `https` URLs need a TLS configuration, which is not used for others. `C62_note_is_true`: the flag `tls_enabled` of the client
equals what the channel is. `replaceFrom` is `str::replace`; `C63_paths` is an equivalence, so no other path reaches a call.

Concurrent calls (`Server/Hub*.lean`, `Props/Hub.lean`): C67, C68 (partial). `Hub` is the server with its semaphore and any number of tasks of Read,
Subscribe and GetTrackingInfo calls; `Move` is one step of a task, of a closure on a blocking thread, of a client, of the writer, or shutdown.
`Gate` forgets everything but the permits: `GOk` is its invariant (sum of permits, queue = tasks that ask). `Change` lists what can
happen to one task; `course_task` carries an invariant of one task over all executions, which for reads is that its scans are rounds of
`readTask` (C33) and for subscriptions that of C34/C35. `C67_order` counts the permits given back (`permitsBackIn`) without reference to the queue.
`C67_progress` and `C68_shutdown_partial` are by a measure (`Task.owes`, `Task.rank`).

The I/O thread (`Page/Uring.lean`, `Props/Uring.lean`): C69 (partial). `uringCommit` gives the result and the list of what was done to the file
(`Act`), the kernel being any order of the writes with any number of bytes and any report for each. `C69_matches` shows that without short writes
this is one of the behaviours of `ioCommit`, on which the theorems about the pipelined writer rest; `C69_prepared` that what `prepare_commit` makes
satisfies the assumptions. `blockingCommit` is the variant for other systems, where `write_all_at` deals with short writes.

Several databases in one process (`Page/Proc.lean`, `Props/Proc.lean`): C70 (partial). `Proc` has one width for all its databases; a call works on
`atWidth` of its database and hashes tags with that width. `C70_alone_partial` removes the calls on other databases from a run;
`C70_serves_partial` relates a run to one content per database (`Answered`). The counterexamples run the page level: a database is created and
two events appended, a file of the old format is opened, then the first database is asked for a tag and given a condition on it.

`append_batch` (`Db/Batch.lean`, `Props/Batch.lean`): C71 (partial), over any lawful storage. The loop is followed request by request
(`loop_spec`); `Batched` lists the possible results.

Several processes and one path (`Page/Share.lean`, `Props/Share.lean`): C72 (partial). Looking for the file, opening it, locking it and
initialising are separate steps of a process, any number of processes take steps in any order. `Owned` ties the lock to the processes;
`Linked` ties the file to the specification `Told`, one database that is passed from process to process, using the recovery theorem of C20
for every opening. Not modelled: removal or renaming of the file, file systems without locks, a process that ends in the middle of a step,
and the second descriptor that the I/O thread of the pipelined writer opens by name.

Starting and stopping the server (`Server/Start.lean`, `Props/Start.lean`): C73. A start is the list of states another process or a client
could notice; the theorems quantify over all of them. Opening is `openDb` of the model of several processes, so what a started server holds is
tied to the committed database by the recovery theorem. Given from outside: whether the address parses and binds, who holds the lock, what
`setrlimit` accepts, whether the TLS material can be used. Not modelled: the printing, signals, the tokio runtime, and how tonic lets
connections run out after the signal (C68 has the calls themselves).

Trying again (`Props/Retry.lean`): C74. The claim `OnceAt` speaks of a history (calls and answers with their times) and the events recorded in
the end. A request goes through three stages, nothing recorded / recorded after `k` events / barred for ever, and each append of the linear
order moves it along; what the clients see follows from C58 or C64.

Deciding on what was read (`Props/Decide.lean`): C75; following a source (`Props/Follow.lean`): C76. Both are about clients that keep to a
protocol, against the server of the model: the hypotheses constrain only what clients send and when (after which answers), the conclusions
speak of the recorded events. `Rule.act` is a decision made in one instant; `OneByOne`/`outputs` are the results of a source in order.

Subscribing again (`Props/Resume.lean`): C77. `Subscriber` are the histories of a client that subscribes after the last event it has received;
any beginning of what the server sends in a session may have arrived.

Reading with the head (`Net/Collect.lean`, `Props/Collect.lean`): C78 (partial). `answer` is the specification of the pair; `C78_local`,
`C78_remote_partial` show it for the embedded database and for both clients, joining C33 (server) and the client loops.

Growth of the file (`Page/Thrift.lean`, `Props/Growth.lean`): C79. `Spends` says of two states of a transaction that pages were taken from the
reusable ones in order and that the page limit grew only when none was left; every operation of a transaction is shown to be `Thrifty`, including
the loop that rewrites the free list. What the limit does not bound: pages a commit itself gave up are free only for the next one, so right after
a commit the file holds them in addition to the pages in use.

Reading in pages (`Props/Paging.lean`): C80. `PagedIn` describes a client of a history that asks for each page after the one before has arrived;
`PagedFrom` the same by calls to the database with `Happens` in between. Both come down to `Paging` on logs that only grow. How a client stops
(a page with fewer events than the limit) and where it goes on (`goOn`) is part of the statement, not code of the repository.

Damaged pages of the tag index (`Tools/Forensic.lean`, `Props/Forensic.lean`): C81. Model of Stage 4 of umadb-check with slices that panic when
out of range. Proved against the decoder of the database (`Codec`): the tool's own parser and the decoder are two programs for the same bytes.
`C81_page` uses the invariant of the tag index (`TagsRep`): all pages of the other trees are not leaves of the tag index, and every position in
a leaf belongs to an event with the tag. Texts printed are left out; notes are kept as what they are about.

Balance (`Page/Tree.lean`, `Props/Balance.lean`): C82. Every `Kid` carries the depths of its leaves (`dep`); the way up after an insertion keeps
their sum over the path (`walkUp_spec`), so an even tree stays even (`even_up`). The invariant of the database asks it of the trees of events,
tags, tracked sources and positions of one tag (`Bt`). The statement is about pages (`Deep`, `Under`) and does not use `Kid`.

Reading, then subscribing (`Props/CatchUp.lean`): C83 (partial). `Consumer` are the histories of a program that goes on after the head it was told
(`Replied`: by the embedded database or by either client) or after the last event of a subscription. It joins C78 and C34/C35; the invariant says
that for every longer log the events received and those after the noted position make up all. The position it begins after must have been reached
by the log: a reading after a position ahead of the log tells a smaller head (an example shows what happens then).

Room (`Props/Space.lean`): C84. The trees are known to have no empty leaf but the first (`Dense`, part of `Bt`), internal pages have two children at
least, all pages of a chain but the last are full (part of `Chain`), and the index holds each position once for each tag of the event
(`idxOf` is the exact list, not the set). Hence a bound on the pages of each tree (`tree_pages_le`, `full_pages`) and, by the account of pages
(C19), on the file. `pagesBelow` lists the pages as read from the file, independent of `Kid`.

The tag hash of old files (`Props/TagHash.lean`): C85 (partial). `tagHashCrc64` is computed from the bitwise CRC-32 of `Codec/Crc.lean`. The state of
a CRC after the tag is determined by its CRC, so the CRC of the tag followed by the salt is as well.
`C85_index` says what this means for the index; answers stay right whatever the hash (C10).

Serialized errors (`Core/SerdeError.lean`, `Props/Serde.lean`): C86 (partial). `kindName` and `kindOfName` are the two tables of `serde_io_error`. The code
derived by serde for the other variants is trusted to be faithful.

Cache limits (`Mvcc/CacheWeight.lean`, `Props/CacheWeight.lean`): C87 (partial). `pageWeight` is the weigher of the cache. `memory` is the specification: the blocks a
page holds, one for each vector and string. `blocks_sum` compares the two field by field. Trusted: moka keeps the total weight of its entries
within `max_capacity`. Sizes of `Page` and `EventValue` are parameters; capacities are taken to be lengths.

Cost of an append (`Props/WriteCost.lean`): C88. `Extra n` compares two states of the writer: pages to be written, pages given up, length of the file. `Cost m n`
says so of a function, whether it succeeds or fails, and follows the structure of the code without knowing what the pages hold. Only the number of
levels comes from the invariant: `descend_height` with C82. `requestRoom` is the specification. `C88_batch` adds it up over the requests of a batch
(`batchRoom`). Not counted: the pages of the list of free pages, which `commit` changes afterwards; `C88_commit` says that it changes no others, and that these
are at most four for each free page.

Containment of damage (`Props/Contain.lean`): C89. `TreeIntact c d' d root`: the pages of `d` below a root, as `listing` finds them, read in `d'` as in `d`; nothing
is said of the other pages of `d'`. The invariant of `d` gives the trees, and the readers of the trees only need their own pages (`Sees`). The headers in
memory are assumed unchanged, as in C56. `C89_events` and `C89_index` also give the position returned with the events: the head without a limit, the last event of the
answer with one.

## 5. Disagreements between code and properties, and other findings

1. **Empty append with matching condition stops the writer** (C46). `is_request_idempotent` (db.rs 960-1024) with zero
   submitted events computes `found_events[found_events_len - 1]` with length 0: index underflow panic in the writer
   thread (the release profile uses `panic = "abort"`). The gRPC `append` handler forwards empty event lists. `C46_false`.
2. **`after = u64::MAX`** (C03/C46): `after + 1` overflows (panic with overflow checks; otherwise wraps to 0 so that the
   condition is evaluated against the whole log). `C03_after_max_false`.
3. **Pipelined mode may recycle pages still visible to a reader** (C17/C18 in pipelined mode): the set of reusable pages
   for batch N+1 is computed while batch N is in flight with `reader_tsns.min()`; when no reader is registered at that
   moment it includes pages freed by batch N, which are still reachable from the published header N-1. A reader that
   starts before batch N is acknowledged gets snapshot N-1, whose pages batch N+1 then overwrites. `C51_snapshot_false`.
4. **A cancelled request aborts the whole group commit** (C45): `CancelledByUser` is neither an integrity nor an
   invalid-argument error, so the batch is aborted and other clients get a shadow error. `C45_false`.
5. **Crash during creation** (C47): a file that exists but has no valid header cannot be opened (`Mvcc::new` treats it as
   existing). `C47_false`, `C47_empty_file_false`.
6. **Tracking leaf split by count** (C27): with sources of very different length, half of a split leaf can still exceed
   the page size, so the commit fails. `C27_tracking_leaf_false`.
7. **Failed header write followed by a retry and a crash** (C20/C21): if writing or syncing the header of transaction N+1 fails,
   the slot may nevertheless hold it on disk. The writer goes on from N and writes other pages as N+1. A crash before its
   header is written recovers the header of the failed attempt over pages of the retry. `C52_retry_false`: the file cannot be
10. **Tag key width is process-global** (`TAG_KEY_WIDTH_BYTES`): opening an old-format database changes the width for others, which then do not
    find events by tag (`C70_false`) and do not enforce conditions on tags (`C70_condition_false`).
8. **Blocking client stops at an empty message in mid-stream** (C39): `C39_sync_empty_message_false`; the server sends
   empty messages only alone.
9. **Length checks of type and tags are commented out** in validation; pages larger than 64 KiB could hold strings whose
   16-bit length field wraps. C26/C27 are for page sizes up to 65536.
10. **Tag key width is process-global** (`TAG_KEY_WIDTH_BYTES`): opening an old-format database changes the width for others.
11. **Tags leaf split by count** (C27): a leaf with a tag that already has a subtree, a tag with 504 positions in the leaf, and a new
    tag after the first is split behind the first entry, and the right half has 4103 bytes. The commit fails, and so do all
    others that add a tag there until the second tag gets another position. `C27_tags_leaf_false`.
12. **A contiguous write above 256 MiB** leaves `file_len` of the pager stale.
13. **Damage to the type byte of a header** is not detected by the checksum and can make opening fail although the other header
    is intact (`C22_not_a_header`, `C25_type_byte_false`).
14. Duplicate tags in one event put the same position twice in the index; the comment "we don't have duplicate positions" is
    wrong, reads remove duplicates.
15. `EventIterator` backwards computes `i - 1` for `usize` `i`; underflow is unreachable.
16. **`Mvcc::new` on an existing file does not `fsync`**: after a kill the newest header may be only in the OS cache; the next
    commit overwrites pages of the older one; a power loss then may leave only the older header. The crash model assumes that
    what was found at opening is on disk.
17. `reader()` may return a snapshot one commit older than the newest at its return (the two header slots are not read
    atomically), but always that of a moment during the call (`C17_snapshot_isolation`).
18. `prepare_commit` serializes data pages into buffers of `DEFAULT_PAGE_SIZE`: with other page sizes the pipelined writer
    writes pages that are too short or too long. C31 is for 4096.
19. The pipelined I/O thread does not check for short writes reported by `io_uring` (`C69_short`, `C69_written_false`): it can report success
    with not a byte of the data pages written. The variant without io_uring does not have this (`C69_blocking`).
20. A `Shutdown` message met by the drain loop is dropped (both writers); the thread then stops when the channel closes.
21. The legacy tag hash (`tag_to_hash_crc64`) has 64 bits but only as many values as CRC-32: its second half is the CRC of the
    tag with a salt appended, which the CRC of the tag determines (`crc64_collides`). Reads stay exact (C10).
22. **Damage to the tag index is hidden** (C56): `TagsTreeIterator::next_batch` (tags_tree.rs 691-697, 782-788) treats an error of
    `get_page_cached` as the end of the positions. Queries by tag, and append conditions by tag, then silently miss events;
    one changed byte in the root of the index hides all of them (`C56_index_false`), and lets appends through that their
    condition forbids (`C56_violated_false`). Other reads and conditions report the damage.
23. **What `umadb-check` reports** (C57): it says that a database without events is damaged (`last event by tree` is compared with
    position 0, umadb-check.rs 579-594; `C57_empty_false`), and one with a damaged free page (`C57_free_false`). Its help says that
    it never modifies the file, but opening repairs an unreadable header (`C57_readonly_false`); unreadable headers are counted in
    `header_errors`, which the final verdict (909-917) ignores. The tag index is checked page by page only, not against the events.
24. **Cancel does not wake an async iterator** (C59): `poll_next` of both async streams looks at the watch channels with `borrow()` but does not
    register with them (283-335, 451-500); a task that waits in `next().await` on a quiet stream stays asleep after `cancel()`, `close()` or
    `cancel_all_stream_responses()` until the server sends something (`C59_async_wakes_false`).
25. **Cancel and buffered events** (C59): `SyncClientReadResponse::cancel` sets `finished` first, so that the iterator hands over what is buffered and
    then ends like a complete read, without `CancelledByUser` (`C59_read_documented_false`); `next_batch()` after a cancel hands over buffered
    events first (`C59_next_batch_documented_false`). The comments promise `CancelledByUser` in both cases.
26. **Python signals lose events** (C61): `__next__` and `Subscription.next_batch` call `py.check_signals()?` after the poll and before they look at
    its result; an exception of a handler drops the event or batch that was just taken from the stream (`C61_iteration_false`).
27. **Python metadata** (C61): the getter builds a dict, so of an event stored by another client with repeated keys only the last is shown
    (`C61_metadata_last`). Messages of plain exceptions name the category twice (`C61_exceptions`).
28. **`grpcs://` without TLS options** (C62): `new_endpoint` replaces the scheme in a copy and then tests the original URL for `https://` (928-950), so that
    `connect_with_tls_options(url, None, ..)` sets no TLS configuration for `grpcs://` and every attempt fails (`C62_grpcs_alias_false`). `connect`
    always passes options and is not affected.
29. **Misspelled `--read-method`** (C62): falls back to `mmap` without a message although the default is `fileio` (umadb/src/lib.rs 152; `C62_read_method`).
30. **No order of the calls explains such a reader as in finding 3** (C64): opened between the building of a batch and the landing of the one before,
    it answers `read` with three events and the head of the empty database (`C64_linearizable_false`).
31. **Concurrent `UmaDb::append` calls lose updates** (C65): `Mvcc::writer` (mvcc.rs 722-755) takes no lock and the file lock (pager.rs 88) only keeps
    other processes out. Two calls that begin before either commits are given the same positions, both return `Ok`, and the second
    overwrites the pages and the header of the first (`C65_lost`, `C65_threads_false`). The server is not affected: only its writer thread appends.
32. **Message size limit** (C66): neither `into_service` (server 423-425) nor `connect_with_tls_options` (client 1059-1077) raises tonic's limit of 4 MiB
    for received messages, and the server fills messages by number of events only (a TODO at 801-803 says so). With the default batch size
    a log of 1024 events of 4096 bytes cannot be read (`C66_readable_false`); an event whose append request is within seven bytes of the
    limit is stored but fits into no answer, so that every read or subscription that reaches it fails (`C66_event_false`).
33. **Shutdown waits for clients that do not read** (C68): in the tasks of `read` and `subscribe` `tx.send(..).await` is outside of the `select!` with the
    shutdown receiver (server 592, 612, 804). A task whose channel (2048 messages) is full and whose client is connected but takes no messages stays
    there, and with it the call that `serve_with_incoming_shutdown` waits for (`C68_shutdown_false`).
34. **Huge UMADB_READER_THREADS** (C67): values from 2^61 on are accepted and make `Semaphore::new` panic at start (`C67_limit_panic`).
35. **append_batch** (C71; only in builds with `test-utils`): an invalid item aborts the batch (db.rs 118-123), which neither its description nor the
    writer thread does; an item without events with a violated condition panics.
36. **Opening a new path is not safe against other processes** (C72): `Pager::new` asks `path.exists()` before it opens and locks the file (pager.rs
    63, 87), and `Mvcc::new` initialises whatever it got if the answer was no (mvcc.rs 303). A process that is slow between the two overwrites the
    database that another has created, filled and left in the meantime (`C72_false`). A process that looks after the file was created but before it
    was locked takes the empty file for a database; if it gets the lock first both fail, and the empty file stays (`C72_both_fail_false`).
37. **Mistakes in the configuration are noticed late** (C73): TLS material that cannot be used and UMADB_READER_THREADS above 2^61 - 1 end the
    start with a panic (lib.rs 190, 414) after the database file was created and threads were started, though both are known before. The
    command line accepts `--max-blocking-threads 0`, on which tokio's builder panics (umadb/src/lib.rs 216); not modelled.
38. **What a retry needs** (C74): the check for repeats (db.rs 967-1031) recognises a retry only if the append is conditional, the query of the
    condition matches every event of the append, all events have uuids and `after` is not ahead of the log. Otherwise the retry records the
    events again (no condition, query matching none of the events, `after` ahead) or is refused although the append happened (tracking position
    without a condition, query matching some of the events, an event without a uuid): `C74_plain_false` and the others.
39. **Head of a limited backward read** (C75): `UmaDb::read` reports the position of the last event of the answer when a limit is given (db.rs
    183-191); for a backward read that is the oldest one. Used as `after` of a condition it makes the append fail on events that the client has
    just read, unless the limit is 1 (`C75_backwards_false`).
40. **Repeats ignore the tracking position** (C76): a conditional append whose events count as a repeat is answered with success before its
    tracking info is looked at (db.rs 855-865); if it carries another position than the first attempt, that position is not recorded
    (`C76_repeat_false`).
41. **Shutdown truncates reads silently** (C78): on shutdown the task of a Read call breaks out of its loop and drops the sender (server 502-505,
    546-550), so the stream ends with status OK. A client that collects the events takes those it has got for all; the head it is told (without
    limit) is that of the whole log. A condition built from it does not notice the events that were left out (`C78_shutdown_false`).
    `subscribe` differs only in that its streams have no end of their own.
42. **Early head of a limited read** (C78): over the network `head()` called before the events are taken answers the last position of the first
    message; on the embedded database that of the last event of the whole answer (`C78_early_head_false`).
43. **Type hints of damaged pages** (C81): `type_name_from_byte` (umadb-check.rs 17-35) does not know the byte `e` of TrackingInternal pages; damaged
    ones are counted as "unknown". Only printed. The number of positions in a value is not checked against anything but the end of the page: a
    damaged count makes Stage 4 read the bytes of the following entries as positions (an example beside `C81_recovers`).
44. **Uneven free list** (C82): `remove_free_page_id` puts the only child left of an internal page in the place of that page on any level
    (mvcc.rs 2375-2385), so the trees of the free list can become uneven (example `freeTall` in `Props/Balance.lean`). Nothing depends on it but
    the number of pages read.
45. **A cut-off reading leaves a gap** (C83): finding 41 seen from a program that goes on by subscribing: the events between the last one it got
    and the head it was told are never delivered (`C83_shutdown_false`). Going on after the last event received instead of the head avoids it (C77).
46. **The 64-bit tag hash has 32 bits** (C85): `tag_to_hash_crc64` joins the CRC-32 of the tag with the CRC-32 of the tag followed by a fixed salt. The
    second is a function of the first, so two tags collide exactly when their CRC-32 does (`C85_equal`, e.g. `plumless` and `buckeroo`). Answers
    stay right; on old files reads by tag look up events that have only a colliding tag.
47. **Serialized input/output errors lose their text** (C86): `serde_io_error` takes the message from `get_ref()`, which is there only for errors made by
    `io::Error::new`. An error of the operating system is read back as "unknown error", without its code (`C86_os_false`); codes whose kind
    has no stable name (5, input/output error) are read back as `Other` (`C86_kind_false`). `to_string()` of the error itself would keep it.
48. **The cache does not count metadata** (C87): `event_value_approx_heap_bytes` (page.rs 104-124) leaves out the metadata and the tracked source of events. An entry
    of metadata takes 48 bytes of memory beside its strings and 4 in the file, so 1000 leaves of events with 150 entries that keep to a limit of 1 MB can take more
    than 7.9 MB (`C87_metadata_false`). `1000000 * page_cache_max_mb` wraps around from 18446744073710 on (`C87_wrap_false`).
