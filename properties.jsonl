{"id": "C01", "title": "Positions are dense, start at 1 and are never reused", "statement": "The k-th event ever committed to a database has position k. A successful append of n>0 events to a database with head h stores them at h+1..h+n in submission order; an append that fails (or is rejected) consumes no position that any later reader can observe.", "quantifier": "for every finite history of append requests (conditional, unconditional, tracked, failing) grouped into batches in any way", "why_tests_cant": "Needs every history of mixed successes and failures and every batch grouping; tests sample a few.", "anchors": ["umadb-core/src/db.rs: process_append_request, unconditional_append_event_values", "umadb-core/src/mvcc.rs: Writer::issue_position, Mvcc::commit", "umadb-core/src/writer_thread_blocking.rs: writer_thread_blocking"]}
{"id": "C02", "title": "Append is all-or-nothing and returns the last position", "statement": "If append returns Ok(p) for a non-empty, non-idempotent request, then exactly the submitted events (in order, nothing else) were added to the log and p is the position of the last of them. If append is refused or fails before its commit, events, head, query results and tracking values are exactly what they were before; if the disk fails during the commit, the whole request has happened or nothing of it.", "quantifier": "for every database state reachable through the API and every append request", "why_tests_cant": "Quantifies over all states and all failure causes, including failures after part of the work was done.", "anchors": ["umadb-core/src/db.rs: UmaDb::append, process_append_request", "umadb-core/src/mvcc.rs: Mvcc::commit"]}
{"id": "C03", "title": "Append condition is decided exactly", "statement": "An append with a condition (query q, after a) whose events are not an idempotent repeat is refused with an integrity error if and only if some already recorded event with position greater than a (or any event when a is absent) matches q.", "quantifier": "for every log, every query (empty, typed, tagged, mixed items, duplicate tags), every a below the maximum u64 and every request", "why_tests_cant": "Soundness and completeness of the decision over all logs and queries; a missed match silently breaks consistency.", "anchors": ["umadb-core/src/db.rs: process_append_request, read_conditional", "umadb-dcb/src/lib.rs: DcbAppendCondition"]}
{"id": "C04", "title": "A group-committed batch is equivalent to one-at-a-time execution", "statement": "When the writer folds several requests into one commit, the answers sent back and the final database content are those obtained by executing the requests one after the other, each with its own commit, in arrival order: later requests see the events and tracking of earlier ones in the same batch, and requests refused for integrity or argument reasons leave no effect on the others.", "quantifier": "for every list of requests and every split into batches in which no request hits an internal error", "why_tests_cant": "All batch compositions and split points; timing dependent in the running system.", "anchors": ["umadb-core/src/writer_thread_blocking.rs: writer_thread_blocking", "umadb-core/src/db.rs: process_append_request, append_batch"]}
{"id": "C05", "title": "Idempotent retry returns the original answer and writes nothing", "statement": "If a conditional append whose events all carry uuids and all match the condition's own query, and whose `after` is not beyond the head, succeeded with position p, then repeating the same request at any later time returns Ok(p) (or fails on a disk error) and changes nothing.", "quantifier": "for every earlier log, every request of that kind and every later history of other appends", "why_tests_cant": "The retry may come after any later history; tests only retry immediately.", "anchors": ["umadb-core/src/db.rs: is_request_idempotent, process_append_request"]}
{"id": "C06", "title": "Success without writing happens only for a genuine repeat", "statement": "A conditional append that finds a matching event answers Ok(p) only if every submitted event has a uuid and the first matching recorded events after `after` carry exactly the submitted uuids in the submitted order, with p the position of the last of them; in every other case it answers with an integrity error.", "quantifier": "for every log and every non-empty conditional request whose condition matches", "why_tests_cant": "Falsely reporting success loses the caller's events; needs all logs and requests.", "anchors": ["umadb-core/src/db.rs: is_request_idempotent"]}
{"id": "C07", "title": "Forward reads are exact", "statement": "A forward read with query q, start s and limit n returns exactly the first n (all when no limit) recorded events with position >= s (all when absent) that match q, in increasing position order, each once and with its original content.", "quantifier": "for every log, query, start and limit", "why_tests_cant": "Tree shapes, page boundaries and query shapes are unbounded.", "anchors": ["umadb-core/src/db.rs: read_conditional, UmaDb::read", "umadb-core/src/events_tree.rs: EventIterator", "umadb-core/src/tags_tree.rs: TagsTreeIterator"]}
{"id": "C08", "title": "Backward reads are exact", "statement": "A backward read with query q, start s and limit n returns exactly the n (all when no limit) matching events with position <= s (all when absent) taken from the highest position downwards, in decreasing order, each once; start 0 yields nothing.", "quantifier": "for every log, query, start and limit", "why_tests_cant": "Reverse traversal has its own boundary cases in every page shape.", "anchors": ["umadb-core/src/db.rs: read_conditional", "umadb-core/src/events_tree.rs: EventIterator", "umadb-core/src/tags_tree.rs: TagsTreeIterator"]}
{"id": "C09", "title": "Query matching means what the API says", "statement": "An event is selected by a query iff the query has no items, or for some item the event's type is among the item's types (or the item lists none) and every tag of the item is a tag of the event.", "quantifier": "for every event and query, including empty lists and duplicated tags or types", "why_tests_cant": "All event/query pairs; both implementation paths must agree with the one definition.", "anchors": ["umadb-core/src/db.rs: read_conditional (matches_item, match check)", "umadb-dcb/src/lib.rs: DcbQuery, DcbQueryItem"]}
{"id": "C10", "title": "Tag-index reads equal full scans, whatever the tag hash", "statement": "Whenever every query item has a tag, the index-driven read returns the same list as a full sequential scan with the same arguments, for any tag hash function, even one that maps distinct tags to the same value.", "quantifier": "for every log, query, start, direction, limit and every hash function on tags", "why_tests_cant": "Hash collisions cannot be produced in tests; the claim is over all hash functions.", "anchors": ["umadb-core/src/db.rs: read_conditional, tag_to_hash", "umadb-core/src/tags_tree.rs: tags_tree_insert, TagsTreeIterator"]}
{"id": "C11", "title": "Reported head is the last committed position", "statement": "head() is None exactly when no event was ever committed and otherwise the number of committed events; read() without a limit reports that same head of the snapshot it read, and read() with a limit reports the position of the last event it returned (None if none).", "quantifier": "for every reachable database state and read arguments", "why_tests_cant": "All states and arguments.", "anchors": ["umadb-core/src/db.rs: UmaDb::head, UmaDb::read", "umadb-server/src/handler.rs: head, read"]}
{"id": "C12", "title": "Tracking positions only move forward", "statement": "An append carrying tracking (source, p) with p not greater than the recorded position of that source is refused with an integrity error and changes nothing; otherwise the recorded position becomes p. The recorded position of a source never decreases.", "quantifier": "for every history of tracked and untracked appends, any number of sources", "why_tests_cant": "All histories and all tracking tree shapes.", "anchors": ["umadb-core/src/db.rs: tracking_upsert, get_tracking_info"]}
{"id": "C13", "title": "Tracking and events move together", "statement": "After any history, the tracking value of a source is p iff some accepted request carried (source, p) and no later accepted request carried that source; the events of that request are recorded with that tracking info, and no refused request ever changes tracking.", "quantifier": "for every history of requests", "why_tests_cant": "Atomicity over arbitrary histories with failures.", "anchors": ["umadb-core/src/db.rs: process_append_request, tracking_upsert"]}
{"id": "C14", "title": "get_tracking_info behaves as a map", "statement": "After any sequence of accepted tracking updates, looking up a source returns the value of its last accepted update, or None if it never had one; updates of one source never change another.", "quantifier": "for every update sequence with arbitrary source strings (within the accepted length)", "why_tests_cant": "Leaf splits, internal splits and root growth depend on unbounded key sets.", "anchors": ["umadb-core/src/db.rs: tracking_upsert, get_tracking_info", "umadb-core/src/tracking_tree_nodes.rs"]}
{"id": "C15", "title": "Events come back exactly as written", "statement": "The event read at a position has the type, data, tags, uuid, metadata (in order) and tracking info with which it was appended, whether stored inside one page or spread over a chain of overflow pages.", "quantifier": "for every accepted event of any size", "why_tests_cant": "All sizes around every page boundary, every combination of optional fields.", "anchors": ["umadb-core/src/events_tree.rs: write_overflow_chain, read_overflow_chain, materialize_event_value, event_tree_append_event_value", "umadb-core/src/events_tree_nodes.rs: EventLeafNode"]}
{"id": "C16", "title": "Point lookup of events", "statement": "Looking up a recorded position yields the event appended there; looking up position 0 or a position beyond the head yields an error, never another event.", "quantifier": "for every log length and position", "why_tests_cant": "All tree shapes.", "anchors": ["umadb-core/src/events_tree.rs: event_tree_lookup"]}
{"id": "C17", "title": "Snapshot isolation of readers", "statement": "A reader opened when the committed log was L sees exactly L in every later read it performs, however many batches the (blocking) writer commits meanwhile and however many pages are recycled.", "quantifier": "for every interleaving of reader opens, reads, closes and commits", "why_tests_cant": "All interleavings, including those between observing the header and registering.", "anchors": ["umadb-core/src/mvcc.rs: Mvcc::reader, Mvcc::writer, find_reusable_page_ids, Reader::drop", "umadb-core/src/mvcc.rs: Mvcc::commit"]}
{"id": "C18", "title": "A page in use is never overwritten", "statement": "A commit writes only pages that no open reader's snapshot and no durable header that recovery could choose can reach.", "quantifier": "for every interleaving of readers, writers and crashes in blocking mode", "why_tests_cant": "Page reuse bugs need particular reader lifetimes and free-list contents.", "anchors": ["umadb-core/src/mvcc.rs: find_reusable_page_ids, process_freed_page_ids, alloc_page_id, get_dirty_page_id"]}
{"id": "C19", "title": "Page accounting is exact", "statement": "At every commit every page id below the allocation limit is either a header page, or reachable from the committed roots, or recorded once in the free list - never two of these and never none: no page is leaked or handed out twice.", "quantifier": "for every history of commits with any reader lifetimes", "why_tests_cant": "Unbounded histories; leaks are invisible to functional tests.", "anchors": ["umadb-core/src/mvcc.rs: alloc_page_id, append_freed_page_id, process_freed_page_ids, insert_freed_page_id, remove_free_page_id"]}
{"id": "C20", "title": "Crash atomicity", "statement": "If the process or machine stops at any point during a commit - any subset of the data pages written, header written, torn or not - then reopening the file yields either the state before the batch or the state after it, never a mixture.", "quantifier": "for every database state, batch and crash point, with any subset of un-synced writes lost or torn; the disk reported no failure writing the header of the batch before (that case is C52)", "why_tests_cant": "Every subset of lost writes at every crash point.", "anchors": ["umadb-core/src/mvcc.rs: Mvcc::commit, Mvcc::new, write_pages, cow_header_page", "umadb-core/src/io_shell.rs"]}
{"id": "C21", "title": "Durability of acknowledged appends", "statement": "Once append has answered Ok(p), the events up to p are in the log recovered after any later crash, at the same positions and with the same content, and also after crashes during later commits.", "quantifier": "for every history of batches, acknowledgements, refused batches and repeated crashes, except crashes while a batch is written after the header of the one before could not be (that case is C52)", "why_tests_cant": "All crash points of all histories.", "anchors": ["umadb-core/src/writer_thread_blocking.rs", "umadb-core/src/writer_thread_pipelining.rs", "umadb-core/src/mvcc.rs: Mvcc::commit, Mvcc::new"]}
{"id": "C22", "title": "Recovery selects the newest intact header", "statement": "On opening, the state used is that of the valid header with the higher transaction number; if exactly one header is damaged (its slot does not decode as a page) the other is used and copied over it; if both are damaged, or a slot holds a page that is not a header, opening fails rather than inventing a state. The next commit overwrites only the older header.", "quantifier": "for all contents of the two header slots", "why_tests_cant": "All combinations of damage and numbering, including equal numbers after a repair.", "anchors": ["umadb-core/src/mvcc.rs: Mvcc::new, get_latest_header_page, cow_header_page", "umadb-core/src/header_node.rs"]}
{"id": "C23", "title": "Every stored record survives encode/decode", "statement": "Decoding the bytes written for any page (event, tag index, tracking, free-list, overflow, header) yields the same content, and the number of bytes written is the one computed beforehand for page-fitting decisions (tracked events: at most).", "quantifier": "for every node value within the field widths of the format", "why_tests_cant": "All values of all page kinds.", "anchors": ["umadb-core/src/events_tree_nodes.rs", "umadb-core/src/tags_tree_nodes.rs", "umadb-core/src/tracking_tree_nodes.rs", "umadb-core/src/free_lists_tree_nodes.rs", "umadb-core/src/header_node.rs", "umadb-core/src/page.rs", "umadb-core/src/node.rs"]}
{"id": "C24", "title": "Decoding arbitrary bytes never misreads past the buffer", "statement": "Decoding a page from arbitrary bytes either returns an error or a node whose every field comes from inside the given bytes; trailing bytes beyond the recorded length never influence the result.", "quantifier": "for every byte string", "why_tests_cant": "All byte strings.", "anchors": ["umadb-core/src/page.rs: Page::deserialize", "umadb-core/src/slice_reader.rs", "umadb-core/src/node.rs: Node::deserialize"]}
{"id": "C25", "title": "Page checksums detect local damage", "statement": "If the stored body of a page is altered in any single run of at most four consecutive bytes, reading the page reports corruption instead of returning data.", "quantifier": "for every page body and every non-trivial alteration confined to four adjacent bytes", "why_tests_cant": "2^32 alterations times all bodies.", "anchors": ["umadb-core/src/page.rs: calc_crc, Page::deserialize"]}
{"id": "C26", "title": "Accepted events can always be stored", "statement": "If an event passes validation then storing it never fails for reasons of size; if it does not, the request is refused as an invalid argument before anything is changed, and other requests in the batch are unaffected.", "quantifier": "for every page size in use and every event (any number and size of tags, metadata, data)", "why_tests_cant": "Boundary sizes of all variable-length parts in combination.", "anchors": ["umadb-core/src/events_tree_nodes.rs: validate_event_record_for_append, validate_tags, validate_metadata", "umadb-core/src/events_tree.rs: event_tree_append_event_value"]}
{"id": "C27", "title": "Every page handed to the disk fits the page size", "statement": "All pages produced by appends (event, tag index, tracking, free list) have serialized size at most the page size, so a commit never fails because a page is overfull.", "quantifier": "for every history of appends", "why_tests_cant": "Depends on adversarial size distributions of keys and lists.", "anchors": ["umadb-core/src/events_tree.rs", "umadb-core/src/tags_tree.rs: tags_tree_insert 20", "umadb-core/src/db.rs: tracking_upsert", "umadb-core/src/mvcc.rs: insert_freed_page_id"]}
{"id": "C28", "title": "Oldest active reader is computed exactly", "statement": "At any time the registry's minimum is the least transaction number among currently open readers (None if there are none), with several readers on the same number counted separately.", "quantifier": "for every sequence of reader opens and closes", "why_tests_cant": "All sequences with repeated numbers.", "anchors": ["umadb-core/src/mvcc.rs: ReaderTsnRegistry"]}
{"id": "C29", "title": "Batch abort policy", "statement": "Within a batch, requests refused for integrity or argument reasons get their own error and do not affect the others; on the first other error nothing of the batch is committed, the failing request gets its error and every other request in the batch gets an error too - no request of an aborted batch is told Ok.", "quantifier": "for every batch and every position of the failing request", "why_tests_cant": "All batches and failure positions.", "anchors": ["umadb-core/src/writer_thread_blocking.rs", "umadb-core/src/writer_thread_pipelining.rs", "umadb-core/src/db.rs: shadow_for_batch_abort, append_batch"]}
{"id": "C30", "title": "Exactly one answer per request", "statement": "Every append request taken from the queue receives exactly one answer, and it is the outcome of that very request (or the batch-wide failure), never another's.", "quantifier": "for every sequence of requests, batch limits and failures", "why_tests_cant": "All queue contents and interleavings of arrival with draining.", "anchors": ["umadb-core/src/writer_thread_blocking.rs", "umadb-core/src/writer_thread_pipelining.rs"]}
{"id": "C31", "title": "The pipelined writer gives the same answers as the blocking one", "statement": "For the same sequence of batches, the pipelined writer produces the same answers and, once idle, the same committed log and tracking as the blocking writer; Ok is sent only after the batch and all earlier ones are durable; if writing a batch fails, neither it nor the batch built on top of it is reported as Ok or visible.", "quantifier": "for every sequence of batches and every pattern of write failures", "why_tests_cant": "Overlap of computation and I/O with failures at any point.", "anchors": ["umadb-core/src/writer_thread_pipelining.rs", "umadb-core/src/mvcc.rs: prepare_commit, WriterSnapshot", "umadb-core/src/io_shell.rs"]}
{"id": "C32", "title": "Published head never runs ahead of durable state", "statement": "The head value announced to subscribers is always the head of a committed state, and never decreases.", "quantifier": "for every sequence of batches, commit failures and aborts", "why_tests_cant": "All failure patterns.", "anchors": ["umadb-core/src/writer_thread_blocking.rs: head_watch_tx", "umadb-core/src/writer_thread_pipelining.rs: acknowledge_inflight"]}
{"id": "C33", "title": "Streamed reads are consistent across batches", "statement": "The concatenation of all batches streamed for one Read call equals the result of a single read of the log as it was when the stream started, regardless of batch size and of events appended while streaming. Every batch has at most as many events as the call asked for (1024 if it did not say, at least 1, never more than 4096), and every batch but the last exactly that many.", "quantifier": "for every log, query, start, direction, limit, batch size and every interleaving with appends", "why_tests_cant": "Each batch uses a fresh snapshot; the race with appends is unbounded.", "anchors": ["umadb-server/src/lib.rs: UmaDbServer::read", "umadb-server/src/handler.rs: read"]}
{"id": "C34", "title": "Subscriptions deliver every matching event exactly once in order", "statement": "A subscription after position a delivers the matching events with position > a in increasing order with no gap and no repetition, whatever the batch sizes and however deliveries interleave with appends.", "quantifier": "for every log history, query, a and schedule", "why_tests_cant": "Unbounded streams and schedules.", "anchors": ["umadb-server/src/lib.rs: UmaDbServer::subscribe"]}
{"id": "C35", "title": "Subscriptions never miss a wake-up", "statement": "If a subscription is waiting for new events and the writer has finished announcing its commits, then every matching committed event has already been delivered: no interleaving of a commit with the subscriber's decision to wait leaves an event undelivered until some later commit.", "quantifier": "for every interleaving of subscriber steps and writer steps", "why_tests_cant": "Classic lost wake-up race; needs all interleavings.", "anchors": ["umadb-server/src/lib.rs: UmaDbServer::subscribe", "umadb-core/src/writer_thread_blocking.rs: head_watch_tx"]}
{"id": "C36", "title": "API key is enforced on every call", "statement": "If a key is configured, every Read, Subscribe, Append, Head and GetTrackingInfo without exactly the header value `Bearer <key>` is refused as unauthenticated and has no effect; without a configured key no call is refused for that reason.", "quantifier": "for every key, header value and call", "why_tests_cant": "All header values.", "anchors": ["umadb-server/src/lib.rs: enforce_api_key", "umadb-client/src/lib.rs: add_auth"]}
{"id": "C37", "title": "Error categories survive the network", "statement": "An error raised by the store is seen by the client in the same category for integrity, invalid argument, authentication, corruption, serialization and internal errors, with the message preserved.", "quantifier": "for every error value", "why_tests_cant": "All error kinds and messages, including via the fallback path.", "anchors": ["umadb-proto/src/lib.rs: status_from_dcb_error, dcb_error_from_status"]}
{"id": "C38", "title": "Events survive the network representation", "statement": "Converting an event to its wire form and back yields the same event; queries and conditions likewise.", "quantifier": "for every event, query, condition", "why_tests_cant": "All values of all optional fields.", "anchors": ["umadb-proto/src/lib.rs: From/TryFrom implementations"]}
{"id": "C39", "title": "Client iterators deliver the stream faithfully", "statement": "Iterating a client read response (async or sync, by item or by batch, calling head() at any time) yields exactly the events of the received messages, in order, none lost or repeated, until end of stream.", "quantifier": "for every mix of next, next_batch and head calls without cancellation and every sequence of server messages; by batch and for the blocking client, every sequence in which an empty message comes only last (the server sends no other, C33)", "why_tests_cant": "All call mixes and message splits.", "anchors": ["umadb-client/src/lib.rs: AsyncClientReadResponse, SyncStreamEngine"]}
{"id": "C40", "title": "Cancellation never yields partial results", "statement": "A read whose cancel flag may be raised at any moment either returns the complete exact result or the cancellation error; an append cancelled during its condition check writes nothing.", "quantifier": "for every log, query and every moment at which the flag is raised", "why_tests_cant": "All timing points.", "anchors": ["umadb-core/src/db.rs: read_conditional", "umadb-core/src/events_tree.rs: EventIterator::next_batch"]}
{"id": "C41", "title": "Page recycling order loses nothing", "statement": "The order in which recyclable pages are handed out (longest contiguous runs first) is a reordering of exactly the recyclable pages: none added, dropped or duplicated, and runs are maximal and contiguous.", "quantifier": "for every set of recyclable pages", "why_tests_cant": "All sets of ids.", "anchors": ["umadb-core/src/mvcc.rs: find_reusable_page_ids_with_snapshot"]}
{"id": "C42", "title": "Grouped page writes write exactly the batch's pages", "statement": "Sorting and merging dirty pages into contiguous writes leaves every page of the batch at its own offset and touches no other byte of the file.", "quantifier": "for every set of dirty pages and page size", "why_tests_cant": "All id patterns.", "anchors": ["umadb-core/src/mvcc.rs: write_pages", "umadb-core/src/pager.rs"]}
{"id": "C43", "title": "Older file formats stay readable", "statement": "A header written before tracking or schema fields existed decodes with those fields at their defaults; a tracking page in the old layout decodes to the same map with keys in order; databases of the old tag-hash width keep using it.", "quantifier": "for every old-format page content", "why_tests_cant": "All old contents.", "anchors": ["umadb-core/src/header_node.rs: from_slice", "umadb-core/src/tracking_tree_nodes.rs: from_slice", "umadb-core/src/mvcc.rs: Mvcc::new"]}
{"id": "C44", "title": "Free list behaves as a set of (page, transaction) pairs", "statement": "Recording a freed page adds exactly that page under the current transaction, removing a reused page removes exactly it, and listing pages reclaimable at a given oldest reader returns exactly those freed at or before it.", "quantifier": "for every sequence of insertions and removals performed by commits", "why_tests_cant": "The on-disk free list has many shapes (inline, per-transaction subtree, split leaves).", "anchors": ["umadb-core/src/mvcc.rs: insert_freed_page_id, tsn_subtree_insert, remove_free_page_id, find_reusable_page_ids_with_snapshot"]}
{"id": "C45", "title": "One client's cancelled request does not disturb others", "statement": "If a client disconnects while its append is being processed, the other appends grouped with it are answered as if it had not been there.", "quantifier": "for every batch containing a cancelled request", "why_tests_cant": "Requires a disconnect at a precise moment inside a group commit.", "anchors": ["umadb-core/src/writer_thread_blocking.rs", "umadb-core/src/db.rs: process_append_request", "umadb-server/src/lib.rs: append"]}
{"id": "C46", "title": "No request can stop the writer", "statement": "Every append request, whatever its events, condition, `after` and tracking values, is answered; none makes the writer stop serving later requests.", "quantifier": "for every request, including empty event lists and extreme positions", "why_tests_cant": "Adversarial requests over the whole input domain.", "anchors": ["umadb-core/src/db.rs: process_append_request, is_request_idempotent"]}
{"id": "C47", "title": "A newly created database is usable after a crash during creation", "statement": "If creation of the database file is interrupted at any point, opening the same path again succeeds with an empty database.", "quantifier": "for every crash point of the creation sequence", "why_tests_cant": "Every crash point.", "anchors": ["umadb-core/src/mvcc.rs: Mvcc::new"]}
{"id": "C48", "title": "Event builder metadata behaves as a map", "statement": "After any sequence of metadata_entry(k, v) calls the event has each key once with the last value given, in order of first use, and therefore always passes the duplicate-key check.", "quantifier": "for every sequence of calls", "why_tests_cant": "All sequences.", "anchors": ["umadb-dcb/src/lib.rs: DcbEvent::metadata_entry", "umadb-core/src/events_tree_nodes.rs: has_duplicate_metadata_key"]}
{"id": "C49", "title": "Batch size limit", "statement": "A batch is a run of consecutive requests from the front of the writer's queue. A request joins it only while the events of the requests before it number fewer than the configured limit, so that a batch exceeds the limit by at most its last request; and it is not closed early while requests are waiting, unless it has failed or a shutdown request was met.", "quantifier": "for every queue, limit, and pattern of requests becoming visible", "why_tests_cant": "All queues and arrival patterns.", "anchors": ["umadb-core/src/writer_thread_blocking.rs", "umadb-core/src/writer_thread_pipelining.rs"]}
{"id": "C50", "title": "Memory-mapped reads equal file reads", "statement": "With a file kept at a whole number of mapping windows, as creation and commits leave it, reading any page through a memory map gives exactly what reading it from the file gives (the same bytes, or no such page in both cases), and never touches a mapped address beyond the end of the file. Windows start at multiples of the operating system's page size and hold at least 256 MiB.", "quantifier": "for every file, page number, page size, operating system page size, and set of windows already mapped by other threads", "why_tests_cant": "All files, page sizes and interleavings of mapping.", "anchors": ["umadb-core/src/pager.rs: Pager::new, read_page_mmap_slice, preallocate", "umadb-core/src/mvcc.rs: PageRW::read_page"]}
{"id": "C51", "title": "Snapshots beside the pipelined writer", "statement": "With the pipelined writer too, an open reader sees, in every later read, exactly what was committed at one moment during the call that opened it, whatever batches are built, written, published or rolled back meanwhile; and no page of the batch being written belongs to an open reader's snapshot, to the committed database, or to what is recovered after a crash at that time.", "quantifier": "for every interleaving of readers, the writer thread, its I/O thread, cache evictions and crashes", "why_tests_cant": "All interleavings of reader registration with the overlapped building and writing of batches; the failing one needs a reader to open inside one batch's I/O.", "anchors": ["umadb-core/src/writer_thread_pipelining.rs", "umadb-core/src/io_shell.rs", "umadb-core/src/mvcc.rs: Mvcc::reader, find_reusable_page_ids_with_snapshot"]}
{"id": "C52", "title": "Failed header writes and crashes", "statement": "If the disk reports a failure while the header of a batch is written or synced, the batch is refused; after any later crash, also one while later batches are written, reopening the file yields the state before or after one of the batches, with all acknowledged events.", "quantifier": "for every database state, batch, failure of the header write (slot unchanged, written or torn), later batches and crash points", "why_tests_cant": "Needs a failing disk that nevertheless stores the header, and a crash inside the next commit.", "anchors": ["umadb-core/src/mvcc.rs: Mvcc::commit, Mvcc::writer, Mvcc::new", "umadb-core/src/writer_thread_blocking.rs"]}
{"id": "C53", "title": "Reads see what came before them", "statement": "With the blocking writer, a reader opened after some moment sees everything a new reader would have seen at that moment, and everything an earlier reader sees: the same events at the same positions, perhaps more after them, and tracking positions at least as high. In particular a reader opened after an append was answered with position p, or after p was announced as the head, sees the events up to p, also if there were crashes in between.", "quantifier": "for every interleaving of readers, the writer, direct appends, cache evictions, failed commits and crashes", "why_tests_cant": "Unbounded interleavings of the four header loads of each reader with the steps of commits and crashes.", "anchors": ["umadb-core/src/mvcc.rs: Mvcc::reader, Mvcc::commit", "umadb-core/src/writer_thread_blocking.rs", "umadb-core/src/db.rs: UmaDb::append"]}
{"id": "C54", "title": "Reads beside the pipelined writer see what came before them", "statement": "With the pipelined writer too, a reader opened after some moment sees everything a new reader would have seen at that moment, and everything an earlier reader sees; a reader opened after an append was answered with position p, or after p was announced as the head, sees the events up to p, also if there were failed batches or crashes in between.", "quantifier": "for every interleaving of readers, the writer thread, its I/O thread, cache evictions, failed batches and crashes", "why_tests_cant": "Answers are sent while the next batch is already built on pages not yet visible; all interleavings with readers and crashes have to be covered.", "anchors": ["umadb-core/src/writer_thread_pipelining.rs", "umadb-core/src/io_shell.rs", "umadb-core/src/mvcc.rs: Mvcc::reader"]}
{"id": "C55", "title": "Requests are answered whatever the storage does", "statement": "Whatever the storage operations return (damaged pages, failing disk), both writers answer every append request they take from the queue exactly once, unless a request makes the thread panic; Ok is sent, and a head announced, only for a batch whose commit succeeded; a call whose request could not be sent, or whose answer was dropped, reports an I/O error.", "quantifier": "for every storage backend (blocking writer: no law assumed), every database state (pipelined writer), every queue of requests, batch limit and disk behaviour", "why_tests_cant": "Every storage operation can fail at every request of a batch, with another batch in flight; only a few such failures can be injected.", "anchors": ["umadb-core/src/writer_thread_blocking.rs", "umadb-core/src/writer_thread_pipelining.rs", "umadb-server/src/handler.rs: append, head"]}
{"id": "C56", "title": "Damaged pages are reported, never hidden", "statement": "If pages of the file are damaged (a changed checksum, up to four adjacent changed bytes in the body, a file cut short), every read and tracking query is answered exactly as on the undamaged file or fails with an error; the head is unaffected. No answer is silently incomplete. An append to a file damaged in its pages is accepted or refused, and stored, as on the undamaged file, or fails and is stored entirely or not at all; what was stored before and is not damaged stays readable.", "quantifier": "for every database state, every set of damaged pages, every query, start, direction and limit, every sequence of append requests and batches", "why_tests_cant": "Any page, or combination of pages, of any tree can be damaged; an answer that lacks events because of damage looks like any other answer.", "anchors": ["umadb-core/src/mvcc.rs: read_page, get_page_cached", "umadb-core/src/tags_tree.rs: TagsTreeIterator::next_batch", "umadb-core/src/events_tree.rs: EventIterator::next_batch", "umadb-core/src/db.rs: read_conditional, get_tracking_info", "umadb-core/src/db.rs: process_append_request, UmaDb::append", "umadb-core/src/mvcc.rs: commit, find_reusable_page_ids, process_freed_page_ids"]}
{"id": "C57", "title": "The integrity checker passes intact files and only those", "statement": "When umadb-check passes a file that a database left behind (closed or crashed), with any pages made unreadable by damage, then opening it gives the database with all that was committed. It passes every intact file. It never modifies the file.", "quantifier": "for every database state, every crash image, every set of damaged pages", "why_tests_cant": "Any page of any tree can be damaged, and the verdict depends on every page of the file, also those that are free or beyond the limit.", "anchors": ["umadb-tools/src/bin/umadb-check.rs: real_main", "umadb-core/src/mvcc.rs: Mvcc::new, read_page"]}
{"id": "C58", "title": "Histories of calls are linearizable, also across crashes", "statement": "With the blocking writer thread, whatever appends, reads, head and tracking calls overlap, and whenever the process is killed or the machine loses power (except after a failed header write, see C52), everything clients observe is explained by one sequence of appends executed one at a time from the initial state. Each append that took effect did so once, at an instant after it was called and before it was answered, and its answer is the one of that sequence; an append answered with a failure took no effect. Every answer of a reader is that of the database at one instant after the reader was asked for and before it answered, the same instant for all its answers. Every announced head is that of the sequence at its instant. After any number of crashes the database is exactly the result of the sequence.", "quantifier": "for every initial database, every interleaving of requests, batches, page writes, cache evictions and loads, reader steps, failures and crashes, of any length", "why_tests_cant": "Linearizability is a statement about all interleavings; a test sees one schedule at a time and crashes at few points.", "anchors": ["umadb-server/src/handler.rs: append, head, read", "umadb-core/src/writer_thread_blocking.rs", "umadb-core/src/db.rs: append_batch, read, head, get_tracking_info", "umadb-core/src/mvcc.rs: reader, writer, commit, Mvcc::new"]}
{"id": "C59", "title": "Cancelling a stream stops it", "statement": "After a read response or subscription is cancelled (by its own cancel, by a handle, by close of the client or by cancel_all_stream_responses), calls on it hand over only events that had been received before, iteration and next_batch() say CancelledByUser, and a call that is waiting returns. As long as nothing is cancelled, cancellation changes nothing about what is delivered.", "quantifier": "for every content of the stream, every sequence of calls before and after, every schedule of messages, timers and signals", "why_tests_cant": "The signal can come at any point of a poll, with any amount of events buffered in either of two layers; a test takes one schedule.", "anchors": ["umadb-client/src/lib.rs: AsyncClientReadResponse, AsyncClientSubscription, SyncStreamEngine, evaluate_shutdown, cancel_all_stream_responses"]}
{"id": "C60", "title": "Closing a client cancels its streams and no others", "statement": "A stream that is held has been cancelled exactly if, since it was opened, it was itself cancelled, its client was closed or dropped, or all streams of the process were cancelled. The registry keeps nothing of streams that were dropped.", "quantifier": "for every number of clients and every sequence of opening, dropping, cancelling and closing", "why_tests_cant": "Registry slots are reused and drained in every order; a stream missed by close shows only in one of them.", "anchors": ["umadb-client/src/lib.rs: StreamRegistry, StreamGuard, close, Drop"]}
{"id": "C61", "title": "The Python bindings deliver what the client delivers", "statement": "Whatever a Python program calls on a read response or subscription, and whichever signals arrive meanwhile, every event and the failure of the stream reach it exactly once, in order; elapsed internal timeouts are never seen; the end is told only at the end. Each category of error becomes its exception class. The metadata of an event come back as the mapping they were given as.", "quantifier": "for every stream, every sequence of calls, every pattern of elapsed timeouts and signals, every error, every mapping", "why_tests_cant": "The loop polls with 100 ms timeouts and checks for signals after each poll; which round receives an event depends on timing.", "anchors": ["umadb-python/src/lib.rs: ReadResponse, Subscription, dcb_error_to_py_err, Event"]}
{"id": "C62", "title": "Credentials travel encrypted, and connections are what was asked for", "statement": "A client's API key is only sent over an encrypted channel, for every URL and all TLS options; https:// and its alias grpcs:// mean the same and are never served unencrypted. connect gives the first connection that succeeds within 50 attempts, and fails only after 50 failures. A server whose command line names a certificate or a key is started with both or not at all.", "quantifier": "for every URL, TLS options, API key, sequence of outcomes of attempts, command line", "why_tests_cant": "A URL is arbitrary text and is looked at in three places that must agree; a test tries a handful of URLs, none with credentials on the wire.", "anchors": ["umadb-client/src/lib.rs: new_endpoint, connect, connect_with_tls_options, add_auth", "umadb-server/src/lib.rs: ServerTlsOptions::from_path_strings", "umadb/src/lib.rs: CliOptions", "umadb-core/src/pager.rs: ReadMethod::from_str"]}
{"id": "C63", "title": "Requests of early clients reach the same calls", "statement": "A request reaches a call of the service exactly if its path is the one of that call in version 1 or the one it had before versions; every other path is left alone and reaches none.", "quantifier": "for every path", "why_tests_cant": "Paths are arbitrary text, rewritten by replacing every occurrence of a substring.", "anchors": ["umadb-server/src/lib.rs: PathRewriterService::call", "umadb-proto/proto/v1/umadb.proto"]}
{"id": "C64", "title": "Histories of calls with the pipelined writer are linearizable", "statement": "What C58 says of the blocking writer thread holds of the pipelined one, which computes the next batch while the previous one is still being written: whatever appends, reads, head and tracking calls overlap and whenever the process or the machine stops, everything clients observe is explained by one sequence of appends executed one at a time, each at an instant between call and answer, and by one instant for each reader. An append answered with a failure, be it its own or that of the batch it was built on, took no effect.", "quantifier": "for every initial database, every interleaving of requests, batches built and in flight, page writes, cache evictions and loads, reader steps, failures and crashes, of any length", "why_tests_cant": "A statement about all interleavings of two overlapping batches with readers and crashes; the failing one needs a reader to be opened between the building of a batch and the landing of the one before.", "anchors": ["umadb-core/src/writer_thread_pipelining.rs", "umadb-core/src/io_shell.rs", "umadb-core/src/mvcc.rs: reader, writer_snapshot, prepare_commit, Mvcc::new", "umadb-server/src/handler.rs: append, head, read"]}
{"id": "C65", "title": "Appends from several threads through the library interface take effect one at a time", "statement": "UmaDb::append takes &self and can be called by several threads at once on one open database. The answers that the calls get, leaving out those answered by a failure of the store, are the answers to the same requests executed one at a time in some order, and the database afterwards is the one this leaves; a call answered by a failure leaves nothing.", "quantifier": "for every database, every number of calls with any requests, and every interleaving of their transactions and commits", "why_tests_cant": "A race: it needs two calls that both begin their transaction before either commits, which single-threaded tests never do and multi-threaded ones rarely.", "anchors": ["umadb-core/src/db.rs: UmaDb::append, process_append_request", "umadb-core/src/mvcc.rs: writer, commit", "umadb-core/src/pager.rs: Pager::new (inter-process lock only)"]}
{"id": "C66", "title": "What a client appends within the message limit it can read back over the network", "statement": "Requests and answers are read back from their bytes as they were sent; fields of other versions are skipped and fields of the wrong kind refused. Whatever events were accepted by append calls over the network, a client reading over the network with any batch size gets exactly the selected events, as if the records had been handed over directly; a request beyond the message limit is refused before it reaches the database.", "quantifier": "for every message within machine integers, every log, query, range, limit and batch size, and every sequence of calls of the client's iterators", "why_tests_cant": "The limit applies to the sum of the sizes of all events of a message and, for a single event, to a window of seven bytes at 4 MiB; tests use small events.", "anchors": ["umadb-proto/proto/v1/umadb.proto", "umadb-server/src/lib.rs: into_service (no max_decoding_message_size), read, subscribe (TODO at 801-803)", "umadb-client/src/lib.rs: connect_with_tls_options (no max_decoding_message_size), read, append"]}
{"id": "C67", "title": "Calls that scan the database share the permits fairly, and each gets what it would get alone", "statement": "At most the configured number of scans run at a time; no permit is ever lost; permits are given in the order of asking, and every waiting call gets one or has been abandoned by its client, without the help of any client. A Read call among any others delivers a beginning of one read of the log as it was at one moment during the call, all of it if it ends although its client is connected and the server is not shutting down. A subscription delivers a beginning of the matching events and does not miss any when it comes to rest. GetTrackingInfo answers what was recorded at one moment during the call. The number of permits is UMADB_READER_THREADS if that is a positive number, else four times the number of cores, at least 4.", "quantifier": "for every number of concurrent calls, every limit, and every interleaving of arrivals, disconnections, messages taken, commits, announcements, shutdown, and steps of tasks and blocking threads", "why_tests_cant": "Leaked permits, lost wake-ups and overtaking need particular interleavings of disconnections, aborted closures and commits with the steps of several tasks.", "anchors": ["umadb-server/src/lib.rs: readers_concurrency_limit, read, subscribe, get_tracking_info"]}
{"id": "C68", "title": "After the shutdown signal all calls end", "statement": "Once shutdown has been broadcast and no more calls arrive, every task of a Read, Subscribe or GetTrackingInfo call ends after a bounded number of steps, whatever the clients do.", "quantifier": "for every state of the server when shutdown is broadcast and every interleaving afterwards", "why_tests_cant": "It fails only for a client that is connected, does not take messages, and has more than 2048 messages coming.", "anchors": ["umadb-server/src/lib.rs: start_server_with_options (serve_with_incoming_shutdown), read 556-650, subscribe 796-823"]}
{"id": "C69", "title": "The I/O thread reports success only when everything is written", "statement": "The I/O thread of the pipelined writer reports a commit as written only when every page of the commit and the header page can be read back from the file as they were prepared. It touches only the slots of those pages, and the header page only after all data pages have been written and synced; it reports success only after a last sync.", "quantifier": "for every prepared commit, every order in which the kernel performs the writes, every outcome of every request, and every content of the file", "why_tests_cant": "Short writes, partly failed batches and reorderings by the kernel cannot be provoked from a test, and the order of writes and syncs is not visible in the file afterwards.", "anchors": ["umadb-core/src/io_shell.rs: do_uring_commit 36-70, do_blocking_commit 93-112", "umadb-core/src/pager.rs: write_page_data 390-412"]}
{"id": "C70", "title": "Databases of one process do not influence each other", "statement": "When several databases are created or opened in one process, the calls on each of them are answered, and change it, exactly as if it were the only database of the process.", "quantifier": "for every number of databases, every interleaving of calls on them, every content and every request", "why_tests_cant": "Tests that open two databases use files written by the same version; the interference needs a file of the old format opened while another database is in use, in one of unboundedly many interleavings.", "anchors": ["umadb-core/src/tags_tree_nodes.rs: TAG_KEY_WIDTH_BYTES 14-25, normalize_tag_hash_for_current_width 27-36", "umadb-core/src/mvcc.rs: new 305-307, 453-487", "umadb-core/src/db.rs: tag_to_hash 959-966"]}
{"id": "C71", "title": "append_batch answers as separate appends would", "statement": "append_batch gives every item the answer that append would give if the items were appended one after the other, refusals for a violated condition included, and the database then holds what it would hold; an item without events is answered 0. There is one answer per item. When the batch cannot be carried out nothing is stored and no item is answered with a position.", "quantifier": "for every database, every list of requests with any conditions and tracking, every failure", "why_tests_cant": "The tests use a few batches of valid items on small databases; the claim ranges over all lists of requests in all states, and over failures in the middle.", "anchors": ["umadb-core/src/db.rs: append_batch 77-147, shadow_for_batch_abort 1064-1087"]}
{"id": "C72", "title": "Several processes and one path", "statement": "At most one process has the database at a path open at any time, and while it does no other changes the file. Whatever processes look for, open, lock, use and leave the path, in any interleaving, the answers they get are those of one log: a process that opens the database finds everything acknowledged to any process before, opening never changes what is stored, and a new database is made only where there was none. A path where processes try to open a database at the same time can be opened by one of them.", "quantifier": "for any number of processes, every interleaving of their steps (look for the file, open, lock, initialise, calls, stop), every request, every existing database", "why_tests_cant": "The test opens the same file twice in one process, one after the other; the claim ranges over all interleavings of the separate steps of opening in any number of processes.", "anchors": ["umadb-core/src/pager.rs: Drop 52-58, Pager::new 62-137", "umadb-core/src/mvcc.rs: Mvcc::new 239-534"]}
{"id": "C73", "title": "Starting and stopping the server", "statement": "While a server starts, calls are taken and health checks answer SERVING only once the address asked for is listened on, the database is open and locked, its last position is announced to subscribers, and there is at least one permit for readers. A server started on the file of a database has exactly its events and tracking positions and prints their true number; where there is no file it has an empty database. If the address is bad, or another process has the database, the file is not touched, and after any error nothing of the server is left. On shutdown health checks answer NOT_SERVING before running calls are told to end. The limit of open files is raised at most once in a process, never lowered, never above the hard limit, and the hard limit stays.", "quantifier": "for every configuration and environment (address, lock, limits and what the kernel accepts, UMADB_READER_THREADS, cores, TLS material), every content of the file, every moment of the run", "why_tests_cant": "Tests start servers on one machine with its own limits and look at them from outside once they answer; the claim is about every intermediate moment and every combination of failing steps.", "anchors": ["umadb-server/src/lib.rs: raise_open_file_limit 205-270, start_server_with_options 274-367, UmaDbServer::new 408-420", "umadb-server/src/handler.rs: UmaDbServerRequestHandler::new 25-90"]}
{"id": "C74", "title": "Trying an append again records it once", "statement": "A client sends the same append any number of times (at once or one after the other, after failures, lost answers and crashes of the server), among any calls of other clients. If the append has a condition, its events have uuids used by no other append and match the query of the condition, and the position in the condition was known to be reached when the append was first sent (from an answer to a read, a head or an append), then: its events are recorded at most once, all or none; if any attempt succeeds they are recorded exactly once, next to each other at the positions up to the one answered, and every attempt that succeeds is answered with the same position; if any attempt is refused, they are not recorded and no other attempt succeeds. An append with a tracking position is recorded at most once, condition or not.", "quantifier": "for every request, every number and interleaving of attempts and other calls, every crash point, both writers (the pipelined one under the conditions of C64)", "why_tests_cant": "Duplicates appear only if an attempt whose answer is lost has taken effect and others append between the attempts; tests retry once, on a quiet database, without a crash.", "anchors": ["umadb-core/src/db.rs: process_append_request 826-965, is_request_idempotent 967-1031", "umadb-core/src/db.rs: read_conditional 532"]}
{"id": "C75", "title": "Decisions are made on the current state", "statement": "A client reads with a query, decides, and appends with that query and the position that came with the answer as condition. If the append succeeds, then at the instant it takes effect the same read would give the same answer. All clients of this kind together, with any others that append something fixed, leave the database as if each of the successful ones had read, decided and appended in one instant, one after the other. So whatever each decision preserves when nobody interferes is preserved by all of them together, whatever is going on at the same time, also across crashes.", "quantifier": "for every number of clients, every decision function, query, start, direction and limit, every interleaving, every crash point; both writers (the pipelined one under the conditions of C64)", "why_tests_cant": "Violations need an append between another client's read and append, within a window of microseconds; the claim is about all schedules and all decision functions.", "anchors": ["umadb-core/src/db.rs: UmaDb::read 151-197, process_append_request 826-965, read_conditional 532-824", "umadb-dcb/src/lib.rs: read_with_head 66"]}
{"id": "C76", "title": "An upstream source is followed exactly once", "statement": "Workers go through the positions of an upstream source and append, for each, its results with the position as tracking info; a worker takes the position after one that get_tracking_info or the success of an append has reported. Then, with any number of workers at the same time, stale or restarted, and any crashes of the server, the records that stem from the source are the results for its positions one by one in order, each exactly once, none left out; the recorded position is the last of them, and every position a worker was told it had done is among them.", "quantifier": "for every source, every order of positions, every results function, every number of workers, every interleaving and crash point; both writers (the pipelined one under the conditions of C64)", "why_tests_cant": "Duplicates and gaps need stale workers, lost answers and crashes in particular orders; tests follow a source with one worker and no failure.", "anchors": ["umadb-core/src/db.rs: process_append_request 826-965 (tracking), get_tracking_info 207", "umadb-core/src/mvcc.rs: tracking tree insertion"]}
{"id": "C77", "title": "Subscribing again misses and repeats nothing", "statement": "A client subscribes; whenever the connection or the server goes down it subscribes again after the position of the last event it has received. Then, however often that happens, wherever each session is cut off, and whatever is appended or crashes during and between the sessions, everything it has received is a beginning of the list of matching committed events after its starting point: in order, none twice, none left out. If the last session lasts until the server has nothing more to send, it is the whole list.", "quantifier": "for every query, starting point, batch size, number of sessions, point at which each is cut off, schedule of subscriber and writer, and anything that happens between sessions (C20/C22)", "why_tests_cant": "The cut-off points interact with batching, notification and crash recovery; tests subscribe once to a server that stays up.", "anchors": ["umadb-server/src/lib.rs: subscribe 662-845", "umadb-core/src/db.rs: read_conditional 532-824", "umadb-core/src/mvcc.rs: Mvcc::new 68-309 (recovery)"]}
{"id": "C78", "title": "Reading with the head gives the same answer over the network as on the database itself", "statement": "read_with_head returns the events of a read together with the position to use in an append condition. Over the network, with the async and with the blocking client, whatever the batch size and whatever is appended while the answer is being sent, it returns what it would have returned on the database itself at one moment during the call, or an error; never a part of the answer as if it were all of it.", "quantifier": "for every query, start, direction, limit, batch size, every growth of the log during the call, every point at which the stream is cut off or breaks", "why_tests_cant": "Needs appends, failures and shutdown at particular moments between the parts of one answer.", "anchors": ["umadb-dcb/src/lib.rs: read_with_head 66-75 172-183, collect_with_head 214-222", "umadb-client/src/lib.rs: SyncClientReadResponse::collect_with_head 722-728", "umadb-core/src/db.rs: impl DcbReadResponseSync for ReadResponse 470-482", "umadb-server/src/lib.rs: read 489-653"]}
{"id": "C79", "title": "The file grows only when there is nothing left to reuse", "statement": "A commit takes a new page at the end of the file only when every page that could be used again has been used, counting the pages needed to store the free list itself. If the page limit grew, every page in the free list afterwards was given up by that very commit or was freed after the oldest open reader began; while a reusable page stays in the free list the file does not grow.", "quantifier": "for every database reached, every batch of the writer thread or direct append, every oldest reader and every order in which freed pages are processed", "why_tests_cant": "A leak of this kind shows only as slow growth over very many commits, and depends on which trees split while the free list is being rewritten.", "anchors": ["umadb-core/src/mvcc.rs: alloc_page_id 1083-1092, get_dirty_page_id 1094-1131, find_reusable_page_ids 1139-1332, process_freed_page_ids 1335-1368"]}
{"id": "C80", "title": "Reading in pages gives the whole answer of one instant", "statement": "A client that reads with a limit, goes on after the last event of each page (forwards at the next position, backwards at the one before), and stops at a page with fewer events than the limit, has together exactly the events that one read without limit would have given at some instant between asking for the first page and receiving the last: forwards that of the last page, backwards that of the first. Nothing is missed or repeated however many events are appended in between, and also if the server crashes between pages.", "quantifier": "for every query, start, direction and limit, every history of appends, reads and crashes, both writers; and for every sequence of calls to the database with anything happening between them", "why_tests_cant": "Appends may fall between any two pages, and events matching the query may lie anywhere; a test tries a few interleavings.", "anchors": ["umadb-core/src/db.rs: read 151, read_conditional 532", "umadb-dcb/src/lib.rs: read"]}
{"id": "C81", "title": "What the checker recovers from damaged pages of the tag index", "statement": "Stage 4 of umadb-check examines the bytes of damaged pages of the tag index. It ends without a panic whatever the bytes are. It reports no problem exactly when the decoder of the database accepts the bytes, and then lists the same entries. Of a page that was a leaf of the tag index of a database, it lists correctly every entry up to the first damaged byte, and finds for all their positions an event that has the tag; if only bytes after the entries (or in the header) are damaged there is no mismatch at all. If the bytes end too early, every position listed is one of the page, under the right key. The counts are the numbers of positions, of those with an event, and of those whose event has the tag.", "quantifier": "for all bytes of a page, both widths of the keys, every database reached by the model, every leaf of its tag index, and every damage", "why_tests_cant": "Damage can be any change of any bytes; tests try a few corruptions of one page.", "anchors": ["umadb-tools/src/bin/umadb-check.rs: forensic_parse_tags_leaf 704, analyze_entries 772, Stage 4 698-907, 270-290, 388-395"]}
{"id": "C82", "title": "The trees stay balanced, and a search reads few pages", "statement": "In every state of the database all leaves of the tree of events are equally far below its root, and every internal page has at least two children. The same holds for the tree of tags, the tree of tracked sources, and the tree of positions of each tag. The height of each tree is at most the binary logarithm of the number of pages of the file. Looking up an event by its position, looking up a tracked source, and finding the leaf of a tag read at most one page more than that of the tree.", "quantifier": "for all sequences of appends and crashes, all states of the database, all positions, sources and tags", "why_tests_cant": "An uneven tree answers every query correctly, only more slowly; and splits on the higher levels need more events than tests append.", "anchors": ["umadb-core/src/events_tree.rs: event_tree_append_event_value 185-493, event_tree_lookup 496-543", "umadb-core/src/tags_tree.rs: tags_tree_insert 20", "umadb-core/src/db.rs: tracking_upsert 246-490"]}
{"id": "C83", "title": "Reading first and then subscribing misses and repeats nothing", "statement": "A program reads the events matching a query after a position, with or without a limit, notes the head it is told with the answer, and goes on after it: by reading again or by subscribing. However often and in whatever order it does so, and whatever is appended meanwhile or however the server crashes in between, what it has received altogether is a beginning of the list of matching committed events after the first position, oldest first. After a reading without limit it has all events recorded when the reading began; when a subscription has nothing more to send, it has all.", "quantifier": "for all queries, limits, batch sizes, interleavings of readings, subscriptions, appends, crashes and restarts", "why_tests_cant": "An event can be lost or doubled only if it is committed in the moment between the last part of a reading and the start of the subscription.", "anchors": ["umadb-dcb/src/lib.rs: read_with_head 66-75, subscribe", "umadb-server/src/lib.rs: read 449-615, subscribe 665-835", "umadb-core/src/db.rs: UmaDb::read 151-197", "umadb-client/src/lib.rs: collect_with_head 722-728"]}
{"id": "C84", "title": "The file is no larger than its content and its free pages call for", "statement": "After any appends and crashes, the tree of events has at most three pages for each event, and one more for every pageSize - 17 bytes of its data and metadata; the index of tags has at most two pages for each distinct hash and two for each tag of each event; the table of tracked sources has at most two pages for each source; the free list has at most four pages for each free page; each has one page more for an empty root. Hence the number of pages of the file is bounded by the content recorded and the number of free pages.", "quantifier": "for all configurations, page sizes, events of any size, hash functions, and all histories of appends and crashes", "why_tests_cant": "A split that leaves an empty leaf, a chain with pages half empty, or a position recorded twice costs room only; every answer is right, and a test that compares answers does not see it.", "anchors": ["umadb-core/src/events_tree.rs: write_overflow_chain 16-56, event_tree_append_event_value 185-494", "umadb-core/src/tags_tree.rs: tags_tree_insert 20-595", "umadb-core/src/mvcc.rs: insert_freed_page_id 1371, remove_free_page_id 1953", "umadb-core/src/db.rs: tracking_upsert 246-480"]}
{"id": "C85", "title": "Both halves of the tag hash of old files tell tags apart", "statement": "In files of schema version 0 the index key of a tag is 64 bits, made of two checksums. Different tags of the same length that differ within four successive bytes have different keys, and tags whose first checksum is the same are still told apart by the second, so that the number of keys is not limited to that of a 32-bit checksum.", "quantifier": "for all pairs of tags and all logs", "why_tests_cant": "Two tags that collide are rare among the tags of a test (one pair in 2^32); that every collision of the first half is one of the second is not seen from any number of keys that differ.", "anchors": ["umadb-core/src/db.rs: tag_to_hash_crc64 930-957, tag_to_hash 959-965", "umadb-core/src/tags_tree_nodes.rs: normalize_tag_hash_for_current_width 27-36"]}
{"id": "C86", "title": "Errors survive serialization", "statement": "An error that is serialized and read back is the same error: the same variant, the same fields, and for input/output errors the same kind and the same text. Doing so again changes nothing.", "quantifier": "for all errors: all variants and fields, all kinds, all texts, errors of the operating system and others", "why_tests_cant": "Two tables of 39 names have to be inverse to each other, and what is lost depends on where the error came from: errors made by a test with io::Error::new keep their text, those of the operating system do not.", "anchors": ["umadb-dcb/src/lib.rs: DcbError 485-533, serde_io_error 538-658"]}
{"id": "C87", "title": "The page cache keeps to its limit", "statement": "With a limit in megabytes the cached pages take no more memory than that; with a limit in pages no more than that many pages, each at most fifty times its size in the file; without a limit nothing is cached.", "quantifier": "for all limits and all sets of cached pages, with any content", "why_tests_cant": "The weight of a page is estimated field by field; a field left out is not seen unless a test stores events that have much of it and measures memory.", "anchors": ["umadb-core/src/page.rs: event_value_approx_heap_bytes 104-124, node_approx_heap_bytes 127-173, page_approx_deserialized_bytes 176-202", "umadb-core/src/mvcc.rs: Mvcc::new 276-299"]}
{"id": "C88", "title": "An append changes few pages of the trees", "statement": "When the commit of an append begins, the pages to be written, the pages given up and the pages by which the file has grown are each at most: two for each level and three more for the tracked position; for each event one for each part of its data that fills a page, two for each level and four more; for each of its tags four for each level and six more. The number of levels is at most the binary logarithm of the number of pages of the file. A refused request is bounded in the same way.", "quantifier": "for all reachable states of the database and of a transaction, and all requests", "why_tests_cant": "The cost of an append depends on the shape of four trees; a page copied or split without need is seen neither in the answers nor in small files.", "anchors": ["umadb-core/src/mvcc.rs: get_dirty_page_id 1094-1131, insert_dirty 1069-1081, alloc_page_id 1083-1092", "umadb-core/src/events_tree.rs: event_tree_append_event_value 185-494", "umadb-core/src/tags_tree.rs: tags_tree_insert 20-595", "umadb-core/src/db.rs: tracking_upsert 246-480, unconditional_append_event_values 492-528"]}
{"id": "C89", "title": "Damage in one tree does no harm to what is read from the others", "statement": "Whatever happens to pages outside the tree of events, reads whose query has an item without tags (or no items) are answered correctly. Whatever happens outside the trees of events and of tags, all reads are. Whatever happens outside the tree of tracked positions, these are answered correctly. The head is answered correctly whatever happens to any page. What the free list and the free pages hold matters to no reader; with the root of the free list unreadable every append fails with an error naming the free list and changes nothing.", "quantifier": "for all reachable databases, all contents of the pages outside the named trees (unreadable or readable with any content), all queries, starts, directions and limits", "why_tests_cant": "Which pages a call depends on is visible only by damaging every other page in every way in every state.", "anchors": ["umadb-core/src/db.rs: read_conditional 532-825, get_tracking_info 44-75 and 207-212, head 199-205", "umadb-core/src/events_tree.rs: event_tree_lookup 496-543, EventIterator 545-769", "umadb-core/src/tags_tree.rs: TagsTreeIterator 646-884", "umadb-core/src/mvcc.rs: read_page 603-623, find_reusable_page_ids_with_snapshot 1149-1333"]}
