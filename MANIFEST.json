{
 "claims": [
  {
   "property": "C01",
   "status": "proved",
   "theorems": [
    "Uma.Props.C01_positions_dense",
    "Uma.Props.C02_append_all_or_nothing"
   ],
   "note": "every message sequence through the writer thread; positions of one append in C02_append_all_or_nothing"
  },
  {
   "property": "C02",
   "status": "proved",
   "theorems": [
    "Uma.Props.C02_append_all_or_nothing",
    "Uma.Props.C02_empty_append"
   ],
   "note": ""
  },
  {
   "property": "C03",
   "status": "proved",
   "theorems": [
    "Uma.Props.C03_conflict_refused",
    "Uma.Props.C03_refused_conflict",
    "Uma.Props.C03_no_conflict",
    "Uma.Props.C03_after_max_false"
   ],
   "note": "for after < 2^64-1; at 2^64-1 the code wraps, shown by C03_after_max_false"
  },
  {
   "property": "C04",
   "status": "proved",
   "theorems": [
    "Uma.Props.C04_batch_sequential"
   ],
   "note": ""
  },
  {
   "property": "C05",
   "status": "proved",
   "theorems": [
    "Uma.Props.C05_idempotent_retry"
   ],
   "note": ""
  },
  {
   "property": "C06",
   "status": "proved",
   "theorems": [
    "Uma.Props.C06_ok_only_for_repeat"
   ],
   "note": ""
  },
  {
   "property": "C07",
   "status": "proved",
   "theorems": [
    "Uma.Props.C07_forward_read",
    "Uma.Props.C07_positions"
   ],
   "note": ""
  },
  {
   "property": "C08",
   "status": "proved",
   "theorems": [
    "Uma.Props.C08_backward_read",
    "Uma.Props.C08_start_zero"
   ],
   "note": ""
  },
  {
   "property": "C09",
   "status": "proved",
   "theorems": [
    "Uma.Props.C09_query_meaning"
   ],
   "note": ""
  },
  {
   "property": "C10",
   "status": "proved",
   "theorems": [
    "Uma.Props.C10_index_equals_scan"
   ],
   "note": ""
  },
  {
   "property": "C11",
   "status": "proved",
   "theorems": [
    "Uma.Props.C11_handler_head",
    "Uma.Props.C11_head",
    "Uma.Props.C11_read_head"
   ],
   "note": ""
  },
  {
   "property": "C12",
   "status": "proved",
   "theorems": [
    "Uma.Props.C12_not_increasing_refused",
    "Uma.Props.C12_accepted_sets",
    "Uma.Props.C12_monotone"
   ],
   "note": ""
  },
  {
   "property": "C13",
   "status": "proved",
   "theorems": [
    "Uma.Props.C13_tracking_with_events"
   ],
   "note": ""
  },
  {
   "property": "C14",
   "status": "proved",
   "theorems": [
    "Uma.Props.C14_tracking_map",
    "Uma.Props.C13_tracking_with_events",
    "Uma.Props.C12_accepted_sets"
   ],
   "note": "C14_tracking_map: any sequence of updates on the pages of the tracking tree (splits, root growth included), committed and looked up. The others: through requests."
  },
  {
   "property": "C29",
   "status": "proved",
   "theorems": [
    "Uma.Props.C29_batch_abort",
    "Uma.Props.C29_bystander",
    "Uma.Props.C29_bystanders"
   ],
   "note": "requests refused on their own do not disturb the rest of the batch: C04"
  },
  {
   "property": "C30",
   "status": "proved",
   "theorems": [
    "Uma.Props.C30_one_answer_each",
    "Uma.Props.C04_batch_sequential"
   ],
   "note": ""
  },
  {
   "property": "C31",
   "status": "proved",
   "theorems": [
    "Uma.Props.C31_answers",
    "Uma.Props.C31_same",
    "Uma.Props.C31_durable",
    "Uma.Props.C31_failed",
    "Uma.Props.C31_progress",
    "Uma.Props.C31_waits"
   ],
   "note": "page size 4096, as prepare_commit assumes; C31_durable excludes a crash after a failed header write (finding 7)"
  },
  {
   "property": "C32",
   "status": "proved",
   "theorems": [
    "Uma.Props.C11_handler_head",
    "Uma.Props.C32_heads",
    "Uma.Props.C32_pipelined_heads",
    "Uma.Props.C32_pipelined_committed"
   ],
   "note": "blocking and pipelined writer"
  },
  {
   "property": "C40",
   "status": "proved",
   "theorems": [
    "Uma.Props.C40_cancel_read",
    "Uma.Props.C40_cancelled_append",
    "Uma.Props.C40_cancel_stops",
    "Uma.Props.C40_cancel_scan"
   ],
   "note": ""
  },
  {
   "property": "C45",
   "status": "partial",
   "theorems": [
    "Uma.Props.C45_cancelled_partial",
    "Uma.Props.C45_false"
   ],
   "note": "false of the code: a cancelled request aborts its whole batch (C45_false); proved: then nothing of the batch is stored and everyone is told a failure"
  },
  {
   "property": "C46",
   "status": "partial",
   "theorems": [
    "Uma.Props.C46_writer_survives_partial",
    "Uma.Props.C46_false"
   ],
   "note": "false of the code for empty event lists with a violated condition (C46_false); proved for all other requests"
  },
  {
   "property": "C33",
   "status": "proved",
   "theorems": [
    "Uma.Props.C33_stream_is_one_read",
    "Uma.Props.C33_heads",
    "Uma.Props.C33_some_message",
    "Uma.Props.C33_empty_message_alone",
    "Uma.Props.C33_message_sizes",
    "Uma.Props.C33_ended"
   ],
   "note": "log shorter than 2^64-1"
  },
  {
   "property": "C34",
   "status": "proved",
   "theorems": [
    "Uma.Props.C34_subscription_prefix",
    "Uma.Props.C34_increasing"
   ],
   "note": "completeness of delivery: see C35"
  },
  {
   "property": "C35",
   "status": "proved",
   "theorems": [
    "Uma.Props.C35_no_lost_wakeup",
    "Uma.Props.C35_blocked_is_waiting"
   ],
   "note": ""
  },
  {
   "property": "C36",
   "status": "proved",
   "theorems": [
    "Uma.Props.C36_no_key",
    "Uma.Props.C36_no_key_not_refused",
    "Uma.Props.C36_refused",
    "Uma.Props.C36_accepted",
    "Uma.Props.C36_unusable_key",
    "Uma.Props.C36_client"
   ],
   "note": ""
  },
  {
   "property": "C37",
   "status": "proved",
   "theorems": [
    "Uma.Props.C37_error_roundtrip",
    "Uma.Props.C37_message_preserved",
    "Uma.Props.C37_fallback"
   ],
   "note": "with details; without them serialization errors appear as invalid arguments (C37_fallback)"
  },
  {
   "property": "C38",
   "status": "proved",
   "theorems": [
    "Uma.Props.C38_event",
    "Uma.Props.C38_query",
    "Uma.Props.C38_condition",
    "Uma.Props.C38_sequenced",
    "Uma.Props.C38_uuid",
    "Uma.Props.C38_append_reaches_writer",
    "Uma.Props.C38_read_reaches_server",
    "Uma.Props.C38_calls_reach_server",
    "Uma.Props.C38_round_trip",
    "Uma.Props.C38_read_defaults",
    "Uma.Props.C38_read_deprecated"
   ],
   "note": "protobuf byte encoding itself (prost) trusted"
  },
  {
   "property": "C39",
   "status": "proved",
   "theorems": [
    "Uma.Props.C39_async",
    "Uma.Props.C39_async_batch",
    "Uma.Props.C39_sync",
    "Uma.Props.C39_iterate",
    "Uma.Props.C39_head",
    "Uma.Props.C39_end_stays",
    "Uma.Props.C39_sync_end_stays",
    "Uma.Props.C39_sync_empty_message_false",
    "Uma.Props.C39_end_to_end"
   ],
   "note": "by batch and for the blocking client for message sequences where an empty message comes only last, which is what the server sends (C33_empty_message_alone)"
  },
  {
   "property": "C48",
   "status": "proved",
   "theorems": [
    "Uma.Props.C48_builder_is_map",
    "Uma.Props.C48_duplicate_check"
   ],
   "note": ""
  },
  {
   "property": "C23",
   "status": "proved",
   "theorems": [
    "Uma.Props.C23_roundtrip",
    "Uma.Props.C23_size",
    "Uma.Props.C23_key_too_long"
   ],
   "note": ""
  },
  {
   "property": "C24",
   "status": "proved",
   "theorems": [
    "Uma.Props.C24_no_panic",
    "Uma.Props.C24_recorded_length",
    "Uma.Props.C24_fields_inside"
   ],
   "note": ""
  },
  {
   "property": "C25",
   "status": "proved",
   "theorems": [
    "Uma.Props.C25_body_window",
    "Uma.Props.C25_checksum_field",
    "Uma.Props.C25_type_byte_false"
   ],
   "note": "the page type byte is outside the checksum (C25_type_byte_false)"
  },
  {
   "property": "C22",
   "status": "proved",
   "theorems": [
    "Uma.Props.C22_newest",
    "Uma.Props.C22_repair",
    "Uma.Props.C22_both_damaged",
    "Uma.Props.C22_not_a_header",
    "Uma.Props.C22_alternates"
   ],
   "note": "All contents of the two slots: both intact, one damaged, both damaged, a slot holding an intact page of another kind (opening fails; see DESIGN.md findings). C22_alternates: each commit writes only the slot not holding the current header."
  },
  {
   "property": "C28",
   "status": "proved",
   "theorems": [
    "Uma.Props.C28"
   ],
   "note": ""
  },
  {
   "property": "C41",
   "status": "proved",
   "theorems": [
    "Uma.Props.C41"
   ],
   "note": ""
  },
  {
   "property": "C42",
   "status": "proved",
   "theorems": [
    "Uma.Props.C42_nothing_else",
    "Uma.Props.C42_all_written"
   ],
   "note": "Byte-level file model."
  },
  {
   "property": "C43",
   "status": "proved",
   "theorems": [
    "Uma.Props.C43_old_header",
    "Uma.Props.C43_schema_header",
    "Uma.Props.C43_old_tracking",
    "Uma.Props.C43_tag_hash",
    "Uma.Props.C43_which_hash",
    "Uma.Props.C43_width",
    "Uma.Props.C22_alternates"
   ],
   "note": "Decoding of the old formats, choice of the width at open, and commits keeping the schema version."
  },
  {
   "property": "C47",
   "status": "partial",
   "theorems": [
    "Uma.Props.C47_create",
    "Uma.Props.C47_partial",
    "Uma.Props.C47_false",
    "Uma.Props.C47_empty_file_false"
   ],
   "note": "False as stated: a crash before a header is on disk leaves a file that cannot be opened (C47_false). C47_partial: once the root pages are synced and one header is intact, opening gives the empty database."
  },
  {
   "property": "C20",
   "status": "proved",
   "theorems": [
    "Uma.Props.C20_crash_atomic",
    "Uma.Props.C20_crash_at_rest"
   ],
   "note": "Page-level model: every page and header slot written since the last fsync may be kept, lost or torn (data pages: anything; header pages: unreadable). The crash may fall anywhere in commit: while data pages are written, between the fsyncs, while the header is written. Hypothesis doubt = false: no header write failed since the last successful commit (that is C52)."
  },
  {
   "property": "C21",
   "status": "proved",
   "theorems": [
    "Uma.Props.C21_durable"
   ],
   "note": "Histories of served queues, direct appends, and crashes at rest or in a commit, in any order; blocking writer. Includes crashes after a failed header write; excludes those while another batch is written after it (C52)."
  },
  {
   "property": "C15",
   "status": "proved",
   "theorems": [
    "Uma.Props.C15_exact"
   ],
   "note": "Page-level model: stored inline or in overflow chains, looked up or read, after any later history including crashes."
  },
  {
   "property": "C16",
   "status": "proved",
   "theorems": [
    "Uma.Props.C16_lookup"
   ],
   "note": "Page-level model; iteration through read is C01 for the same backend."
  },
  {
   "property": "C19",
   "status": "proved",
   "theorems": [
    "Uma.Props.C19_accounting"
   ],
   "note": "The used pages and free-list entries are listed from the pages alone (Page/Reach.lean)."
  },
  {
   "property": "C44",
   "status": "proved",
   "theorems": [
    "Uma.Props.C44_free_list_set",
    "Uma.Props.C44_reads",
    "Uma.Props.C44_insert",
    "Uma.Props.C44_remove",
    "Uma.Props.C44_begin",
    "Uma.Props.C44_commit"
   ],
   "note": "Entries are listed from the pages alone. C44_begin: what a writer may reuse is exactly what was freed at or before the oldest reader."
  },
  {
   "property": "C26",
   "status": "partial",
   "theorems": [
    "Uma.Props.C26_stored_partial",
    "Uma.Props.C26_validation",
    "Uma.Props.C26_accepted_fits"
   ],
   "note": "Proved: refusal before any change, and that an accepted event never makes building pages or serializing them fail, except for tracking pages and for leaves of the tag index with two tags; the commit then succeeds unless the disk fails or such a page is too large. That does occur (C27_tracking_leaf_false, C27_tags_leaf_false), so the rest of the claim is false. Page sizes up to 65536, counters below 2^64."
  },
  {
   "property": "C27",
   "status": "partial",
   "theorems": [
    "Uma.Props.C27_page_sizes_partial",
    "Uma.Props.C27_tracking_leaf_false",
    "Uma.Props.C27_tags_leaf_false"
   ],
   "note": "False as stated: 31 accepted requests with long tracking sources make every commit of their batch fail (C27_tracking_leaf_false), and so does one accepted request with 1013 small events with three tags (C27_tags_leaf_false). Proved for all pages except those of the tracking tree and leaves of the tag index with exactly two tags, both with positions in the leaf, which are at most 8 bytes too large; together with an exact condition for the commit to succeed."
  },
  {
   "property": "C17",
   "status": "proved",
   "theorems": [
    "Uma.Props.C17_snapshot_isolation",
    "Uma.Props.create_liveS"
   ],
   "note": "Page level, blocking writer: transition system of readers, page cache, writer, commits (also failing) and crashes. Loads of the two pinned headers, registry operations, file reads and cache updates are separate steps. The committed state the reader sees is the one of a moment during the call of reader."
  },
  {
   "property": "C18",
   "status": "proved",
   "theorems": [
    "Uma.Props.C18_pages_in_use"
   ],
   "note": "Same transition system. For a crash after a failed header write see DESIGN.md, finding 7 (doubt)."
  },
  {
   "property": "C49",
   "status": "proved",
   "theorems": [
    "Uma.Props.C49_batch_limit"
   ],
   "note": ""
  },
  {
   "property": "C50",
   "status": "proved",
   "theorems": [
    "Uma.Props.C50_window",
    "Uma.Props.C50_same",
    "Uma.Props.C50_method",
    "Uma.Props.C50_create",
    "Uma.Props.C50_commit",
    "Uma.Props.C50_large_write_false"
   ],
   "note": "C50_commit assumes that a commit adds at most one window (256 MiB or more) of new pages; C50_large_write_false shows this is needed (DESIGN.md, finding 12)."
  },
  {
   "property": "C51",
   "status": "partial",
   "theorems": [
    "Uma.Props.C51_snapshot_partial",
    "Uma.Props.C51_pages_partial",
    "Uma.Props.C51_turns",
    "Uma.Props.C51_snapshot_false"
   ],
   "note": "False as stated: a reader opened after a batch was built on one in flight, with no reader registered when it was built, sees later events (C51_snapshot_false). Proved for all executions in which no reader confirms its header in that window. C51_turns: the writer loop of C31 runs inside this transition system. Page size 4096 (DESIGN.md, finding 18)."
  },
  {
   "property": "C52",
   "status": "partial",
   "theorems": [
    "Uma.Props.C52_failed_header_partial",
    "Uma.Props.C52_retry_false"
   ],
   "note": "False as stated: if the header whose writing failed is on disk, the next batch takes the same pages under the same number, and after a crash while they are written the file cannot be opened, although events were acknowledged before (C52_retry_false). Proved: a crash before the next batch is written recovers the state before or after the refused batch; histories with such crashes are also part of C21_durable."
  },
  {
   "property": "C53",
   "status": "proved",
   "theorems": [
    "Uma.Props.C53_real_time",
    "Uma.Props.C53_monotonic_reads",
    "Uma.Props.C53_read_your_writes"
   ],
   "note": "All executions of the transition system of C17: readers load by load, transactions, direct appends, crashes."
  },
  {
   "property": "C54",
   "status": "partial",
   "theorems": [
    "Uma.Props.C54_real_time_partial",
    "Uma.Props.C54_monotonic_reads_partial",
    "Uma.Props.C54_read_your_writes_partial"
   ],
   "note": "Missing: executions in which a reader is opened while a batch is built on one in flight that found no reader registered (the snapshot of that reader is not intact, C51_snapshot_false)."
  },
  {
   "property": "C55",
   "status": "proved",
   "theorems": [
    "Uma.Props.C55_blocking",
    "Uma.Props.C55_pipelined",
    "Uma.Props.C55_reply"
   ],
   "note": "Blocking: for every record of storage operations, lawful or not. Pipelined: for every state of the page-level model; loops over damaged pages are assumed to end (the model bounds them)."
  },
  {
   "property": "C56",
   "status": "partial",
   "theorems": [
    "Uma.Props.C56_noticed",
    "Uma.Props.C56_reads",
    "Uma.Props.C56_head",
    "Uma.Props.C56_tracking",
    "Uma.Props.C56_index_partial",
    "Uma.Props.C56_index_false",
    "Uma.Props.C56_errors",
    "Uma.Props.C56_scarred",
    "Uma.Props.C56_append",
    "Uma.Props.C56_thread",
    "Uma.Props.C56_read_back",
    "Uma.Props.C56_condition_false",
    "Uma.Props.C56_violated_false"
   ],
   "note": "False as stated: TagsTreeIterator::next_batch takes a page it cannot read for the end of the tag, so that in every database one changed byte makes all queries by tag find nothing (C56_index_false) and appends of untagged events pass conditions by tag that are violated (C56_violated_false). Proved: reads whose query has an item without tags, tracking queries and the head; reads by tag return a part of the right answer in order; appends and batches of the blocking writer whose conditions have an item without tags. Appending to a file cut short is not covered."
  },
  {
   "property": "C57",
   "status": "partial",
   "theorems": [
    "Uma.Props.C57_certifies",
    "Uma.Props.C57_all_read",
    "Uma.Props.C57_verdict",
    "Uma.Props.C57_headers",
    "Uma.Props.C57_counts",
    "Uma.Props.C57_passes",
    "Uma.Props.C57_stays",
    "Uma.Props.C57_readonly",
    "Uma.Props.C57_empty_false",
    "Uma.Props.C57_free_false",
    "Uma.Props.C57_readonly_false"
   ],
   "note": "A pass means that nothing recorded is damaged (C57_certifies, C57_all_read), and C57_verdict says exactly which files pass. False as stated: a database without events always fails (C57_empty_false), so does one with a damaged free page, in which nothing is lost (C57_free_false), and a file with one unreadable header is modified (C57_readonly_false). Files pass if every allocated page was written and nothing comes after them (C57_passes); commits keep this if no page id taken from the end of the file is freed within the same transaction (C57_stays). Missing: files where one was, which fail until the page is used."
  },
  {
   "property": "C58",
   "status": "proved",
   "theorems": [
    "Uma.Props.C58_linearizable",
    "Uma.Props.C58_real_time"
   ],
   "note": "Spec/History.lean defines Linear (an order of instants) without reference to the model; Worlds are the executions of readers, batches and crashes of C17 with clients that ask and receive answers. Direct calls of UmaDb::append are not part of these executions (C17, C53 cover them)."
  },
  {
   "property": "C59",
   "status": "partial",
   "theorems": [
    "Uma.Props.C59_nothing_new",
    "Uma.Props.C59_told_partial",
    "Uma.Props.C59_read_cancel",
    "Uma.Props.C59_waiting_returns",
    "Uma.Props.C59_waiting_cancelled",
    "Uma.Props.C59_async_next",
    "Uma.Props.C59_async_next_waits",
    "Uma.Props.C59_uncancelled",
    "Uma.Props.C59_uncancelled_delivers",
    "Uma.Props.C59_read_documented_false",
    "Uma.Props.C59_next_batch_documented_false",
    "Uma.Props.C59_async_wakes_false"
   ],
   "note": "False as stated: after cancel() a blocking read response ends its iteration without CancelledByUser (C59_read_documented_false), next_batch() hands over buffered events first (C59_next_batch_documented_false), and an async next() that waits on a quiet stream is not woken (C59_async_wakes_false). Proved: nothing received after the cancel is handed over; the other ways to cancel are told by the next call of the blocking objects; all other waiting calls return; without a cancel all is as in C39."
  },
  {
   "property": "C60",
   "status": "proved",
   "theorems": [
    "Uma.Props.C60_close",
    "Uma.Props.C60_dropped"
   ],
   "note": "Streams of any number of clients; each registry operation is atomic (it holds a mutex)."
  },
  {
   "property": "C61",
   "status": "partial",
   "theorems": [
    "Uma.Props.C61_iteration_partial",
    "Uma.Props.C61_iteration_quiet",
    "Uma.Props.C61_returns",
    "Uma.Props.C61_for_loop",
    "Uma.Props.C61_iteration_false",
    "Uma.Props.C61_exceptions",
    "Uma.Props.C61_metadata",
    "Uma.Props.C61_metadata_last"
   ],
   "note": "False as stated: an exception raised by a signal handler after an event was taken from the stream loses that event (C61_iteration_false). Proved for all calls not left by such an exception; an iterator step that is left so loses at most one item. Argument conversion by pyo3 is not modelled."
  },
  {
   "property": "C62",
   "status": "partial",
   "theorems": [
    "Uma.Props.C62_note_is_true",
    "Uma.Props.C62_key_encrypted",
    "Uma.Props.C62_https_encrypted",
    "Uma.Props.C62_http_plain",
    "Uma.Props.C62_address",
    "Uma.Props.C62_options",
    "Uma.Props.C62_retry",
    "Uma.Props.C62_connects",
    "Uma.Props.C62_grpcs_alias_partial",
    "Uma.Props.C62_grpcs_alias_false",
    "Uma.Props.C62_server",
    "Uma.Props.C62_read_method"
   ],
   "note": "False as stated: connect_with_tls_options without options cannot connect to grpcs:// URLs, because the test for https:// looks at the URL before the alias is replaced (C62_grpcs_alias_false). Everything else is proved. Trusted: tonic refuses https URLs without TLS configuration and ignores the configuration for others."
  },
  {
   "property": "C63",
   "status": "proved",
   "theorems": [
    "Uma.Props.C63_paths",
    "Uma.Props.C63_others"
   ],
   "note": "Paths as lists of characters, str::replace modelled with non-overlapping occurrences."
  },
  {
   "property": "C64",
   "status": "partial",
   "theorems": [
    "Uma.Props.C64_linearizable_partial",
    "Uma.Props.C64_turns",
    "Uma.Props.C64_linearizable_false"
   ],
   "note": "False as stated: a reader opened after a batch was built on one in flight, with no reader registered when it was built, answers a read with later events and the old head, which no order of the calls explains (C64_linearizable_false). Proved for all executions in which no reader confirms its header in that window. C64_turns: the turns of the writer loop of C31 are executions of this system, with the same answers and heads. C58_real_time applies to any Linear history. Page size 4096 (DESIGN.md, finding 18)."
  },
  {
   "property": "C65",
   "status": "partial",
   "theorems": [
    "Uma.Props.C65_threads_partial",
    "Uma.Props.C65_lost",
    "Uma.Props.C65_threads_false"
   ],
   "note": "False as stated: Mvcc::writer takes no lock, so two calls can begin on the same state and both succeed; no order of the two explains their answers (C65_threads_false). For any number of such calls only what the last to commit wrote is there, although every one is told its position (C65_lost). Proved for all executions in which no two transactions overlap, calls being free to (C65_threads_partial)."
  },
  {
   "property": "C66",
   "status": "partial",
   "theorems": [
    "Uma.Props.C66_requests",
    "Uma.Props.C66_round_trip",
    "Uma.Props.C66_answers",
    "Uma.Props.C66_fields",
    "Uma.Props.C66_text",
    "Uma.Props.C66_merged",
    "Uma.Props.C66_stream",
    "Uma.Props.C66_readable_partial",
    "Uma.Props.C66_too_big",
    "Uma.Props.C66_readable_false",
    "Uma.Props.C66_event_false"
   ],
   "note": "False as stated: neither side raises tonic's limit of 4 MiB for received messages and the server does not split messages by size. 1024 events of 4096 bytes, each accepted, cannot be read with the default batch size: the client gets an error and no event (C66_readable_false; in general C66_too_big), and an event whose request is within seven bytes of the limit is accepted but fits into no answer at any batch size (C66_event_false). Proved: encoding and decoding of all messages, sizes, skipping of unknown fields, refusal of large requests, delivery up to the first message that is too big (C66_stream), and the claim for logs in which no run of one message's length is too big (C66_readable_partial)."
  },
  {
   "property": "C67",
   "status": "proved",
   "theorems": [
    "Uma.Props.C67_permits",
    "Uma.Props.C67_scans",
    "Uma.Props.C67_queue",
    "Uma.Props.C67_order",
    "Uma.Props.C67_granted",
    "Uma.Props.C67_progress",
    "Uma.Props.C67_read",
    "Uma.Props.C67_subscribe",
    "Uma.Props.C67_subscribe_end",
    "Uma.Props.C67_track",
    "Uma.Props.C67_limit_set",
    "Uma.Props.C67_limit_default",
    "Uma.Props.C67_limit_pos",
    "Uma.Props.C67_limit_panic"
   ],
   "note": "Server with any number of tasks and blocking threads as a transition system (Server/Hub.lean). A scan sees the database in one instant; blocking threads do not run out; tokio's semaphore is fair. 2^61 or more permits make the server panic when it starts (C67_limit_panic)."
  },
  {
   "property": "C68",
   "status": "partial",
   "theorems": [
    "Uma.Props.C68_shutdown_partial",
    "Uma.Props.C68_backlog",
    "Uma.Props.C68_unblocked",
    "Uma.Props.C68_shutdown_false"
   ],
   "note": "False as stated: a task whose channel is full stays in tx.send for ever when its client is connected and takes no messages, and the server waits for it (C68_shutdown_false). Proved for all other tasks, with a bound of ten steps each."
  },
  {
   "property": "C69",
   "status": "partial",
   "theorems": [
    "Uma.Props.C69_written_partial",
    "Uma.Props.C69_written_false",
    "Uma.Props.C69_short",
    "Uma.Props.C69_reported",
    "Uma.Props.C69_untouched",
    "Uma.Props.C69_order",
    "Uma.Props.C69_durable",
    "Uma.Props.C69_matches",
    "Uma.Props.C69_prepared",
    "Uma.Props.C69_blocking",
    "Uma.Props.C69_blocking_untouched",
    "Uma.Props.C69_blocking_done",
    "Uma.Props.C69_grows"
   ],
   "note": "False as stated for io_uring: the number of bytes written is not looked at, so short writes are reported as success (C69_written_false). Proved when successful writes are complete; the variant without io_uring is proved without that condition."
  },
  {
   "property": "C70",
   "status": "partial",
   "theorems": [
    "Uma.Props.C70_alone_partial",
    "Uma.Props.C70_old_partial",
    "Uma.Props.C70_serves_partial",
    "Uma.Props.C70_width",
    "Uma.Props.C70_refused",
    "Uma.Props.C70_unreadable",
    "Uma.Props.C70_false",
    "Uma.Props.C70_condition_false"
   ],
   "note": "False as stated: the width of tag keys is a variable of the process, so opening a file of the old format makes other databases lose their tag index for reads (C70_false) and for conditions (C70_condition_false). Proved when everything opened has the same format; C70_serves_partial gives the answers in terms of the contents for processes that create their databases."
  },
  {
   "property": "C71",
   "status": "partial",
   "theorems": [
    "Uma.Props.C71_outcomes",
    "Uma.Props.C71_sequence_partial",
    "Uma.Props.C71_answers",
    "Uma.Props.C71_accepted",
    "Uma.Props.C71_false",
    "Uma.Props.C71_empty_false"
   ],
   "note": "False as stated: an invalid item makes all others fail (C71_false; the writer thread does not do that), and an item without events whose condition is violated panics (C71_empty_false). C71_outcomes gives all possible results; C71_sequence_partial is the claim without invalid items and failures."
  },
  {
   "property": "C72",
   "status": "partial",
   "theorems": [
    "Uma.Props.C72_exclusive",
    "Uma.Props.C72_untouched",
    "Uma.Props.C72_existing",
    "Uma.Props.C72_one_log_partial",
    "Uma.Props.C72_overwrites",
    "Uma.Props.C72_false",
    "Uma.Props.C72_both_fail_false"
   ],
   "note": "Exclusion holds without conditions (C72_exclusive, C72_untouched), and on a path with a database so does the claim about one log (C72_existing). False for a new path: whether to create is decided before the lock is taken, so a process that was slow wipes out a database with acknowledged events (C72_overwrites, C72_false), and two processes can both fail and leave a path that can never be opened (C72_both_fail_false). C72_one_log_partial: a new path where no two processes look in vain before the file is created."
  },
  {
   "property": "C73",
   "status": "proved",
   "theorems": [
    "Uma.Props.C73_ready",
    "Uma.Props.C73_address",
    "Uma.Props.C73_taken",
    "Uma.Props.C73_existing",
    "Uma.Props.C73_new",
    "Uma.Props.C73_stop",
    "Uma.Props.C73_once",
    "Uma.Props.C73_limit",
    "Uma.Props.C73_limit_hard",
    "Uma.Props.C73_limit_soft",
    "Uma.Props.C73_limit_unread",
    "Uma.Props.C73_clean_false"
   ],
   "note": "The signal handling of the command line program and the drain of connections inside tonic are not modelled. C73_clean_false: the claim that failed starts leave the file alone does not extend to unusable TLS material or too many reader threads, which are noticed after the file has been created (DESIGN.md, finding 37)."
  },
  {
   "property": "C74",
   "status": "proved",
   "theorems": [
    "Uma.Props.C74_linear",
    "Uma.Props.C74_once",
    "Uma.Props.C74_once_pipelined",
    "Uma.Props.C74_tracked",
    "Uma.Props.C74_plain_false",
    "Uma.Props.C74_tracked_false",
    "Uma.Props.C74_unmatched_false",
    "Uma.Props.C74_half_matched_false",
    "Uma.Props.C74_ahead_false",
    "Uma.Props.C74_anonymous_false"
   ],
   "note": "C74_linear holds for every history that can be understood as appends one after the other; C74_once and C74_once_pipelined join it with C58 and C64 (the latter with the conditions stated there). The theorems ending in _false show for each hypothesis what happens without it: duplicates, or a refusal of an append that had happened (DESIGN.md, finding 38)."
  },
  {
   "property": "C75",
   "status": "proved",
   "theorems": [
    "Uma.Props.C75_current",
    "Uma.Props.C75_serial",
    "Uma.Props.C75_invariant",
    "Uma.Props.C75_consistent",
    "Uma.Props.C75_consistent_pipelined",
    "Uma.Props.C75_backwards_false"
   ],
   "note": "The first three hold for every history that can be understood as calls one after the other, the others join them with C58 and C64 (the latter with the conditions stated there). C75_current asks that the uuids of the append be used by no other call (otherwise success can mean a repeat); C75_serial counts repeats as not acting. C75_backwards_false: the position that comes with a limited backward read is that of the oldest event returned, so such an append is refused although nothing has changed (DESIGN.md, finding 39)."
  },
  {
   "property": "C76",
   "status": "proved",
   "theorems": [
    "Uma.Props.C76_linear",
    "Uma.Props.C76_exactly_once",
    "Uma.Props.C76_exactly_once_pipelined",
    "Uma.Props.C76_gap_false",
    "Uma.Props.C76_repeat_false"
   ],
   "note": "C76_linear holds for every history that can be understood as calls one after the other, the others join it with C58 and C64. The success of an append counts as a report of its position only if it has no condition: C76_repeat_false shows an append with a condition answered with success whose tracking position is not recorded (DESIGN.md, finding 40)."
  },
  {
   "property": "C77",
   "status": "proved",
   "theorems": [
    "Uma.Props.C77_resumed",
    "Uma.Props.C77_complete",
    "Uma.Props.C77_next"
   ],
   "note": "Joins C34/C35 (one session) with C20/C22 (what happens between sessions); a session is on the file database of the model. C77_next is the link to C76: the first event delivered after a position is its successor in the source. As in C22, a crash after a refused header while another batch is half written is left out (C52)."
  },
  {
   "property": "C78",
   "status": "partial",
   "theorems": [
    "Uma.Props.C78_remote_partial",
    "Uma.Props.C78_broken",
    "Uma.Props.C78_ended",
    "Uma.Props.C78_limited",
    "Uma.Props.C78_local",
    "Uma.Props.C78_local_iterate",
    "Uma.Props.C78_shutdown_false",
    "Uma.Props.C78_early_head_false"
   ],
   "note": "Missing, because the code does not do it (C78_shutdown_false): when the server shuts down in the middle of a Read call it ends the stream without error, and the client takes the part it has got for the whole, with the head of the whole; a decision made on it is accepted by the restarted server. C78_remote_partial: the full statement when the server does not cut the stream off; C78_broken: streams that fail give errors; C78_limited: with a limit a cut-off stream gives a correct answer to a smaller read. (DESIGN.md, findings 41 and 42.)"
  },
  {
   "property": "C79",
   "status": "proved",
   "theorems": [
    "Uma.Props.C79_batch",
    "Uma.Props.C79_direct",
    "Uma.Props.C79_while_free"
   ],
   "note": "GrewLast is stated on the free list and the page limit read from the committed pages. Page/Thrift.lean shows it operation by operation (Spends)."
  },
  {
   "property": "C80",
   "status": "proved",
   "theorems": [
    "Uma.Props.C80_linear",
    "Uma.Props.C80_atomic",
    "Uma.Props.C80_atomic_pipelined",
    "Uma.Props.C80_calls"
   ],
   "note": "C80_atomic: pages read by clients in any run of the model with crashes; C80_atomic_pipelined under the conditions of C64_linearizable_partial (Careful). C80_calls: pages read by calls to the database with anything happening in between, compared with one unlimited call."
  },
  {
   "property": "C81",
   "status": "proved",
   "theorems": [
    "Uma.Props.C81_total",
    "Uma.Props.C81_recovers",
    "Uma.Props.C81_cut",
    "Uma.Props.C81_page",
    "Uma.Props.C81_analysis",
    "Uma.Props.C81_events",
    "Uma.Props.C81_kept",
    "Uma.Props.C81_legacy"
   ],
   "note": "C81_page: leaf of a live database, bytes compared with those in the file; C81_recovers and C81_cut for any bytes the decoder accepts. C81_events: the events compared with, for a database whose events can be read."
  },
  {
   "property": "C82",
   "status": "proved",
   "theorems": [
    "Uma.Props.C82_balanced",
    "Uma.Props.C82_lookup",
    "Uma.Props.C82_later"
   ],
   "note": "The number of turns given to the search is the number of pages read. The chain of pages that holds a large event is not part of the tree. The two trees of the free list are not covered: removal can leave them uneven (finding 44)."
  },
  {
   "property": "C83",
   "status": "partial",
   "theorems": [
    "Uma.Props.C83_received_partial",
    "Uma.Props.C83_read_partial",
    "Uma.Props.C83_complete_partial",
    "Uma.Props.C83_from_head",
    "Uma.Props.C83_shutdown_false"
   ],
   "note": "false of the code when a reading without limit is cut off by a shutdown: the head covers events that were not sent (C83_shutdown_false). Proved for all histories in which readings without limit are not cut off."
  },
  {
   "property": "C84",
   "status": "proved",
   "theorems": [
    "Uma.Props.C84_events",
    "Uma.Props.C84_tags",
    "Uma.Props.C84_tracking",
    "Uma.Props.C84_free",
    "Uma.Props.C84_file",
    "Uma.Props.C84_later"
   ],
   "note": "The number of free pages is not bounded here (C79 says that they are used before the file grows). `sources` is any list with all tracked sources."
  },
  {
   "property": "C85",
   "status": "partial",
   "theorems": [
    "Uma.Props.C85_equal",
    "Uma.Props.C85_near_partial",
    "Uma.Props.C85_values",
    "Uma.Props.C85_index",
    "Uma.Props.C85_second_half_false"
   ],
   "note": "false of the code: the second checksum is a function of the first (C85_equal), so keys collide exactly when CRC-32 does and there are 2^32 keys at most (finding 46). Proved: tags that differ within four successive bytes have different keys; what the index then holds for a tag."
  },
  {
   "property": "C86",
   "status": "partial",
   "theorems": [
    "Uma.Props.C86_names",
    "Uma.Props.C86_kind_partial",
    "Uma.Props.C86_custom_partial",
    "Uma.Props.C86_variant",
    "Uma.Props.C86_twice",
    "Uma.Props.C86_read",
    "Uma.Props.C86_text_false",
    "Uma.Props.C86_os_false",
    "Uma.Props.C86_kind_false"
   ],
   "note": "false of the code: only errors made by io::Error::new keep their text (finding 47), and kinds without a stable name become Other. Proved: the kind survives if it has a stable name, errors made with a text survive as they are, other variants as well (the derived code is trusted), and a second passage changes nothing."
  },
  {
   "property": "C87",
   "status": "partial",
   "theorems": [
    "Uma.Props.C87_weight",
    "Uma.Props.C87_megabytes_partial",
    "Uma.Props.C87_page",
    "Uma.Props.C87_pages",
    "Uma.Props.C87_off",
    "Uma.Props.C87_metadata_false",
    "Uma.Props.C87_wrap_false"
   ],
   "note": "false of the code: metadata and tracked sources are not counted (finding 48). Proved: for pages without them the memory keeps to the limit (weights below 2^32 and 10^6 times the limit below 2^64); the limit in pages. That moka keeps the total weight within max_capacity is trusted; the overhead of the allocator is not modelled."
  },
  {
   "property": "C88",
   "status": "proved",
   "theorems": [
    "Uma.Props.C88_begin",
    "Uma.Props.C88_tag",
    "Uma.Props.C88_event",
    "Uma.Props.C88_track",
    "Uma.Props.C88_request",
    "Uma.Props.C88_append",
    "Uma.Props.C88_batch",
    "Uma.Props.C88_commit"
   ],
   "note": "of the list of free pages the commit changes at most all its pages, four for each free page (C88_commit); this bound is not close"
  },
  {
   "property": "C89",
   "status": "proved",
   "theorems": [
    "Uma.Props.C89_events",
    "Uma.Props.C89_index",
    "Uma.Props.C89_tracking",
    "Uma.Props.C89_head",
    "Uma.Props.C89_free",
    "Uma.Props.C89_append"
   ],
   "note": "nothing is assumed about the damaged pages, unlike in C56; the two header pages are those read when the database was opened"
  }
 ]
}