import Verif.Db.Read

/-!
# Model of the append path (umadb-core/src/db.rs) and the blocking writer thread

The functions of db.rs work on a `Writer` through a handful of storage operations (tree inserts, lookups, commit).
They are modelled over an arbitrary collection `Backend` of such operations, so that the same request logic runs on
the simple in-memory backend (`Verif/Db/Mem.lean`) and on the page-level backend (`Verif/Page`).

`δ`: committed database, `σ`: write transaction (`Writer` plus the pages it can see), `υ`: validated event value,
`ι`: what the disk does during a commit.  Operations return the state also in case of an error, because a Rust
`&mut Writer` keeps partial changes.
-/

namespace Uma.Db

structure Backend (δ σ υ ι : Type) where
  /-- `Mvcc::writer`, mvcc.rs 722-755. -/
  begin : δ → Except Err σ
  /-- A reader's view, mvcc.rs 688-720: events and tags trees of the committed state. -/
  snapR : δ → Snap
  /-- `next_position` in the newest header. -/
  nextPosR : δ → Nat
  /-- `get_tracking_info`, db.rs 45-73. -/
  trackR : δ → String → Except Err (Option Nat)
  /-- The writer's view (dirty pages included). -/
  snap : σ → Snap
  nextPos : σ → Nat
  /-- `Writer::issue_position`, mvcc.rs 1024. -/
  issue : σ → Nat × σ
  /-- `validate_event_record_for_append`, events_tree_nodes.rs 59-112. -/
  validate : Record → Except Err υ
  /-- `tags_tree_insert`, tags_tree.rs 11-592. -/
  tagInsert : TagHash → Nat → σ → Except Err Unit × σ
  /-- `event_tree_append_event_value`, events_tree.rs 180-487. -/
  eventAppend : Record → υ → Nat → σ → Except Err Unit × σ
  /-- `tracking_upsert`, db.rs 246-460. -/
  trackUpsert : String → Nat → σ → Except Err Unit × σ
  /-- `Mvcc::commit`, mvcc.rs 810-854.  Also returns what is then committed. -/
  commit : ι → σ → Except Err Unit × δ

/-- What the request logic needs besides storage: the tag hash and the hash-map iteration order. -/
structure Env where
  H : String → TagHash
  ord : List (String × List Nat) → List (String × List Nat)

variable {δ σ υ ι : Type}

/-- u64 wrap-around of `after + 1` (release build, no overflow checks), db.rs 838. -/
def fromAfter (after : Option Nat) : Option Nat := after.map fun a => (a + 1) % 2 ^ 64

/-- `is_request_idempotent`, db.rs 967-1030.  The panic is `found_events[found_events_len - 1]` (db.rs 1006) with an
empty list. -/
def isRequestIdempotent (env : Env) (s : Snap) (events : List Event) (q : Query) (start : Option Nat)
    (c : Cancel) : Except Err (Option Nat) :=
  let ids := events.filterMap (fun e => if e.uuid.isSome then some e.uuid else none)
  if events.length = ids.length ∧ events.length ≤ 2 ^ 32 - 1 then
    match readConditional env.H env.ord s q start false (some events.length) false c with
    | .error e => .error e
    | .ok found =>
      if found.length = events.length then
        match found.getLast? with
        | none => .error (.panic "attempt to subtract with overflow")
        | some last =>
          if found.map (·.event.uuid) = ids then .ok (some last.position) else .ok none
      else .ok none
  else .ok none

/-- The condition check of `process_append_request`, db.rs 836-884.  `none`: go on and append. -/
def checkCondition (env : Env) (s : Snap) (req : Request) (c : Nat → Cancel) : Option (Except Err Nat) :=
  match req.condition with
  | none => none
  | some cond =>
    let start := fromAfter cond.after
    match readConditional env.H env.ord s cond.failIfEventsMatch start false (some 1) false (c 0) with
    | .error e => some (.error e)
    | .ok [] => none
    | .ok (_ :: _) =>
      match isRequestIdempotent env s req.events cond.failIfEventsMatch start (c 1) with
      | .ok (some p) => some (.ok p)
      | .ok none => some (.error (.integrity "condition matched"))
      | .error e => some (.error e)

/-- db.rs 886-898: validate every record before changing anything. -/
def validateAll (B : Backend δ σ υ ι) : List Record → Except Err (List (Record × υ))
  | [] => .ok []
  | r :: rs =>
    match B.validate r with
    | .error e => .error e
    | .ok v =>
      match validateAll B rs with
      | .error e => .error e
      | .ok vs => .ok ((r, v) :: vs)

/-- db.rs 509-514: index every tag of the record. -/
def insertTags (B : Backend δ σ υ ι) (H : String → TagHash) (p : Nat) :
    List String → σ → Except Err Unit × σ
  | [], w => (.ok (), w)
  | t :: ts, w =>
    match B.tagInsert (H t) p w with
    | (.error e, w') => (.error e, w')
    | (.ok _, w') => insertTags B H p ts w'

/-- `unconditional_append_event_values`, db.rs 492-528. -/
def appendValues (B : Backend δ σ υ ι) (H : String → TagHash) :
    List (Record × υ) → (last : Nat) → σ → Except Err Nat × σ
  | [], last, w => (.ok last, w)
  | (r, v) :: rs, _, w =>
    let (p, w1) := B.issue w
    match insertTags B H p r.event.tags w1 with
    | (.error e, w2) => (.error e, w2)
    | (.ok _, w2) =>
      match B.eventAppend r v p w2 with
      | (.error e, w3) => (.error e, w3)
      | (.ok _, w3) => appendValues B H rs p w3

/-- db.rs 900-918: tracking, then events. -/
def applyRequest (B : Backend δ σ υ ι) (H : String → TagHash) (tracking : Option Tracking)
    (vs : List (Record × υ)) (w : σ) : Except Err Nat × σ :=
  let append := fun w => if vs.isEmpty then (.ok 0, w) else appendValues B H vs 0 w
  match tracking with
  | none => append w
  | some t =>
    match B.trackUpsert t.source t.position w with
    | (.error e, w') => (.error e, w')
    | (.ok _, w') => append w'

/-- `process_append_request`, db.rs 827-919. -/
def processAppend (B : Backend δ σ υ ι) (env : Env) (req : Request) (c : Nat → Cancel) (w : σ) :
    Except Err Nat × σ :=
  match checkCondition env (B.snap w) req c with
  | some r => (r, w)
  | none =>
    match validateAll B (req.events.map fun e => ⟨e, req.tracking⟩) with
    | .error e => (.error e, w)
    | .ok vs => applyRequest B env.H req.tracking vs w

/-! ## Direct API: `UmaDb` -/

/-- `UmaDb::append`, db.rs 214-239. -/
def append (B : Backend δ σ υ ι) (env : Env) (req : Request) (i : ι) (d : δ) : Except Err Nat × δ :=
  if req.events = [] then (.ok 0, d)
  else
    match B.begin d with
    | .error e => (.error e, d)
    | .ok w =>
      match processAppend B env req (fun _ => Cancel.never) w with
      | (.ok p, w') =>
        match B.commit i w' with
        | (.ok _, d') => (.ok p, d')
        | (.error e, d') => (.error e, d')
      | (.error e, _) => (.error e, d)

/-- Last position from `next_position`, db.rs 203-204 (`saturating_sub`, 0 means none). -/
def headOfNext (next : Nat) : Option Nat := if next - 1 = 0 then none else some (next - 1)

/-- `UmaDb::head`, db.rs 199-205. -/
def head (B : Backend δ σ υ ι) (d : δ) : Option Nat := headOfNext (B.nextPosR d)

/-- `UmaDb::read`, db.rs 151-197: events and reported head. -/
def read (B : Backend δ σ υ ι) (env : Env) (d : δ) (query : Option Query) (start : Option Nat)
    (backwards : Bool) (limit : Option Nat) : Except Err (List SeqEvent × Option Nat) :=
  match readConditional env.H env.ord (B.snapR d) (query.getD ⟨[]⟩) start backwards limit false
      Cancel.never with
  | .error e => .error e
  | .ok events =>
    let h := match limit with
      | none => headOfNext (B.nextPosR d)
      | some _ => events.getLast?.map (·.position)
    .ok (events, h)

/-! ## Batch policy -/

/-- `is_integrity_error`, db.rs 1033. -/
def isIntegrityError : Err → Bool
  | .integrity _ => true
  | _ => false

/-- `is_invalid_argument_error`, db.rs 1037. -/
def isInvalidArgumentError : Err → Bool
  | .invalidArgument _ => true
  | _ => false

def isPanic : Err → Bool
  | .panic _ => true
  | _ => false

def abortMsg : String := "batch aborted due to internal error"

/-- `shadow_for_batch_abort`, db.rs 1064-1087. -/
def shadow : Err → Err
  | .authentication _ => .authentication abortMsg
  | .initialization _ => .initialization abortMsg
  | .io _ => .io abortMsg
  | .integrity _ => .integrity abortMsg
  | .corruption _ => .corruption abortMsg
  | .invalidArgument _ => .invalidArgument abortMsg
  | .databaseCorrupted _ => .databaseCorrupted abortMsg
  | .internal _ => .internal abortMsg
  | .serialization _ => .serialization abortMsg
  | .deserialization _ => .deserialization abortMsg
  | .transport _ => .transport abortMsg
  | .pageNotFound id => .pageNotFound id
  | .dirtyPageNotFound id => .dirtyPageNotFound id
  | .rootIdMismatch a b => .rootIdMismatch a b
  | .pageAlreadyFreed id => .pageAlreadyFreed id
  | .pageAlreadyDirty id => .pageAlreadyDirty id
  | .cancelledByUser => .cancelledByUser
  | .timeout => .timeout
  | .panic m => .panic m

/-- One request in the writer's queue, writer_thread_request.rs 6-15; `id` stands for the response channel. -/
structure Job where
  id : Nat
  req : Request
  cancel : Nat → Cancel

inductive Msg where
  | append (j : Job)
  | shutdown

/-- State of the batch being built, writer_thread_blocking.rs 34-51. -/
structure Batch (σ : Type) where
  w : σ
  responders : List Nat
  results : List (Except Err Nat)
  abort : Option (Nat × Err)
  total : Nat

def Batch.new (w : σ) : Batch σ := ⟨w, [], [], none, 0⟩

/-- Process one request and record its result, writer_thread_blocking.rs 53-71 and 85-122.  A Rust panic in
`process_append_request` ends the thread: `.error msg`. -/
def stepJob (B : Backend δ σ υ ι) (env : Env) (b : Batch σ) (j : Job) : Except String (Batch σ) :=
  let idx := b.responders.length
  match processAppend B env j.req j.cancel b.w with
  | (.error (.panic m), _) => .error m
  | (.ok p, w') =>
    .ok { b with w := w', responders := b.responders ++ [j.id], results := b.results ++ [.ok p]
                 total := b.total + j.req.events.length }
  | (.error e, w') =>
    .ok { b with
      w := w', responders := b.responders ++ [j.id], results := b.results ++ [.error e]
      abort := if isIntegrityError e || isInvalidArgumentError e then b.abort else some (idx, e)
      total := b.total + j.req.events.length }

/-- The drain loop, writer_thread_blocking.rs 73-136.  `vis` is how many further messages `try_recv` will find.
A popped `Shutdown` is dropped. -/
def drain (B : Backend δ σ υ ι) (env : Env) (max : Nat) :
    (vis : Nat) → List Msg → Batch σ → Except String (Batch σ × List Msg)
  | 0, q, b => .ok (b, q)
  | _ + 1, [], b => .ok (b, [])
  | vis + 1, m :: q, b =>
    if b.total ≥ max then .ok (b, m :: q)
    else if b.abort.isSome then .ok (b, m :: q)
    else
      match m with
      | .shutdown => .ok (b, q)
      | .append j =>
        match stepJob B env b j with
        | .error e => .error e
        | .ok b' => drain B env max vis q b'

abbrev Answer := Nat × Except Err Nat

/-- Answers of an aborted batch, writer_thread_blocking.rs 139-148. -/
def abortAnswers (responders : List Nat) (failedAt : Nat) (e : Err) : List Answer :=
  responders.zipIdx.map fun (tx, i) => (tx, if i = failedAt then .error e else .error (shadow e))

/-- Finish a batch: abort, or commit and answer, writer_thread_blocking.rs 138-186.  Returns the committed
database, the answers sent, and the head announced (if any). -/
def finishBatch (B : Backend δ σ υ ι) (i : ι) (d : δ) (b : Batch σ) :
    δ × List Answer × Option (Option Nat) :=
  match b.abort with
  | some (failedAt, e) => (d, abortAnswers b.responders failedAt e, none)
  | none =>
    match B.commit i b.w with
    | (.ok _, d') => (d', b.responders.zip b.results, some (headOfNext (B.nextPos b.w)))
    | (.error e, d') => (d', b.responders.map fun tx => (tx, .error e), none)

/-- What the writer thread has done. -/
structure Run (δ : Type) where
  db : δ
  answers : List Answer
  heads : List (Option Nat)
  panicked : Bool

theorem drain_length {B : Backend δ σ υ ι} {env : Env} {max : Nat} :
    ∀ {vis : Nat} {q : List Msg} {b b' : Batch σ} {q' : List Msg},
      drain B env max vis q b = .ok (b', q') → q'.length ≤ q.length := by
  intro vis
  induction vis with
  | zero => intro q b b' q' h; simp [drain] at h; simp [h.2]
  | succ vis ih =>
    intro q b b' q' h
    cases q with
    | nil => simp [drain] at h; simp [h.2]
    | cons m q =>
      simp only [drain] at h
      split at h
      · simp at h; simp [← h.2]
      split at h
      · simp at h; simp [← h.2]
      split at h
      · simp at h; simp [← h.2]
      · split at h
        · cases h
        · have := ih h; simp; omega

/-- `writer_thread_blocking`, writer_thread_blocking.rs 11-192, on the whole sequence of messages the channel will
ever deliver.  `vis n` and `io n` are the number of messages found by the drain loop, and the behaviour of the disk,
in the `n`-th iteration. -/
def writerThread (B : Backend δ σ υ ι) (env : Env) (max : Nat) (vis : Nat → Nat) (io : Nat → ι) (n : Nat)
    (q : List Msg) (r : Run δ) : Run δ :=
  match q with
  | [] => r
  | .shutdown :: _ => r
  | .append j :: q =>
    match B.begin r.db with
    | .error e => writerThread B env max vis io (n + 1) q { r with answers := r.answers ++ [(j.id, .error e)] }
    | .ok w =>
      match stepJob B env (Batch.new w) j with
      | .error _ => { r with panicked := true }
      | .ok b =>
        match _h : drain B env max (vis n) q b with
        | .error _ => { r with panicked := true }
        | .ok (b', q') =>
          let (d', as, h) := finishBatch B (io n) r.db b'
          writerThread B env max vis io (n + 1) q'
            { r with db := d', answers := r.answers ++ as, heads := r.heads ++ h.toList }
termination_by q.length
decreasing_by
  · simp
  · have := drain_length _h; simp; omega

end Uma.Db
