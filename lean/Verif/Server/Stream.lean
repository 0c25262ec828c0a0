import Verif.Db.Append

/-!
# Model of the server's streaming loops (umadb-server/src/lib.rs, handler.rs)

The tasks spawned for `read` and `subscribe` are modelled as loops over rounds; each round takes a fresh snapshot, so
each round may see a later database.  Messages sent into the channel are received by the client in the same order.
-/

namespace Uma.Server
open Uma.Db

variable {δ σ υ ι : Type}

/-- `UmaDbServerRequestHandler::read`, handler.rs 94-133.  Errors other than cancellation become `Corruption` (the text
`format!("{e}")` is abbreviated). -/
def handlerRead (B : Backend δ σ υ ι) (env : Env) (d : δ) (query : Option Query) (start : Option Nat)
    (backwards : Bool) (limit : Option Nat) (c : Cancel) : Except Err (List SeqEvent × Option Nat) :=
  let dbHead := if B.nextPosR d > 1 then some (B.nextPosR d - 1) else none
  match readConditional env.H env.ord (B.snapR d) (query.getD ⟨[]⟩) start backwards limit false c with
  | .error .cancelledByUser => .error .cancelledByUser
  | .error _ => .error (.corruption "read failed")
  | .ok events => .ok (events, dbHead)

/-- READ_RESPONSE_BATCH_SIZE_DEFAULT and READ_RESPONSE_BATCH_SIZE_MAX, lib.rs 170-171, and the clamp at 473-476
and 686-689. -/
def batchSizeOf (requested : Option Nat) : Nat := max 1 (min (requested.getD 1024) 4096)

/-- `umadb_proto::v1::ReadResponse`. -/
structure Response where
  events : List SeqEvent
  head : Option Nat
deriving DecidableEq, Repr

/-- Arguments of a Read call after conversion, lib.rs 466-476. -/
structure ReadArgs where
  query : Option Query
  start : Option Nat
  backwards : Bool
  limit : Option Nat
  batch : Nat

/-- Variables of the read task, lib.rs 491-496. -/
structure ReadState where
  nextStart : Option Nat
  sentAny : Bool
  remaining : Nat
  captured : Option Nat
  haveCaptured : Bool
deriving DecidableEq, Repr

def u32Max : Nat := 2 ^ 32 - 1
def u64Max : Nat := 2 ^ 64 - 1

def ReadState.init (a : ReadArgs) : ReadState := ⟨a.start, false, a.limit.getD u32Max, none, false⟩

/-- What a round produces: an optional message, and the state with which to go on (none: the task ends). -/
abbrev Round := Option (Except Err Response) × Option ReadState

/-- Cursor after the last event sent, lib.rs 617-623 (saturating arithmetic). -/
def advance (backwards : Bool) (p : Nat) : Nat := if backwards then p - 1 else min (p + 1) u64Max

/-- The filter at lib.rs 567-573. -/
def withinHead (captured : Option Nat) (e : SeqEvent) : Bool :=
  match captured with
  | some h => decide (e.position ≤ h)
  | none => true

/-- lib.rs 552-652: what the task does with the result of one batch read. -/
def onRead (a : ReadArgs) (st : ReadState) (readLimit : Nat)
    (res : Except Err (List SeqEvent × Option Nat)) : Round :=
  match res with
  | .error .cancelledByUser => (none, none)
  | .error e => (some (.error e), none)
  | .ok (events, dbHead) =>
    let captured := if st.haveCaptured then st.captured else dbHead
    let readLess := events.length % 2 ^ 32 < readLimit
    let kept := events.filter (withinHead captured)
    let reachedHead := captured.isSome ∧ kept.length < events.length
    match kept.getLast? with
    | none =>
      (if st.sentAny then none else some (.ok ⟨[], if a.limit.isSome then none else captured⟩), none)
    | some last =>
      let msg : Response := ⟨kept, if a.limit.isSome then some last.position else captured⟩
      let remaining := if a.limit.isSome then st.remaining - kept.length % 2 ^ 32 else st.remaining
      if readLess ∨ reachedHead then (some (.ok msg), none)
      else if a.limit.isSome ∧ remaining = 0 then (some (.ok msg), none)
      else (some (.ok msg), some ⟨some (advance a.backwards last.position), true, remaining, captured, true⟩)

/-- One turn of the loop at lib.rs 497-653, `d` being the database when this round takes its snapshot. -/
def readRound (B : Backend δ σ υ ι) (env : Env) (a : ReadArgs) (st : ReadState) (d : δ) (c : Cancel) : Round :=
  let readLimit := min st.remaining a.batch
  if a.limit.isSome ∧ st.remaining = 0 then (none, none)
  else onRead a st readLimit (handlerRead B env d a.query st.nextStart a.backwards (some readLimit) c)

/-- The read task, lib.rs 489-653.  `dbs k`: the database seen by round `k`; `gone k`: in round `k` the client
disconnects, the server shuts down or the semaphore is closed, so that nothing of that round is delivered;
`cs k`: the cancel flag as polled in round `k`.  At most `fuel` rounds are run; the flag tells whether the task ended. -/
def readTask (B : Backend δ σ υ ι) (env : Env) (a : ReadArgs) (dbs : Nat → δ) (gone : Nat → Bool)
    (cs : Nat → Cancel) : (fuel k : Nat) → ReadState → List (Except Err Response) × Bool
  | 0, _, _ => ([], false)
  | fuel + 1, k, st =>
    if gone k then ([], true)
    else
      match readRound B env a st (dbs k) (cs k) with
      | (m, none) => (m.toList, true)
      | (m, some st') =>
        let (ms, fin) := readTask B env a dbs gone cs fuel (k + 1) st'
        (m.toList ++ ms, fin)

/-- The Read call, lib.rs 449-660, after the API key check. -/
def readCall (B : Backend δ σ υ ι) (env : Env) (query : Option Query) (start : Option Nat) (backwards : Option Bool)
    (limit batchSize : Option Nat) (dbs : Nat → δ) (gone : Nat → Bool) (cs : Nat → Cancel) (fuel : Nat) :
    List (Except Err Response) × Bool :=
  let a : ReadArgs := ⟨query, start, backwards.getD false, limit, batchSizeOf batchSize⟩
  readTask B env a dbs gone cs fuel 0 (ReadState.init a)

/-- Events a client receives. -/
def delivered (ms : List (Except Err Response)) : List SeqEvent :=
  ms.flatMap fun m => match m with
    | .ok r => r.events
    | .error _ => []

/-! ## Subscriptions -/

/-- Where the subscription task is, lib.rs 713-838. -/
inductive SubPhase
  /-- about to clear the head notification (line 747) -/
  | top
  /-- notification cleared at this version, snapshot not yet taken -/
  | armed (seen : Nat)
  /-- batch read, not yet sent -/
  | got (seen : Nat) (events : List SeqEvent)
  /-- nothing to send, in `head_rx.changed().await` (line 791) -/
  | waiting (seen : Nat)
  | ended
deriving DecidableEq, Repr

/-- Database, head watch channel and subscriber together.  `pending`: the writer has made a commit visible and not yet
executed `head_watch_tx.send` (writer_thread_blocking.rs 161-170); `version` counts the sends (tokio's watch channel
version). -/
structure World (δ : Type) where
  db : δ
  pending : Bool
  version : Nat
  phase : SubPhase
  next : Option Nat
  delivered : List SeqEvent

inductive Choice (δ : Type)
  /-- the writer commits, making `d` visible -/
  | commit (d : δ)
  /-- the writer announces the head -/
  | announce
  /-- the subscriber makes its next step, if it can; `c` is the cancel flag during the read -/
  | sub (c : Cancel)

/-- The subscriber's next step, lib.rs 713-838. `none`: it is blocked (or has ended). -/
def subStep (B : Backend δ σ υ ι) (env : Env) (query : Option Query) (batch : Nat) (c : Cancel) (w : World δ) :
    Option (World δ) :=
  match w.phase with
  | .top => some { w with phase := .armed w.version }
  | .armed seen =>
    match handlerRead B env w.db query w.next false (some batch) c with
    | .ok (events, _) => some { w with phase := .got seen events }
    | .error _ => some { w with phase := .ended }
  | .got seen events =>
    match events.getLast? with
    | none => some { w with phase := .waiting seen }
    | some last =>
      if last.position = u64Max then
        some { w with phase := .ended, delivered := w.delivered ++ events }
      else
        some { w with phase := .top, delivered := w.delivered ++ events, next := some (advance false last.position) }
  | .waiting seen => if w.version = seen then none else some { w with phase := .top }
  | .ended => none

def worldStep (B : Backend δ σ υ ι) (env : Env) (query : Option Query) (batch : Nat) (w : World δ) :
    Choice δ → World δ
  | .commit d => if w.pending then w else { w with db := d, pending := true }
  | .announce => if w.pending then { w with pending := false, version := w.version + 1 } else w
  | .sub c => (subStep B env query batch c w).getD w

/-- A Subscribe call on database `d`, lib.rs 665-838: `after = u64::MAX` ends at once (680-685). -/
def subscribeCall (d : δ) (after : Option Nat) (version : Nat) : World δ :=
  if after = some u64Max then ⟨d, false, version, .ended, none, []⟩
  else ⟨d, false, version, .top, after.map fun a => min (a + 1) u64Max, []⟩

def runWorld (B : Backend δ σ υ ι) (env : Env) (query : Option Query) (batch : Nat) (w : World δ)
    (cs : List (Choice δ)) : World δ := cs.foldl (worldStep B env query batch) w

end Uma.Server
