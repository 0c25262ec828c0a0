import Verif.Server.Stream

/-!
# Model of the server's calls that scan the database, side by side (umadb-server/src/lib.rs)

`readers_concurrency_limit` 382-397; the tasks of `read` 449-660 and `subscribe` 665-845, and `get_tracking_info` 922-955, with
the semaphore `readers_semaphore` (tokio's, which is fair), the blocking threads that hold its permits, the channels to the
clients (capacity 2048, 479 and 693), disconnecting clients and the shutdown broadcast (357).  What a scan finds and what is
made of it is that of `Verif/Server/Stream.lean`.

Simplifications: a scan looks at the database in one instant; the linger of 2 ms and `yield_now` (639, 824-828) are left out, as
any task may be delayed at any point; the blocking threads never run out.  `head` (900-920) takes no permit and is left out.
-/

namespace Uma.Server
open Uma.Db

variable {δ σ υ ι : Type}

/-! ## The limit, 382-397 -/

/-- `str::parse::<usize>`: an optional plus sign and at least one digit, below 2^64. -/
def parseUsize (s : List Char) : Option Nat :=
  let ds := match s with
    | '+' :: ds => ds
    | ds => ds
  if ds ≠ [] ∧ ds.all Char.isDigit then
    let n := ds.foldl (fun n c => 10 * n + (c.toNat - 48)) 0
    if n < 2 ^ 64 then some n else none
  else none

/-- `readers_concurrency_limit`; `var`: UMADB_READER_THREADS, `cores`: `available_parallelism`. -/
def readersLimit (var : Option (List Char)) (cores : Option Nat) : Nat :=
  match (var.bind parseUsize).filter (0 < ·) with
  | some n => n
  | none => max (min (cores.getD 4 * 4) (2 ^ 64 - 1)) 4

/-- `Semaphore::new`, 414: tokio panics above `usize::MAX >> 3`. -/
def newSemaphore (n : Nat) : Except Err Nat :=
  if 2 ^ 61 - 1 < n then .error (.panic "a semaphore may not have more than MAX_PERMITS permits") else .ok n

/-! ## Tasks -/

inductive Job
  | read (a : ReadArgs) (st : ReadState)
  | sub (query : Option Query) (batch : Nat) (next : Option Nat)
  | track (source : String)

/-- What the closure given to `spawn_blocking` returns. -/
inductive Found
  | events (r : Except Err (List SeqEvent × Option Nat))
  | position (r : Except Err (Option Nat))

inductive Place
  /-- top of the loop -/
  | top
  /-- in `acquire_owned().await` without a permit -/
  | asking
  /-- has a permit, `spawn_blocking` not yet called -/
  | holding
  /-- closure handed to `spawn_blocking` and not yet started -/
  | pending
  | running
  /-- the closure has returned and dropped its permit -/
  | found (f : Found)
  /-- in `tx.send(m).await`; `next`: what the task does then (none: it ends) -/
  | sending (m : Except Err Response) (next : Option Job)
  /-- in the `select!` at 790-794 -/
  | waiting
  /-- the result of the closure is no longer wanted, but the closure has yet to return -/
  | lost
  | done

structure Task where
  job : Job
  place : Place
  /-- version of the head seen at 747 -/
  seen : Nat
  /-- the client has disconnected -/
  gone : Bool
  /-- messages in the channel -/
  queued : Nat
  sent : List (Except Err Response)
  answer : Option (Except Err (Option Nat))

structure Hub (δ : Type) where
  db : δ
  /-- a commit is visible and not yet announced -/
  pending : Bool
  version : Nat
  /-- shutdown was broadcast -/
  stop : Bool
  free : Nat
  /-- tasks waiting for a permit -/
  queue : List Nat
  tasks : List Task

def Hub.init (d : δ) (limit : Nat) : Hub δ := ⟨d, false, 0, false, limit, [], []⟩

/-- A call as it reaches its handler. -/
inductive Visit
  | read (query : Option Query) (start : Option Nat) (backwards : Option Bool) (limit batchSize : Option Nat)
  | subscribe (query : Option Query) (after batchSize : Option Nat)
  | track (source : String)

/-- The task a call starts: 466-496; 673-712 (680-685 for `after = u64::MAX`); 933. -/
def Visit.task : Visit → Task
  | .read query start backwards limit batchSize =>
    let a : ReadArgs := ⟨query, start, backwards.getD false, limit, batchSizeOf batchSize⟩
    ⟨.read a (ReadState.init a), .top, 0, false, 0, [], none⟩
  | .subscribe query after batchSize =>
    let place := if after = some u64Max then .done else .top
    ⟨.sub query (batchSizeOf batchSize) (after.map fun a => min (a + 1) u64Max), place, 0, false, 0, [], none⟩
  | .track source => ⟨.track source, .top, 0, false, 0, [], none⟩

/-- What the closure does: 522-530, 750-760, 944-947. -/
def Job.scan (B : Backend δ σ υ ι) (env : Env) (d : δ) (c : Cancel) : Job → Found
  | .read a st => .events (handlerRead B env d a.query st.nextStart a.backwards (some (min st.remaining a.batch)) c)
  | .sub q b next => .events (handlerRead B env d q next false (some b) c)
  | .track s => .position (B.trackR d s)

/-- What the task makes of the result: 552-652, 780-843, 948-953. -/
def Task.settle (t : Task) : Found → Task
  | .events r =>
    match t.job with
    | .read a st =>
      match onRead a st (min st.remaining a.batch) r with
      | (none, _) => { t with place := .done }
      | (some m, st') => { t with place := .sending m (st'.map (Job.read a)) }
    | .sub q b _ =>
      match r with
      | .error .cancelledByUser => { t with place := .done }
      | .error e => { t with place := .sending (.error e) none }
      | .ok (events, _) =>
        match events.getLast? with
        | none => { t with place := .waiting }
        | some last =>
          let next := if last.position = u64Max then none else some (Job.sub q b (some (advance false last.position)))
          { t with place := .sending (.ok ⟨events, none⟩) next }
    | .track _ => { t with place := .done }
  | .position r => { t with place := .done, answer := some r }

/-! ## The semaphore -/

/-- A permit is dropped: it goes to the first in the queue. -/
def Hub.release (h : Hub δ) : Hub δ :=
  match h.queue with
  | [] => { h with free := h.free + 1 }
  | i :: q => { h with queue := q, tasks := h.tasks.modify i fun t => { t with place := .holding } }

def Hub.put (h : Hub δ) (i : Nat) (t : Task) : Hub δ := { h with tasks := h.tasks.set i t }

/-- `acquire_owned`: at once if there is a permit, else at the end of the queue. -/
def Hub.acquire (h : Hub δ) (i : Nat) (t : Task) : Hub δ :=
  if 0 < h.free then { h.put i { t with place := .holding } with free := h.free - 1 }
  else { h.put i { t with place := .asking } with queue := h.queue ++ [i] }

/-! ## Steps -/

/-- The task may take a branch of `select!` other than that of the result, or be dropped (only the future of
`get_tracking_info`, which is not spawned, when its client disconnects). -/
def Task.quits (t : Task) (stop : Bool) : Bool :=
  match t.job with
  | .track _ => t.gone
  | _ => t.gone || stop

/-- The next step of the task itself; `quit`: it takes the other branch if it may.  None: it waits, or has ended. -/
def Hub.taskStep (i : Nat) (quit : Bool) (h : Hub δ) : Option (Hub δ) :=
  match h.tasks[i]? with
  | none => none
  | some t =>
    let quit := quit && t.quits h.stop
    match t.place with
    | .top =>
      match t.job with
      | .read a st =>
        if t.gone || h.stop then some (h.put i { t with place := .done })
        else if a.limit.isSome ∧ st.remaining = 0 then some (h.put i { t with place := .done })
        else some (h.acquire i t)
      | .sub .. => if t.gone || h.stop then some (h.put i { t with place := .done }) else some (h.acquire i t)
      | .track _ => some (h.acquire i t)
    | .asking =>
      match t.job with
      | .track _ => if quit then some { h.put i { t with place := .done } with queue := h.queue.erase i } else none
      | _ => none
    | .holding =>
      match t.job with
      | .track _ =>
        if quit then some (h.put i { t with place := .done }).release else some (h.put i { t with place := .pending })
      | .sub .. => some (h.put i { t with place := .pending, seen := h.version })
      | .read .. => some (h.put i { t with place := .pending })
    | .pending =>
      if quit then
        match t.job with
        /- `abort` takes back a closure that has not started -/
        | .sub .. => some (h.put i { t with place := .done }).release
        | _ => some (h.put i { t with place := .lost })
      else none
    | .running => if quit then some (h.put i { t with place := .lost }) else none
    | .found f => if quit then some (h.put i { t with place := .done }) else some (h.put i (t.settle f))
    | .sending m next =>
      if t.gone then some (h.put i { t with place := .done })
      else if t.queued < 2048 then
        match next with
        | none => some (h.put i { t with place := .done, sent := t.sent ++ [m], queued := t.queued + 1 })
        | some job => some (h.put i { t with job := job, place := .top, sent := t.sent ++ [m], queued := t.queued + 1 })
      else none
    | .waiting => if h.version ≠ t.seen ∨ t.gone = true ∨ h.stop = true then some (h.put i { t with place := .top }) else none
    | .lost => none
    | .done => none

/-- The next step of the closure of task `i`; its cancel flag is raised only after the client has gone or at shutdown. -/
def Hub.poolStep (B : Backend δ σ υ ι) (env : Env) (i : Nat) (c : Cancel) (h : Hub δ) : Option (Hub δ) :=
  match h.tasks[i]? with
  | none => none
  | some t =>
    match t.place with
    | .pending => some (h.put i { t with place := .running })
    | .running =>
      some (h.put i { t with place := .found (t.job.scan B env h.db (if t.gone || h.stop then c else Cancel.never)) }).release
    | .lost => some (h.put i { t with place := .done }).release
    | _ => none

inductive Move (δ : Type)
  | arrive (v : Visit)
  /-- the client of task `i` disconnects -/
  | leave (i : Nat)
  /-- the client of task `i` takes a message -/
  | recv (i : Nat)
  | commit (d : δ)
  | announce
  | shutdown
  | task (i : Nat) (quit : Bool)
  | pool (i : Nat) (c : Cancel)

/-- None: nothing can happen. -/
def Hub.step? (B : Backend δ σ υ ι) (env : Env) : Move δ → Hub δ → Option (Hub δ)
  | .arrive v, h => some { h with tasks := h.tasks ++ [v.task] }
  | .leave i, h => some { h with tasks := h.tasks.modify i fun t => { t with gone := true } }
  | .recv i, h => some { h with tasks := h.tasks.modify i fun t => { t with queued := t.queued - 1 } }
  | .commit d, h => if h.pending then none else some { h with db := d, pending := true }
  | .announce, h => if h.pending then some { h with pending := false, version := h.version + 1 } else none
  | .shutdown, h => some { h with stop := true }
  | .task i quit, h => h.taskStep i quit
  | .pool i c, h => h.poolStep B env i c

def Hub.step (B : Backend δ σ υ ι) (env : Env) (h : Hub δ) (m : Move δ) : Hub δ := (h.step? B env m).getD h

def Hub.run (B : Backend δ σ υ ι) (env : Env) (h : Hub δ) (ms : List (Move δ)) : Hub δ := ms.foldl (Hub.step B env) h

end Uma.Server
