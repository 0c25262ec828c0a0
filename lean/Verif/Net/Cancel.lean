import Verif.Net.Client

/-!
# Model of cancellation of client streams (umadb-client/src/lib.rs)

The response objects of `Verif/Net/Client.lean` again, now with the two watch channels through which a stream is cancelled
(the channel of the process, 30-47, and the one of the stream, 126-129, 343-346), and with calls that wait: a call is a
sequence of polls, between which signals, the timer and messages arrive.  A poll that is not ready names what it is
registered with; nothing else makes the runtime poll again.
-/

namespace Uma.Net

/-- What a poll can be registered with. -/
inductive Source
  | glob | loc | timer | stream
deriving DecidableEq, Repr

/-- What happens between two polls: a signal on the channel of the process, on the channel of the stream, the end of the
timeout, the arrival of `msgs` further items of the stream (its end counts as one). -/
structure Turn where
  glob : Bool := false
  loc : Bool := false
  timer : Bool := false
  msgs : Nat := 0
deriving DecidableEq, Repr

def Turn.happened (t : Turn) : Source → Bool
  | .glob => t.glob
  | .loc => t.loc
  | .timer => t.timer
  | .stream => decide (t.msgs ≠ 0)

/-- `AsyncClientReadResponse` 121-130 and `AsyncClientSubscription` 339-347 with `has_changed` of both receivers; `avail` is
how many items of `base.stream` the transport has received. -/
structure CAsync where
  base : AsyncResp
  glob : Bool
  loc : Bool
  avail : Nat

/-- `new` 133-145, 350-361: the receivers have seen whatever was sent before. -/
def CAsync.new (s : Incoming) : CAsync := ⟨AsyncResp.new s, false, false, 0⟩

def CAsync.arrive (t : Turn) (c : CAsync) : CAsync :=
  { c with glob := c.glob || t.glob, loc := c.loc || t.loc, avail := c.avail + t.msgs }

def CAsync.arriveAll (ts : List Turn) (c : CAsync) : CAsync := ts.foldl (fun c t => c.arrive t) c

inductive Polled (α : Type)
  | ready (a : α)
  | pending (wakes : List Source)

/-- One poll of `fetch_next_if_needed` 148-176 (`timed = false`) and `fetch_next_if_needed_timeout` 178-209, 363-392: a biased
`select!` over both channels, the timer and the stream.  `changed()` marks the signal as seen.  (`next_batch` of a
subscription waits with a timeout of `u64::MAX` seconds; that is no timeout.) -/
def pollFetch (timed : Bool) (t : Turn) (c : CAsync) : Polled (Except Err Unit) × CAsync :=
  if c.base.buffer ≠ [] ∨ c.base.ended = true then (.ready (.ok ()), c)
  else if c.glob = true then
    (.ready (.error .cancelledByUser), { c with glob := false, base := { c.base with ended := true } })
  else if c.loc = true then
    (.ready (.error .cancelledByUser), { c with loc := false, base := { c.base with ended := true } })
  else if timed = true ∧ t.timer = true then (.ready (.error .timeout), c)
  else if c.avail = 0 then
    (.pending (if timed then [.glob, .loc, .timer, .stream] else [.glob, .loc, .stream]), c)
  else (.ready (fetch false c.base).1, { c with base := (fetch false c.base).2, avail := c.avail - 1 })

/-- `evaluate_shutdown`, 71-86. -/
inductive Status3
  | notStopped | stopped | cancelled
deriving DecidableEq, Repr

def CAsync.status (c : CAsync) : Status3 :=
  if c.glob = true ∨ c.loc = true then .cancelled
  else if c.base.ended = true then .stopped
  else .notStopped

/-- The loop of `poll_next` over the items that are there, 307-334 and 471-492: an empty message makes it look for the next.
The watch channels are read, not polled: a pending poll is registered with the stream alone. -/
def pollItems (lastHead : Option (Option Nat)) (glob loc : Bool) :
    Nat → Incoming → Polled (Option (Except Err SeqEvent)) × CAsync
  | 0, s => (.pending [.stream], ⟨⟨s, [], lastHead, false⟩, glob, loc, 0⟩)
  | n + 1, [] => (.ready none, ⟨⟨[], [], lastHead, true⟩, glob, loc, n⟩)
  | n + 1, .error st :: _ => (.ready (some (.error (errOfStatus st))), ⟨⟨[], [], lastHead, true⟩, glob, loc, n⟩)
  | n + 1, .ok r :: rest =>
    match convertSequenced r.events with
    | .error e => (.ready (some (.error e)), ⟨⟨rest, [], some r.head, false⟩, glob, loc, n⟩)
    | .ok [] => pollItems (some r.head) glob loc n rest
    | .ok (ev :: buf) => (.ready (some (.ok ev)), ⟨⟨rest, buf, some r.head, false⟩, glob, loc, n⟩)

/-- `poll_next`, 283-335 and 451-493. -/
def pollNext (c : CAsync) : Polled (Option (Except Err SeqEvent)) × CAsync :=
  match c.status with
  | .cancelled => (.ready (some (.error .cancelledByUser)), { c with base := { c.base with buffer := [] } })
  | .stopped => (.ready none, { c with base := { c.base with buffer := [] } })
  | .notStopped =>
    match c.base.buffer with
    | ev :: buf => (.ready (some (.ok ev)), { c with base := { c.base with buffer := buf } })
    | [] => pollItems c.base.lastHead c.glob c.loc c.avail c.base.stream

/-- Is the task polled in this turn?  `none`: it has just been started. -/
def scheduled (w : Option (List Source)) (t : Turn) : Bool :=
  match w with
  | none => true
  | some l => l.any t.happened

/-- A call: polls until one is ready.  `none` in front: the turns are used up and the call still waits.  The turns after the
return come back as well. -/
def drive {α : Type} (poll : Turn → CAsync → Polled α × CAsync) :
    Option (List Source) → List Turn → CAsync → Option α × CAsync × List Turn
  | _, [], c => (none, c, [])
  | w, t :: ts, c =>
    if scheduled w t = true then
      match poll t (c.arrive t) with
      | (.ready a, c') => (some a, c', ts)
      | (.pending w', c') => drive poll (some w') ts c'
    else drive poll w ts (c.arrive t)

/-- `next` of the async objects: `poll_next` until ready. -/
def cNext (ts : List Turn) (c : CAsync) : Option (Option (Except Err SeqEvent)) × CAsync × List Turn :=
  drive (fun _ => pollNext) none ts c

/-- `next_batch` 235-247, 409-419 and `next_batch_timeout` 249-262, 421-430. -/
def cNextBatch (timed : Bool) (ts : List Turn) (c : CAsync) : Option (Except Err (List SeqEvent)) × CAsync × List Turn :=
  if c.base.buffer ≠ [] then (some (.ok c.base.buffer), { c with base := { c.base with buffer := [] } }, ts)
  else
    match drive (pollFetch timed) none ts c with
    | (none, c', ts') => (none, c', ts')
    | (some (.error e), c', ts') => (some (.error e), c', ts')
    | (some (.ok ()), c', ts') => (some (.ok c'.base.buffer), { c' with base := { c'.base with buffer := [] } }, ts')

/-- `head`, 226-233. -/
def cHead (ts : List Turn) (c : CAsync) : Option (Except Err (Option Nat)) × CAsync × List Turn :=
  match c.base.lastHead with
  | some h => (some (.ok h), c, ts)
  | none =>
    match drive (pollFetch false) none ts c with
    | (none, c', ts') => (none, c', ts')
    | (some (.error e), c', ts') => (some (.error e), c', ts')
    | (some (.ok ()), c', ts') => (some (.ok (c'.base.lastHead.getD none)), c', ts')

/-- `cancel` of the async objects and of their handles, 264-273, 432-441: a signal on the stream's own channel. -/
def CAsync.cancel (c : CAsync) : CAsync := { c with loc := true }

/-- `cancel_all_stream_responses`, 43-47, as this stream sees it. -/
def CAsync.cancelAll (c : CAsync) : CAsync := { c with glob := true }

/-! ## The synchronous objects -/

/-- `SyncStreamEngine`, 548-563. -/
structure CSync where
  finished : Bool
  buffer : List SeqEvent
  inner : CAsync

def CSync.new (s : Incoming) : CSync := ⟨false, [], CAsync.new s⟩

/-- The end of `next_item`: pop the front of the buffer. -/
def CSync.pop (s : CSync) : Option (Except Err SeqEvent) × CSync :=
  match s.buffer with
  | ev :: buf => (some (.ok ev), { s with buffer := buf })
  | [] => (none, s)

/-- What is done with a fetched batch, 586-596, 627-640, 651-658, 671-678.  `none` in front: still waiting. -/
def cRefill (timed : Bool) (ts : List Turn) (s : CSync) : Option (Option Err) × CSync × List Turn :=
  match cNextBatch timed ts s.inner with
  | (none, i, ts') => (none, { s with inner := i }, ts')
  | (some (.error e), i, ts') => (some (some e), { s with inner := i }, ts')
  | (some (.ok batch), i, ts') =>
    if batch = [] then (some none, { s with inner := i, finished := true }, ts')
    else (some none, { s with inner := i, buffer := batch }, ts')

/-- `next_item` 566-599 (`timed = false`), `next_item_timeout` 602-643. -/
def cSyncNext (timed : Bool) (ts : List Turn) (s : CSync) : Option (Option (Except Err SeqEvent)) × CSync × List Turn :=
  if s.finished = false ∧ s.inner.status = .cancelled then
    (some (some (.error .cancelledByUser)), { s with finished := true, buffer := [] }, ts)
  else if s.finished = false ∧ s.inner.status = .stopped then (some none, { s with finished := true, buffer := [] }, ts)
  else if s.buffer ≠ [] ∨ s.finished = true then (some s.pop.1, s.pop.2, ts)
  else
    match cRefill timed ts s with
    | (none, s', ts') => (none, s', ts')
    | (some (some e), s', ts') => (some (some (.error e)), s', ts')
    | (some none, s', ts') => (some s'.pop.1, s'.pop.2, ts')

/-- `engine_next_batch` 646-659, `engine_next_batch_timeout` 662-679. -/
def cSyncNextBatch (timed : Bool) (ts : List Turn) (s : CSync) : Option (Except Err (List SeqEvent)) × CSync × List Turn :=
  if s.buffer ≠ [] then (some (.ok s.buffer), { s with buffer := [] }, ts)
  else
    match cRefill timed ts s with
    | (none, s', ts') => (none, s', ts')
    | (some (some e), s', ts') => (some (.error e), s', ts')
    | (some none, s', ts') => (some (.ok s'.buffer), { s' with buffer := [] }, ts')

/-- `SyncClientReadResponse::head`, 718-720. -/
def cSyncHead (ts : List Turn) (s : CSync) : Option (Except Err (Option Nat)) × CSync × List Turn :=
  match cHead ts s.inner with
  | (r, i, ts') => (r, { s with inner := i }, ts')

/-- `SyncClientReadResponse::cancel` 734-736, `engine_stop` 682-685: the flag is set before the signal is sent. -/
def CSync.cancelRead (s : CSync) : CSync := { s with finished := true, inner := s.inner.cancel }

/-- `SyncClientSubscription::cancel`, 780-782. -/
def CSync.cancelSubscription (s : CSync) : CSync := { s with inner := s.inner.cancel }

/-! ## Sequences of calls -/

/-- Calls on a synchronous response; the turns of a call are what happens from its start up to the next call. -/
inductive COp
  | next (timed : Bool) (ts : List Turn)
  | nextBatch (timed : Bool) (ts : List Turn)
  | head (ts : List Turn)
  | cancelRead
  | cancelSubscription
  /-- the stream's handle: `close` of the client, 815-820, 1055-1057 -/
  | cancelHandle
  /-- `cancel_all_stream_responses`, 43-47 -/
  | cancelAll

def CSync.later (ts : List Turn) (s : CSync) : CSync := { s with inner := s.inner.arriveAll ts }

/-- One call: `none` if it never returns. -/
def cSyncOp (s : CSync) : COp → Option (Option Out) × CSync
  | .next timed ts =>
    match cSyncNext timed ts s with
    | (none, s', ts') => (none, s'.later ts')
    | (some r, s', ts') => (some (some (.item r)), s'.later ts')
  | .nextBatch timed ts =>
    match cSyncNextBatch timed ts s with
    | (none, s', ts') => (none, s'.later ts')
    | (some r, s', ts') => (some (some (.batch r)), s'.later ts')
  | .head ts =>
    match cSyncHead ts s with
    | (none, s', ts') => (none, s'.later ts')
    | (some r, s', ts') => (some (some (.head r)), s'.later ts')
  | .cancelRead => (some none, s.cancelRead)
  | .cancelSubscription => (some none, s.cancelSubscription)
  | .cancelHandle => (some none, { s with inner := s.inner.cancel })
  | .cancelAll => (some none, { s with inner := s.inner.cancelAll })

/-- The same for the async objects. -/
def cAsyncOp (c : CAsync) : COp → Option (Option Out) × CAsync
  | .next _ ts =>
    match cNext ts c with
    | (none, c', ts') => (none, c'.arriveAll ts')
    | (some r, c', ts') => (some (some (.item r)), c'.arriveAll ts')
  | .nextBatch timed ts =>
    match cNextBatch timed ts c with
    | (none, c', ts') => (none, c'.arriveAll ts')
    | (some r, c', ts') => (some (some (.batch r)), c'.arriveAll ts')
  | .head ts =>
    match cHead ts c with
    | (none, c', ts') => (none, c'.arriveAll ts')
    | (some r, c', ts') => (some (some (.head r)), c'.arriveAll ts')
  | .cancelRead | .cancelSubscription | .cancelHandle => (some none, c.cancel)
  | .cancelAll => (some none, c.cancelAll)

/-- A program: it stops where a call does not return. -/
def cRun {σ : Type} (step : σ → COp → Option (Option Out) × σ) : σ → List COp → List Out × σ
  | s, [] => ([], s)
  | s, op :: ops =>
    match step s op with
    | (none, s') => ([], s')
    | (some o, s') => (o.toList ++ (cRun step s' ops).1, (cRun step s' ops).2)

end Uma.Net
