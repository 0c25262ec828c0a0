import Verif.Net.Proto
import Verif.Server.Stream

/-!
# Model of the client's response objects (umadb-client/src/lib.rs)

`AsyncClientReadResponse` 121-335, `AsyncClientSubscription` 339-494 (the same without `head`), `SyncStreamEngine`
548-686 and the types built on it.  Cancellation by the user is added in `Verif/Net/Cancel.lean`.
`stream` is what the transport still has to deliver; after an error the transport delivers nothing more (tonic).
-/

namespace Uma.Net

abbrev Incoming := List (Except Status PResponse)

structure AsyncResp where
  stream : Incoming
  buffer : List SeqEvent
  /-- none: not known yet -/
  lastHead : Option (Option Nat)
  ended : Bool

/-- `AsyncClientReadResponse::new`, 133-145. -/
def AsyncResp.new (s : Incoming) : AsyncResp := ⟨s, [], none, false⟩

/-- `fetch_next_if_needed` 148-176 and `fetch_next_if_needed_timeout` 178-209; `fires`: the timer wins. -/
def fetch (fires : Bool) (a : AsyncResp) : Except Err Unit × AsyncResp :=
  if a.buffer ≠ [] ∨ a.ended = true then (.ok (), a)
  else if fires then (.error .timeout, a)
  else
    match a.stream with
    | [] => (.ok (), { a with ended := true })
    | .error s :: _ => (.error (errOfStatus s), { a with stream := [] })
    | .ok r :: rest =>
      match convertSequenced r.events with
      | .error e => (.error e, { a with stream := rest, lastHead := some r.head })
      | .ok evs => (.ok (), { a with stream := rest, lastHead := some r.head, buffer := evs })

/-- `head`, 226-233. -/
def asyncHead (a : AsyncResp) : Except Err (Option Nat) × AsyncResp :=
  match a.lastHead with
  | some h => (.ok h, a)
  | none =>
    match fetch false a with
    | (.error e, a') => (.error e, a')
    | (.ok (), a') => (.ok (a'.lastHead.getD none), a')

/-- `next_batch` 235-247, `next_batch_timeout` 249-262. -/
def asyncNextBatch (fires : Bool) (a : AsyncResp) : Except Err (List SeqEvent) × AsyncResp :=
  if a.buffer ≠ [] then (.ok a.buffer, { a with buffer := [] })
  else
    match fetch fires a with
    | (.error e, a') => (.error e, a')
    | (.ok (), a') => (.ok a'.buffer, { a' with buffer := [] })

/-- The part of `poll_next` (307-334) that reads the transport. -/
def pollStream (lastHead : Option (Option Nat)) : Incoming → Option (Except Err SeqEvent) × AsyncResp
  | [] => (none, ⟨[], [], lastHead, true⟩)
  | .error s :: _ => (some (.error (errOfStatus s)), ⟨[], [], lastHead, true⟩)
  | .ok r :: rest =>
    match convertSequenced r.events with
    | .error e => (some (.error e), ⟨rest, [], some r.head, false⟩)
    | .ok [] => pollStream (some r.head) rest
    | .ok (ev :: buf) => (some (.ok ev), ⟨rest, buf, some r.head, false⟩)

/-- `poll_next` until ready, 283-335. -/
def asyncNext (a : AsyncResp) : Option (Except Err SeqEvent) × AsyncResp :=
  if a.ended = true then (none, { a with buffer := [] })
  else
    match a.buffer with
    | ev :: buf => (some (.ok ev), { a with buffer := buf })
    | [] => pollStream a.lastHead a.stream

/-- `SyncStreamEngine`, 548-563. -/
structure SyncResp where
  finished : Bool
  buffer : List SeqEvent
  inner : AsyncResp

def SyncResp.new (s : Incoming) : SyncResp := ⟨false, [], AsyncResp.new s⟩

/-- What is done with a fetched batch, 586-596, 627-640, 651-658, 671-678. -/
def refill (fires : Bool) (s : SyncResp) : Option Err × SyncResp :=
  match asyncNextBatch fires s.inner with
  | (.error e, i) => (some e, { s with inner := i })
  | (.ok batch, i) =>
    if batch = [] then (none, { s with inner := i, finished := true })
    else (none, { s with inner := i, buffer := batch })

/-- The end of `next_item`: pop the front of the buffer. -/
def popFront (s : SyncResp) : Option (Except Err SeqEvent) × SyncResp :=
  match s.buffer with
  | ev :: buf => (some (.ok ev), { s with buffer := buf })
  | [] => (none, s)

/-- `next_item` 566-599 (`fires = false`) and `next_item_timeout` 602-643.  The `while` loop of `next_item` runs at most
once: a batch is either empty, then `finished` is set, or it fills the buffer. -/
def syncNext (fires : Bool) (s : SyncResp) : Option (Except Err SeqEvent) × SyncResp :=
  if s.finished = false ∧ s.inner.ended = true then (none, { s with finished := true, buffer := [] })
  else if s.buffer ≠ [] ∨ s.finished = true then popFront s
  else
    match refill fires s with
    | (some e, s') => (some (.error e), s')
    | (none, s') => popFront s'

/-- `engine_next_batch` 646-659, `engine_next_batch_timeout` 662-679. -/
def syncNextBatch (fires : Bool) (s : SyncResp) : Except Err (List SeqEvent) × SyncResp :=
  if s.buffer ≠ [] then (.ok s.buffer, { s with buffer := [] })
  else
    match refill fires s with
    | (some e, s') => (.error e, s')
    | (none, s') => (.ok s'.buffer, { s' with buffer := [] })

/-- `SyncClientReadResponse::head`, 718-720. -/
def syncHead (s : SyncResp) : Except Err (Option Nat) × SyncResp :=
  let (r, i) := asyncHead s.inner
  (r, { s with inner := i })

/-! ## Sequences of calls -/

/-- Calls a program can make on a response; `fires` tells whether the timeout elapses. -/
inductive Op
  | next
  | nextTimeout (fires : Bool)
  | nextBatch
  | nextBatchTimeout (fires : Bool)
  | head
deriving DecidableEq, Repr

inductive Out
  | item (r : Option (Except Err SeqEvent))
  | batch (r : Except Err (List SeqEvent))
  | head (r : Except Err (Option Nat))
deriving DecidableEq, Repr

/-- The async response has no `next_timeout`; it is mapped to `next`. -/
def asyncOp (a : AsyncResp) : Op → Out × AsyncResp
  | .next | .nextTimeout _ => let (r, a') := asyncNext a; (.item r, a')
  | .nextBatch => let (r, a') := asyncNextBatch false a; (.batch r, a')
  | .nextBatchTimeout f => let (r, a') := asyncNextBatch f a; (.batch r, a')
  | .head => let (r, a') := asyncHead a; (.head r, a')

def syncOp (s : SyncResp) : Op → Out × SyncResp
  | .next => let (r, s') := syncNext false s; (.item r, s')
  | .nextTimeout f => let (r, s') := syncNext f s; (.item r, s')
  | .nextBatch => let (r, s') := syncNextBatch false s; (.batch r, s')
  | .nextBatchTimeout f => let (r, s') := syncNextBatch f s; (.batch r, s')
  | .head => let (r, s') := syncHead s; (.head r, s')

def runOps {σ : Type} (step : σ → Op → Out × σ) : σ → List Op → List Out × σ
  | s, [] => ([], s)
  | s, op :: ops =>
    let (o, s') := step s op
    let (os, s'') := runOps step s' ops
    (o :: os, s'')

end Uma.Net
