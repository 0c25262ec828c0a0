import Verif.Net.Client

/-!
# Model of the Python bindings' iterators, exceptions and metadata (umadb-python/src/lib.rs)

`ReadResponse` 280-377 and `Subscription` 383-462 over the blocking response of `Verif/Net/Client.lean` (cancellation:
`Verif/Net/Cancel.lean`), `dcb_error_to_py_err` 22-33, the metadata of `Event` 45-64, 87-90.  The other methods hand their
arguments and results over unchanged.
-/

namespace Uma.Net

/-- Python exceptions: the classes of 15-20, `ValueError`, a plain `Exception`, and what a signal handler raised. -/
inductive PyExc
  | value (m : String)
  | integrity (m : String)
  | transport (m : String)
  | corruption (m : String)
  | authentication (m : String)
  | cancelled
  | plain (m : String)
  | raised
deriving DecidableEq, Repr

/-- `dcb_error_to_py_err`, 23-33. -/
def pyErr : Err → PyExc
  | .invalidArgument m => .value m
  | .integrity m => .integrity m
  | .transport m => .transport m
  | .corruption m => .corruption m
  | .cancelledByUser => .cancelled
  | .authentication m => .authentication m
  | e => .plain (display e)

/-- One round of the loops of 297-319, 400-417, 424-446: whether the 100 ms pass, and whether `check_signals` raises. -/
structure PyTurn where
  fires : Bool := false
  raises : Bool := false
deriving DecidableEq, Repr

/-- `ReadResponse.__next__` 292-320, `Subscription.__next__` 395-418.  `none` in front: the rounds are used up and the call
still waits. -/
def pyNext : List PyTurn → SyncResp → Option (Option (Except PyExc SeqEvent)) × SyncResp
  | [], s => (none, s)
  | t :: ts, s =>
    match syncNext t.fires s with
    | (r, s') =>
      if t.raises = true then (some (some (.error .raised)), s')
      else
        match r with
        | some (.ok ev) => (some (some (.ok ev)), s')
        | some (.error .timeout) => pyNext ts s'
        | some (.error e) => (some (some (.error (pyErr e))), s')
        | none => (some none, s')

/-- `Subscription.next_batch`, 421-447. -/
def pyNextBatch : List PyTurn → SyncResp → Option (Except PyExc (List SeqEvent)) × SyncResp
  | [], s => (none, s)
  | t :: ts, s =>
    match syncNextBatch t.fires s with
    | (r, s') =>
      if t.raises = true then (some (.error .raised), s')
      else
        match r with
        | .ok l => (some (.ok l), s')
        | .error .timeout => pyNextBatch ts s'
        | .error e => (some (.error (pyErr e)), s')

/-- `ReadResponse.next_batch`, 350-361: waits in Rust, no signal is looked at. -/
def pyReadBatch (s : SyncResp) : Except PyExc (List SeqEvent) × SyncResp :=
  match syncNextBatch false s with
  | (.ok l, s') => (.ok l, s')
  | (.error e, s') => (.error (pyErr e), s')

inductive PyOp
  | next (ts : List PyTurn)
  | nextBatch (ts : List PyTurn)
  | readBatch

inductive PyOut
  | item (r : Option (Except PyExc SeqEvent))
  | batch (r : Except PyExc (List SeqEvent))
deriving DecidableEq, Repr

def pyOp (s : SyncResp) : PyOp → Option PyOut × SyncResp
  | .next ts => match pyNext ts s with | (r, s') => (r.map .item, s')
  | .nextBatch ts => match pyNextBatch ts s with | (r, s') => (r.map .batch, s')
  | .readBatch => match pyReadBatch s with | (r, s') => (some (.batch r), s')

/-- A program; it stops where a call does not return. -/
def pyRun : SyncResp → List PyOp → List PyOut × SyncResp
  | s, [] => ([], s)
  | s, op :: ops =>
    match pyOp s op with
    | (none, s') => ([], s')
    | (some o, s') => (o :: (pyRun s' ops).1, (pyRun s' ops).2)

/-- The getter `Event.metadata`, 87-90: pairs collected into a map, a later pair replaces an earlier one. -/
def pyMetadata (l : List (String × String)) (k : String) : Option String :=
  l.foldl (fun acc p => if p.1 = k then some p.2 else acc) none

end Uma.Net
