/-!
# Model of the registry of open streams (umadb-client/src/lib.rs 789-835, 1023-1057, 1096-1127, 1181-1187)

Each client has a registry from fresh numbers to the cancel handles of its streams; a response holds a guard that takes its
entry out when it is dropped.  `close`, and dropping the client, drain the registry and call the handles.  Handles are
represented by the number of the stream in order of opening.  The 64-bit counter does not wrap.
-/

namespace Uma.Net

/-- `StreamRegistry`, 795-798. -/
structure Registry where
  nextId : Nat
  active : List (Nat × Nat)

/-- `HashMap::insert`. -/
def put (k v : Nat) (l : List (Nat × Nat)) : List (Nat × Nat) := (k, v) :: l.filter (fun p => p.1 ≠ k)

/-- `register`, 803-812: the guard's number and the registry. -/
def Registry.register (r : Registry) (handle : Nat) : Nat × Registry := (r.nextId, ⟨r.nextId + 1, put r.nextId handle r.active⟩)

/-- `StreamGuard::drop`, 829-833. -/
def Registry.deregister (r : Registry) (id : Nat) : Registry := { r with active := r.active.filter (fun p => p.1 ≠ id) }

/-- `cancel_all`, 815-820: the handles that are called. -/
def Registry.drain (r : Registry) : List Nat × Registry := (r.active.map (·.2), { r with active := [] })

/-- A stream: the client that opened it, the number of its guard, whether a cancel signal was sent to it. -/
structure Strm where
  client : Nat
  guard : Nat
  cancelled : Bool
deriving DecidableEq, Repr

/-- The registries of all clients of the process, and all streams in order of opening. -/
structure Proc where
  regs : Nat → Registry
  streams : List Strm

def Proc.start : Proc := ⟨fun _ => ⟨0, []⟩, []⟩

inductive Act
  /-- `read` or `subscribe` of client `c` -/
  | opens (c : Nat)
  /-- the response `i` is dropped -/
  | drops (i : Nat)
  /-- `cancel` of response `i` -/
  | cancels (i : Nat)
  /-- `close` of client `c`, or the client is dropped -/
  | closes (c : Nat)
  /-- `cancel_all_stream_responses` -/
  | cancelsAll
deriving DecidableEq, Repr

def setReg (regs : Nat → Registry) (c : Nat) (r : Registry) : Nat → Registry := fun x => if x = c then r else regs x

/-- A signal on the stream's own channel. -/
def signal (i : Nat) (l : List Strm) : List Strm := l.modify i (fun s => { s with cancelled := true })

def Proc.act (p : Proc) : Act → Proc
  | .opens c =>
    let (id, r) := (p.regs c).register p.streams.length
    ⟨setReg p.regs c r, p.streams ++ [⟨c, id, false⟩]⟩
  | .drops i =>
    match p.streams[i]? with
    | some s => { p with regs := setReg p.regs s.client ((p.regs s.client).deregister s.guard) }
    | none => p
  | .cancels i => { p with streams := signal i p.streams }
  | .closes c =>
    let (hs, r) := (p.regs c).drain
    ⟨setReg p.regs c r, hs.foldl (fun l i => signal i l) p.streams⟩
  | .cancelsAll => { p with streams := p.streams.map (fun s => { s with cancelled := true }) }

def Proc.run (p : Proc) (as : List Act) : Proc := as.foldl Proc.act p

end Uma.Net
