/-!
# Data types of the public API

Read from `umadb-dcb/src/lib.rs`: `DcbQueryItem` 262-303, `DcbQuery` 305-344, `DcbAppendCondition` 346-368,
`DcbEvent` 370-465, `TrackingInfo` 467-472, `DcbSequencedEvent` 474-484, `DcbError` 486-535.

Numbers that are `u64`/`u32` in Rust are `Nat` here; the only place where their range matters for the request
logic (`after + 1`) is modelled explicitly with wrap-around.  Byte strings are `List UInt8`, UUIDs 16 bytes.
-/

namespace Uma

abbrev Uuid := Vector UInt8 16

structure Tracking where
  source : String
  position : Nat
deriving DecidableEq, Repr, Inhabited

structure Event where
  eventType : String
  data : List UInt8
  tags : List String
  uuid : Option Uuid
  metadata : List (String × String)
deriving DecidableEq, Repr

instance : Inhabited Event := ⟨⟨"", [], [], none, []⟩⟩

/-- `EventRecord`, umadb-core/src/events_tree_nodes.rs 12-20: an event together with the tracking info given
when it was appended. -/
structure Record where
  event : Event
  tracking : Option Tracking
deriving DecidableEq, Repr, Inhabited

structure SeqEvent where
  position : Nat
  event : Event
  tracking : Option Tracking
deriving DecidableEq, Repr, Inhabited

structure QueryItem where
  types : List String
  tags : List String
deriving DecidableEq, Repr

structure Query where
  items : List QueryItem
deriving DecidableEq, Repr

structure Condition where
  failIfEventsMatch : Query
  after : Option Nat
deriving DecidableEq, Repr

/-- One append request as it reaches the store (`DcbEventStoreSync::append` arguments). -/
structure Request where
  events : List Event
  condition : Option Condition
  tracking : Option Tracking
deriving DecidableEq, Repr

/-- `DcbError`, umadb-dcb/src/lib.rs 486-533.  `panic` is not a Rust error value: it stands for a Rust panic
(index out of bounds, arithmetic underflow), which the release profile turns into process abort. -/
inductive Err where
  | io (msg : String)
  | integrity (msg : String)
  | corruption (msg : String)
  | invalidArgument (msg : String)
  | initialization (msg : String)
  | pageNotFound (id : Nat)
  | dirtyPageNotFound (id : Nat)
  | rootIdMismatch (old new : Nat)
  | databaseCorrupted (msg : String)
  | internal (msg : String)
  | serialization (msg : String)
  | deserialization (msg : String)
  | pageAlreadyFreed (id : Nat)
  | pageAlreadyDirty (id : Nat)
  | transport (msg : String)
  | cancelledByUser
  | timeout
  | authentication (msg : String)
  | panic (msg : String)
deriving DecidableEq, Repr, Inhabited

deriving instance DecidableEq for Except
deriving instance Repr for Except

end Uma
