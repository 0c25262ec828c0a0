import Verif.Spec.Types

/-!
# Model of the wire representation (umadb-proto/src/lib.rs, umadb-proto/proto/v1/umadb.proto)

The protobuf messages are modelled as records; their byte encoding is in `Verif/Net/Wire.lean`.  The textual form of UUIDs
is produced and parsed here as the `uuid` crate does.
-/

namespace Uma.Net

/-! ## UUID text -/

/-- Lower case hexadecimal digit. -/
def hexDigit (n : Nat) : Char := if n < 10 then Char.ofNat (48 + n) else Char.ofNat (87 + n)

/-- Value of a hexadecimal digit of either case (uuid crate, `parser.rs`). -/
def hexVal (c : Char) : Option Nat :=
  if 48 ≤ c.toNat ∧ c.toNat ≤ 57 then some (c.toNat - 48)
  else if 97 ≤ c.toNat ∧ c.toNat ≤ 102 then some (c.toNat - 87)
  else if 65 ≤ c.toNat ∧ c.toNat ≤ 70 then some (c.toNat - 55)
  else none

/-- Two digits per byte. -/
def hexBytes (bs : List UInt8) : List Char :=
  bs.flatMap fun b => [hexDigit (b.toNat / 16), hexDigit (b.toNat % 16)]

def unhex : List Char → Option (List UInt8)
  | [] => some []
  | [_] => none
  | a :: b :: cs =>
    match hexVal a, hexVal b, unhex cs with
    | some x, some y, some bs => some (UInt8.ofNat (16 * x + y) :: bs)
    | _, _, _ => none

/-- `Uuid::to_string` (the hyphenated form 8-4-4-4-12), used at umadb-proto/src/lib.rs 77. -/
def uuidText (u : Uuid) : String :=
  let b := u.toList
  String.ofList (hexBytes (b.take 4) ++ '-' :: (hexBytes ((b.drop 4).take 2) ++ '-' :: (hexBytes ((b.drop 6).take 2) ++
    '-' :: (hexBytes ((b.drop 8).take 2) ++ '-' :: hexBytes (b.drop 10)))))

def toUuid (bs : List UInt8) : Option Uuid := if h : bs.length = 16 then some ⟨bs.toArray, by simpa using h⟩ else none

/-- 36 characters with hyphens at 8, 13, 18, 23. -/
def parseHyphenated (cs : List Char) : Option Uuid :=
  if cs[8]? = some '-' ∧ cs[13]? = some '-' ∧ cs[18]? = some '-' ∧ cs[23]? = some '-' then
    (unhex (cs.take 8 ++ (cs.drop 9).take 4 ++ (cs.drop 14).take 4 ++ (cs.drop 19).take 4 ++ cs.drop 24)).bind toUuid
  else none

/-- `Uuid::parse_str` (uuid crate, `try_parse`): simple, hyphenated, braced and URN forms. -/
def parseUuid (s : String) : Option Uuid :=
  let cs := s.toList
  if cs.length = 32 then (unhex cs).bind toUuid
  else if cs.length = 36 then parseHyphenated cs
  else if cs.length = 38 ∧ cs.head? = some '{' ∧ cs.getLast? = some '}' then parseHyphenated ((cs.drop 1).take 36)
  else if cs.length = 45 ∧ cs.take 9 = "urn:uuid:".toList then parseHyphenated (cs.drop 9)
  else none

/-! ## Messages -/

/-- `v1::Event`; `uuid` is a proto3 string, empty when absent. -/
structure PEvent where
  eventType : String
  tags : List String
  data : List UInt8
  uuid : String
  metadata : List (String × String)
deriving DecidableEq, Repr

structure PTracking where
  source : String
  position : Nat
deriving DecidableEq, Repr

structure PSeqEvent where
  position : Nat
  event : Option PEvent
  tracking : Option PTracking
deriving DecidableEq, Repr

structure PQueryItem where
  types : List String
  tags : List String
deriving DecidableEq, Repr

structure PQuery where
  items : List PQueryItem
deriving DecidableEq, Repr

structure PCondition where
  failIfEventsMatch : Option PQuery
  after : Option Nat
deriving DecidableEq, Repr

structure PAppend where
  events : List PEvent
  condition : Option PCondition
  tracking : Option PTracking
deriving DecidableEq, Repr

/-- `v1::ReadResponse`. -/
structure PResponse where
  events : List PSeqEvent
  head : Option Nat
deriving DecidableEq, Repr

/-! ## Conversions -/

/-- lib.rs 25-32 (and the same construction at 134-137 and in the client). -/
def trackingToP (t : Tracking) : PTracking := ⟨t.source, t.position⟩
/-- lib.rs 16-23 (and the same construction in the server's append and in the client). -/
def trackingOfP (t : PTracking) : Tracking := ⟨t.source, t.position⟩

/-- `From<DcbEvent> for v1::Event`, lib.rs 65-83. -/
def eventToP (e : Event) : PEvent :=
  ⟨e.eventType, e.tags, e.data, (e.uuid.map uuidText).getD "", e.metadata⟩

/-- `TryFrom<v1::Event> for DcbEvent`, lib.rs 34-63. -/
def eventOfP (p : PEvent) : Except Err Event :=
  if p.uuid = "" then .ok ⟨p.eventType, p.data, p.tags, none, p.metadata⟩
  else
    match parseUuid p.uuid with
    | some u => .ok ⟨p.eventType, p.data, p.tags, some u, p.metadata⟩
    | none => .error (.deserialization "Invalid UUID in Event")

/-- lib.rs 94-101. -/
def itemToP (i : QueryItem) : PQueryItem := ⟨i.types, i.tags⟩
/-- lib.rs 85-92. -/
def itemOfP (i : PQueryItem) : QueryItem := ⟨i.types, i.tags⟩
/-- lib.rs 111-117. -/
def queryToP (q : Query) : PQuery := ⟨q.items.map itemToP⟩
/-- lib.rs 103-109. -/
def queryOfP (q : PQuery) : Query := ⟨q.items.map itemOfP⟩

/-- Built in the client's append, umadb-client/src/lib.rs (`condition.map(|c| v1::AppendCondition { .. })`). -/
def conditionToP (c : Condition) : PCondition := ⟨some (queryToP c.failIfEventsMatch), c.after⟩
/-- lib.rs 119-128. -/
def conditionOfP (c : PCondition) : Condition := ⟨(c.failIfEventsMatch.map queryOfP).getD ⟨[]⟩, c.after⟩

/-- `From<DcbSequencedEvent> for v1::SequencedEvent`, lib.rs 130-141. -/
def seqToP (e : SeqEvent) : PSeqEvent := ⟨e.position, some (eventToP e.event), e.tracking.map trackingToP⟩

/-- Collect a list of results, stopping at the first error (`collect::<Result<_, _>>`). -/
def collect {α β : Type} (f : α → Except Err β) : List α → Except Err (List β)
  | [] => .ok []
  | a :: l =>
    match f a with
    | .error e => .error e
    | .ok b =>
      match collect f l with
      | .error e => .error e
      | .ok bs => .ok (b :: bs)

/-- One item of `convert_sequenced_events`. -/
def seqOfP (position : Nat) (tracking : Option PTracking) (p : PEvent) : Except Err SeqEvent :=
  match eventOfP p with
  | .ok ev => .ok ⟨position, ev, tracking.map trackingOfP⟩
  | .error e => .error e

/-- `convert_sequenced_events`, umadb-client/src/lib.rs 94-119: items without event are dropped. -/
def convertSequenced (l : List PSeqEvent) : Except Err (List SeqEvent) :=
  collect (fun x : Nat × Option PTracking × PEvent => seqOfP x.1 x.2.1 x.2.2)
    (l.filterMap fun e => e.event.map fun ev => (e.position, e.tracking, ev))

/-! ## Errors -/

/-- gRPC codes used. `other` stands for all the rest. -/
inductive Code
  | unauthenticated | invalidArgument | failedPrecondition | dataLoss | internal | other
deriving DecidableEq, Repr

/-- `tonic::Status`; `details` is the decoded `ErrorResponse` (message, error_type), `none` when the details are empty
or do not decode. -/
structure Status where
  code : Code
  message : String
  details : Option (String × Nat)
deriving DecidableEq, Repr

/-- `Display` of `DcbError`, umadb-dcb/src/lib.rs 486-533. -/
def display : Err → String
  | .io m => "io error: " ++ m
  | .integrity m => "integrity error: condition failed: " ++ m
  | .corruption m => "corruption detected: " ++ m
  | .invalidArgument m => "invalid argument: " ++ m
  | .initialization m => "initialization error: " ++ m
  | .pageNotFound i => "page not found: " ++ toString i
  | .dirtyPageNotFound i => "dirty page not found: " ++ toString i
  | .rootIdMismatch o n => "root ID mismatched: old " ++ toString o ++ " new " ++ toString n
  | .databaseCorrupted m => "database corrupted: " ++ m
  | .internal m => "internal error: " ++ m
  | .serialization m => "serialization error: " ++ m
  | .deserialization m => "deserialization error: " ++ m
  | .pageAlreadyFreed i => "page already freed: " ++ toString i
  | .pageAlreadyDirty i => "page already dirty: " ++ toString i
  | .transport m => "transport error: " ++ m
  | .cancelledByUser => "cancelled by user"
  | .timeout => "timeout"
  | .authentication m => "authentication error: " ++ m
  | .panic m => m

/-- umadb.proto `ErrorResponse.ErrorType` and the match at lib.rs 145-173. -/
def codeOf : Err → Code × Nat
  | .authentication _ => (.unauthenticated, 5)
  | .invalidArgument _ => (.invalidArgument, 6)
  | .integrity _ => (.failedPrecondition, 2)
  | .corruption _ | .databaseCorrupted _ | .deserialization _ => (.dataLoss, 3)
  | .serialization _ => (.invalidArgument, 1)
  | .internal _ => (.internal, 4)
  | _ => (.internal, 0)

/-- `status_from_dcb_error`, lib.rs 144-181. -/
def statusOfErr (e : Err) : Status := ⟨(codeOf e).1, display e, some (display e, (codeOf e).2)⟩

/-- `dcb_error_from_status`, lib.rs 184-222. -/
def errOfStatus (s : Status) : Err :=
  match s.details with
  | some (m, t) =>
    if t = 5 then .authentication m
    else if t = 6 then .invalidArgument m
    else if t = 2 then .integrity m
    else if t = 3 then .corruption m
    else if t = 1 then .serialization m
    else if t = 4 then .internal m
    else .io m
  | none =>
    match s.code with
    | .unauthenticated => .authentication s.message
    | .invalidArgument => .invalidArgument s.message
    | .failedPrecondition => .integrity s.message
    | .dataLoss => .corruption s.message
    | .internal => .internal s.message
    | .other => .io ("gRPC error: " ++ s.message)

end Uma.Net
