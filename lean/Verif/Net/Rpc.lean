import Verif.Net.Proto
import Verif.Server.Stream

/-!
# Model of the RPC entry points: API key check and argument conversion

umadb-server/src/lib.rs 427-446 (`enforce_api_key`), 449-476 (`read`), 665-694 (`subscribe`), 847-898 (`append`),
900-920 (`head`), 922-955 (`get_tracking_info`); umadb-client/src/lib.rs 1000-1174 for the calling side.
-/

namespace Uma.Net

def bytesOf (s : String) : List UInt8 := s.toUTF8.data.toList

/-- `HeaderValue::to_str` succeeds, and `HeaderValue::from_str` accepts, exactly when all bytes are visible ASCII, space
or tab (http crate, `is_visible_ascii`). -/
def visible (b : UInt8) : Bool := (32 ≤ b && b < 127) || b == 9

/-- Request metadata: header names (lower case) with values; `get` returns the first value. -/
abbrev Metadata := List (String × List UInt8)

def toStr (v : List UInt8) : Option (List UInt8) := if v.all visible then some v else none

/-- `enforce_api_key`, lib.rs 427-446. -/
def enforceApiKey (apiKey : Option String) (md : Metadata) : Except Status Unit :=
  match apiKey with
  | none => .ok ()
  | some expected =>
    let ok := (((md.lookup "authorization").bind toStr).map fun s => decide (s = bytesOf ("Bearer " ++ expected))).getD false
    if ok then .ok () else .error (statusOfErr (.authentication "missing or invalid API key"))

/-- `v1::ReadRequest`. -/
structure PRead where
  query : Option PQuery
  start : Option Nat
  backwards : Option Bool
  limit : Option Nat
  subscribe : Option Bool
  batchSize : Option Nat

/-- The five calls of the service. -/
inductive Call
  | read (r : PRead)
  | subscribe (query : Option PQuery) (after batchSize : Option Nat)
  | append (r : PAppend)
  | head
  | tracking (source : String)

/-- What the server does for an admitted call. -/
inductive Action
  /-- start the read task -/
  | streamRead (a : Server.ReadArgs)
  /-- start the subscription task, after the given position, with this batch size -/
  | streamSubscribe (query : Option Query) (after : Option Nat) (batch : Nat)
  /-- send an append request to the writer thread and wait for its answer -/
  | enqueue (r : Request)
  | readHead
  | readTracking (source : String)

/-- What the five handlers do up to the point where they touch the database. -/
def handle (apiKey : Option String) (md : Metadata) : Call → Except Status Action
  | .read r =>
    match enforceApiKey apiKey md with
    | .error s => .error s
    | .ok () =>
      if r.subscribe.getD false then
        .error (statusOfErr (.invalidArgument "The `subscribe` argument of `read()` has been deprecated. Please call the `subscribe()` method instead."))
      else .ok (.streamRead ⟨r.query.map queryOfP, r.start, r.backwards.getD false, r.limit, Server.batchSizeOf r.batchSize⟩)
  | .subscribe q after b =>
    match enforceApiKey apiKey md with
    | .error s => .error s
    | .ok () => .ok (.streamSubscribe (q.map queryOfP) after (Server.batchSizeOf b))
  | .append r =>
    match enforceApiKey apiKey md with
    | .error s => .error s
    | .ok () =>
      match collect eventOfP r.events with
      | .error e => .error (statusOfErr e)
      | .ok events => .ok (.enqueue ⟨events, r.condition.map conditionOfP, r.tracking.map trackingOfP⟩)
  | .head =>
    match enforceApiKey apiKey md with
    | .error s => .error s
    | .ok () => .ok .readHead
  | .tracking source =>
    match enforceApiKey apiKey md with
    | .error s => .error s
    | .ok () => .ok (.readTracking source)

/-- Configuration of a client: TLS in use, API key, batch size. -/
structure ClientConfig where
  tls : Bool
  apiKey : Option String
  batchSize : Option Nat

/-- `add_auth`, umadb-client/src/lib.rs 1078-1090: the metadata sent. -/
def addAuth (c : ClientConfig) : Except Err Metadata :=
  match c.apiKey with
  | none => .ok []
  | some key =>
    if c.tls = false then
      .error (.transport "API key configured but TLS is not enabled; refusing to send credentials over insecure channel")
    else if (bytesOf ("Bearer " ++ key)).all visible then .ok [("authorization", bytesOf ("Bearer " ++ key))]
    else .error (.transport "invalid API key")

/-- client `append`, 1140-1174 -/
def appendBody (r : Request) : PAppend :=
  ⟨r.events.map eventToP, r.condition.map conditionToP, r.tracking.map trackingToP⟩

/-- client `read`, 1095-1113 -/
def readBody (c : ClientConfig) (query : Option Query) (start : Option Nat) (backwards : Bool) (limit : Option Nat) : PRead :=
  ⟨query.map queryToP, start, some backwards, limit, none, c.batchSize⟩

/-- What a program asks of a client: the methods of `AsyncUmaDbClient` (umadb-client/src/lib.rs 1023-1174).  The blocking
client (1184-1318) calls these. -/
inductive Ask
  | read (query : Option Query) (start : Option Nat) (backwards : Bool) (limit : Option Nat)
  | subscribe (query : Option Query) (after : Option Nat)
  | append (r : Request)
  | head
  | tracking (source : String)

/-- The request body each method builds: 1028-1033, 1102-1113, 1129, 1138-1140, 1153-1168. -/
def Ask.call (c : ClientConfig) : Ask → Call
  | .read query start backwards limit => .read (readBody c query start backwards limit)
  | .subscribe query after => .subscribe (query.map queryToP) after c.batchSize
  | .append r => .append (appendBody r)
  | .head => .head
  | .tracking source => .tracking source

/-- One call from end to end: `add_auth` (nothing is sent if it fails), the server's handler, and the conversion of its
status into an error (client 1034-1038, 1115-1119, 1130-1133, 1141-1144, 1170-1173; server 892-895, 911-917, 948-953).
`serve`: what the rest of the server makes of an admitted call. -/
def roundTrip {α : Type} (c : ClientConfig) (serverKey : Option String) (serve : Action → Except Err α) (a : Ask) : Except Err α :=
  match addAuth c with
  | .error e => .error e
  | .ok md =>
    match handle serverKey md (a.call c) with
    | .error s => .error (errOfStatus s)
    | .ok act =>
      match serve act with
      | .ok x => .ok x
      | .error e => .error (errOfStatus (statusOfErr e))

end Uma.Net
