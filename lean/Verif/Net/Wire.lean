import Verif.Net.Rpc
import Verif.Net.Client
import Verif.Codec.Bytes

/-!
# The bytes of the messages and the limit on their size

umadb-proto/proto/v1/umadb.proto fixes the messages; prost 0.14 writes and reads them; tonic 0.14 carries them.  Neither
`into_service` (umadb-server/src/lib.rs 423-425) nor `connect_with_tls_options` (umadb-client/src/lib.rs 1059-1077) sets
`max_decoding_message_size`, so on both sides tonic's default limit for received messages holds: 4 MiB.

prost and tonic are not in /repo; what they do is modelled here from their documented behaviour: fields are written in the
order of their numbers; a field without presence is left out when it has the default value; an optional field is written
when it is there; unknown numbers are skipped; a wrong wire type, a truncated field or text that is not UTF-8 is an error;
a second occurrence of a message field is merged into the first.  Not modelled: the wire types 1, 3, 4 and 5 (no message
here uses them; prost skips such unknown fields, the model rejects them).
-/

namespace Uma.Net

open Uma.Codec (Bytes strBytes bytesStr)

/-! ## Varints and fields -/

/-- `encode_varint`: seven bits a byte, least significant first. -/
def varint (n : Nat) : Bytes := if _h : n < 128 then [UInt8.ofNat n] else UInt8.ofNat (n % 128 + 128) :: varint (n / 128)
termination_by n
decreasing_by omega

/-- `decode_varint` with `k` bytes still allowed: at most ten bytes, and the tenth at most 1. -/
def readVarint : Nat → Bytes → Option (Nat × Bytes)
  | 0, _ => none
  | _ + 1, [] => none
  | k + 1, b :: bs =>
    if b.toNat < 128 then if k = 0 ∧ 2 ≤ b.toNat then none else some (b.toNat, bs)
    else
      match readVarint k bs with
      | none => none
      | some (n, rest) => some (b.toNat - 128 + 128 * n, rest)

/-- The two wire types in use. -/
inductive Wv
  | num (n : Nat)
  | len (bs : Bytes)
deriving DecidableEq, Repr

abbrev Field := Nat × Wv

def renderField : Field → Bytes
  | (k, .num n) => varint (8 * k) ++ varint n
  | (k, .len bs) => varint (8 * k + 2) ++ (varint bs.length ++ bs)

def render (fs : List Field) : Bytes := fs.flatMap renderField

/-- `decode_key` and the value behind it. -/
def parseField (bs : Bytes) : Option (Field × Bytes) :=
  match readVarint 10 bs with
  | none => none
  | some (key, rest) =>
    if 2 ^ 32 ≤ key ∨ key / 8 = 0 then none
    else if key % 8 = 0 then
      match readVarint 10 rest with
      | none => none
      | some (n, rest) => some ((key / 8, .num n), rest)
    else if key % 8 = 2 then
      match readVarint 10 rest with
      | none => none
      | some (n, rest) => if rest.length < n then none else some ((key / 8, .len (rest.take n)), rest.drop n)
    else none

def parseN : Nat → Bytes → Option (List Field)
  | _, [] => some []
  | 0, _ :: _ => none
  | f + 1, b :: bs =>
    match parseField (b :: bs) with
    | none => none
    | some (x, rest) => (parseN f rest).map (x :: ·)

def parse (bs : Bytes) : Option (List Field) := parseN bs.length bs

/-- `merge_field` for one field after the other. -/
def mergeAll {M : Type} (merge : M → Field → Option M) : M → List Field → Option M
  | m, [] => some m
  | m, f :: fs => (merge m f).bind fun m => mergeAll merge m fs

/-- `Message::merge`: read a message into `m`. -/
def into {M : Type} (merge : M → Field → Option M) (m : M) (bs : Bytes) : Option M := (parse bs).bind (mergeAll merge m)

/-- `string` without presence. -/
def strField (k : Nat) (s : String) : List Field := if s = "" then [] else [(k, .len (strBytes s))]
/-- `bytes` without presence. -/
def bytesField (k : Nat) (bs : Bytes) : List Field := if bs = [] then [] else [(k, .len bs)]
/-- `uint64` without presence. -/
def numField (k : Nat) (n : Nat) : List Field := if n = 0 then [] else [(k, .num n)]
/-- optional number -/
def optNum (k : Nat) (o : Option Nat) : List Field := o.toList.map fun n => (k, .num n)
/-- `bool`: 0 or 1 -/
def bit (b : Bool) : Nat := if b then 1 else 0

/-! ## Messages, umadb.proto -/

/-- MetadataEntry, 20-23 -/
def entryFields (e : String × String) : List Field := strField 1 e.1 ++ strField 2 e.2
def mergeEntry (e : String × String) : Field → Option (String × String)
  | (1, .len bs) => (bytesStr bs).map fun s => (s, e.2)
  | (2, .len bs) => (bytesStr bs).map fun s => (e.1, s)
  | (k, _) => if k = 1 ∨ k = 2 then none else some e

/-- Event, 6-17 -/
def eventFields (e : PEvent) : List Field :=
  strField 1 e.eventType ++ e.tags.map (fun t => (2, .len (strBytes t))) ++ bytesField 3 e.data ++ strField 4 e.uuid ++
    e.metadata.map (fun m => (5, .len (render (entryFields m))))
def mergeEvent (e : PEvent) : Field → Option PEvent
  | (1, .len bs) => (bytesStr bs).map fun s => { e with eventType := s }
  | (2, .len bs) => (bytesStr bs).map fun s => { e with tags := e.tags ++ [s] }
  | (3, .len bs) => some { e with data := bs }
  | (4, .len bs) => (bytesStr bs).map fun s => { e with uuid := s }
  | (5, .len bs) => (into mergeEntry ("", "") bs).map fun m => { e with metadata := e.metadata ++ [m] }
  | (k, _) => if 1 ≤ k ∧ k ≤ 5 then none else some e
def noEvent : PEvent := ⟨"", [], [], "", []⟩

/-- TrackingInfo, 99-104 -/
def trackingFields (t : PTracking) : List Field := strField 1 t.source ++ numField 2 t.position
def mergeTracking (t : PTracking) : Field → Option PTracking
  | (1, .len bs) => (bytesStr bs).map fun s => { t with source := s }
  | (2, .num n) => some { t with position := n }
  | (k, _) => if k = 1 ∨ k = 2 then none else some t
def noTracking : PTracking := ⟨"", 0⟩

/-- SequencedEvent, 26-33 -/
def seqFields (e : PSeqEvent) : List Field :=
  numField 1 e.position ++ e.event.toList.map (fun e => (2, .len (render (eventFields e)))) ++
    e.tracking.toList.map (fun t => (3, .len (render (trackingFields t))))
def mergeSeq (e : PSeqEvent) : Field → Option PSeqEvent
  | (1, .num n) => some { e with position := n }
  | (2, .len bs) => (into mergeEvent (e.event.getD noEvent) bs).map fun x => { e with event := some x }
  | (3, .len bs) => (into mergeTracking (e.tracking.getD noTracking) bs).map fun x => { e with tracking := some x }
  | (k, _) => if 1 ≤ k ∧ k ≤ 3 then none else some e
def noSeq : PSeqEvent := ⟨0, none, none⟩

/-- ReadResponse, 76-81; SubscribeResponse, 94-96, is the same without `head`. -/
def responseFields (r : PResponse) : List Field :=
  r.events.map (fun e => (1, .len (render (seqFields e)))) ++ optNum 2 r.head
def mergeResponse (r : PResponse) : Field → Option PResponse
  | (1, .len bs) => (into mergeSeq noSeq bs).map fun x => { r with events := r.events ++ [x] }
  | (2, .num n) => some { r with head := some n }
  | (k, _) => if k = 1 ∨ k = 2 then none else some r
def noResponse : PResponse := ⟨[], none⟩

/-- QueryItem, 36-41 -/
def itemFields (i : PQueryItem) : List Field :=
  i.types.map (fun t => (1, .len (strBytes t))) ++ i.tags.map (fun t => (2, .len (strBytes t)))
def mergeItem (i : PQueryItem) : Field → Option PQueryItem
  | (1, .len bs) => (bytesStr bs).map fun s => { i with types := i.types ++ [s] }
  | (2, .len bs) => (bytesStr bs).map fun s => { i with tags := i.tags ++ [s] }
  | (k, _) => if k = 1 ∨ k = 2 then none else some i

/-- Query, 44-47 -/
def queryFields (q : PQuery) : List Field := q.items.map (fun i => (1, .len (render (itemFields i))))
def mergeQuery (q : PQuery) : Field → Option PQuery
  | (1, .len bs) => (into mergeItem ⟨[], []⟩ bs).map fun i => { q with items := q.items ++ [i] }
  | (k, _) => if k = 1 then none else some q

/-- AppendCondition, 50-57 -/
def conditionFields (c : PCondition) : List Field :=
  c.failIfEventsMatch.toList.map (fun q => (1, .len (render (queryFields q)))) ++ optNum 2 c.after
def mergeCondition (c : PCondition) : Field → Option PCondition
  | (1, .len bs) => (into mergeQuery (c.failIfEventsMatch.getD ⟨[]⟩) bs).map fun q => { c with failIfEventsMatch := some q }
  | (2, .num n) => some { c with after := some n }
  | (k, _) => if k = 1 ∨ k = 2 then none else some c

/-- AppendRequest, 107-114 -/
def appendFields (a : PAppend) : List Field :=
  a.events.map (fun e => (1, .len (render (eventFields e)))) ++
    a.condition.toList.map (fun c => (2, .len (render (conditionFields c)))) ++
    a.tracking.toList.map (fun t => (3, .len (render (trackingFields t))))
def mergeAppend (a : PAppend) : Field → Option PAppend
  | (1, .len bs) => (into mergeEvent noEvent bs).map fun e => { a with events := a.events ++ [e] }
  | (2, .len bs) => (into mergeCondition (a.condition.getD ⟨none, none⟩) bs).map fun c => { a with condition := some c }
  | (3, .len bs) => (into mergeTracking (a.tracking.getD noTracking) bs).map fun t => { a with tracking := some t }
  | (k, _) => if 1 ≤ k ∧ k ≤ 3 then none else some a

/-- ReadRequest, 60-73 (`uint32` is read as a varint and truncated) -/
def readFields (r : PRead) : List Field :=
  r.query.toList.map (fun q => (1, .len (render (queryFields q)))) ++ optNum 2 r.start ++ optNum 3 (r.backwards.map bit) ++
    optNum 4 r.limit ++ optNum 5 (r.subscribe.map bit) ++ optNum 6 r.batchSize
def mergeRead (r : PRead) : Field → Option PRead
  | (1, .len bs) => (into mergeQuery (r.query.getD ⟨[]⟩) bs).map fun q => { r with query := some q }
  | (2, .num n) => some { r with start := some n }
  | (3, .num n) => some { r with backwards := some (n != 0) }
  | (4, .num n) => some { r with limit := some (n % 2 ^ 32) }
  | (5, .num n) => some { r with subscribe := some (n != 0) }
  | (6, .num n) => some { r with batchSize := some (n % 2 ^ 32) }
  | (k, _) => if 1 ≤ k ∧ k ≤ 6 then none else some r

/-- SubscribeRequest, 84-91 -/
def subscribeFields (r : Option PQuery × Option Nat × Option Nat) : List Field :=
  r.1.toList.map (fun q => (1, .len (render (queryFields q)))) ++ optNum 2 r.2.1 ++ optNum 3 r.2.2
def mergeSubscribe (r : Option PQuery × Option Nat × Option Nat) : Field → Option (Option PQuery × Option Nat × Option Nat)
  | (1, .len bs) => (into mergeQuery (r.1.getD ⟨[]⟩) bs).map fun q => (some q, r.2.1, r.2.2)
  | (2, .num n) => some (r.1, some n, r.2.2)
  | (3, .num n) => some (r.1, r.2.1, some (n % 2 ^ 32))
  | (k, _) => if 1 ≤ k ∧ k ≤ 3 then none else some r

/-- AppendResponse, 117-120: a plain number in field 1 -/
def mergeNum (n : Nat) : Field → Option Nat
  | (1, .num m) => some m
  | (k, _) => if k = 1 then none else some n

/-- HeadResponse 127-130 and TrackingResponse 139-142: an optional number in field 1 -/
def mergeOptNum (o : Option Nat) : Field → Option (Option Nat)
  | (1, .num m) => some (some m)
  | (k, _) => if k = 1 then none else some o

/-- TrackingRequest, 133-136: a string in field 1 -/
def mergeStr (s : String) : Field → Option String
  | (1, .len bs) => bytesStr bs
  | (k, _) => if k = 1 then none else some s

/-- ErrorResponse, 145-168: the details of a status; the error type is an enumeration -/
def errorFields (e : String × Nat) : List Field := strField 1 e.1 ++ numField 2 e.2
def mergeError (e : String × Nat) : Field → Option (String × Nat)
  | (1, .len bs) => (bytesStr bs).map fun s => (s, e.2)
  | (2, .num n) => some (e.1, n)
  | (k, _) => if k = 1 ∨ k = 2 then none else some e

/-! ## Carrying a message -/

/-- tonic's `DEFAULT_MAX_RECV_MESSAGE_SIZE`. -/
def recvLimit : Nat := 4194304

def tooLarge (n : Nat) : Status :=
  ⟨.other, s!"Error, decoded message length too large: found {n} bytes, the limit is: {recvLimit} bytes", none⟩
/-- The sender's own limit: the length has four bytes. -/
def tooLong (n : Nat) : Status :=
  ⟨.other, s!"Cannot return body with more than 4GB of data but got {n} bytes", none⟩
def undecodable : Status := ⟨.internal, "failed to decode Protobuf message", none⟩

/-- A message goes from one side to the other: tonic's encoder, its decoder's size check, and prost. -/
def carry {M : Type} (merge : M → Field → Option M) (zero : M) (fields : M → List Field) (m : M) : Except Status M :=
  let bs := render (fields m)
  if 2 ^ 32 ≤ bs.length then .error (tooLong bs.length)
  else if recvLimit < bs.length then .error (tooLarge bs.length)
  else
    match into merge zero bs with
    | some m => .ok m
    | none => .error undecodable

/-- A stream of responses: after an error nothing more is delivered. -/
def transport : Incoming → Incoming
  | [] => []
  | .error s :: _ => [.error s]
  | .ok r :: rest =>
    match carry mergeResponse noResponse responseFields r with
    | .ok r => .ok r :: transport rest
    | .error s => [.error s]

/-- A request on its way to the handlers. -/
def carryCall : Call → Except Status Call
  | .read r => (carry mergeRead ⟨none, none, none, none, none, none⟩ readFields r).map .read
  | .subscribe q after b =>
    (carry mergeSubscribe (none, none, none) subscribeFields (q, after, b)).map fun x => .subscribe x.1 x.2.1 x.2.2
  | .append r => (carry mergeAppend ⟨[], none, none⟩ appendFields r).map .append
  | .head => .ok .head
  | .tracking source => (carry mergeStr "" (strField 1) source).map .tracking

/-- `roundTrip` with the request carried as bytes.  (A call refused by tonic never reaches the handler.) -/
def roundTripWire {α : Type} (c : ClientConfig) (serverKey : Option String) (serve : Action → Except Err α) (a : Ask) : Except Err α :=
  match addAuth c with
  | .error e => .error e
  | .ok md =>
    match carryCall (a.call c) with
    | .error s => .error (errOfStatus s)
    | .ok call =>
      match handle serverKey md call with
      | .error s => .error (errOfStatus s)
      | .ok act =>
        match serve act with
        | .ok x => .ok x
        | .error e => .error (errOfStatus (statusOfErr e))

end Uma.Net
