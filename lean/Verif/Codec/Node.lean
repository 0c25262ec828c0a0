import Verif.Codec.Bytes

/-!
# Page contents and their byte formats

Nodes of the four trees, umadb-core/src: events_tree_nodes.rs, tags_tree_nodes.rs, tracking_tree_nodes.rs,
free_lists_tree_nodes.rs, header_node.rs, node.rs.  Page ids, positions and transaction numbers (`u64`) are `Nat`;
a tag hash (16 bytes) is the number whose big-endian representation it is, so that the order of hashes is the order of
numbers.  `kw` is the on-disk tag key width (`TAG_KEY_WIDTH_BYTES`, tags_tree_nodes.rs 14: 16, or 8 for schema 0).
-/

namespace Uma.Codec

/-- `HeaderNode`, header_node.rs 17-28. -/
structure Header where
  tsn : Nat
  freeRoot : Nat
  eventsRoot : Nat
  tagsRoot : Nat
  nextPage : Nat
  nextPosition : Nat
  schema : Nat
  trackRoot : Nat
deriving DecidableEq, Repr, Inhabited

/-- `EventValue`, events_tree_nodes.rs 22-35. -/
inductive EventValue where
  | inline (r : Record)
  | overflow (eventType : String) (dataLen : Nat) (tags : List String) (root : Nat) (uuid : Option Uuid)
      (metaLen : Nat) (tracking : Option Tracking)
deriving DecidableEq, Repr

/-- `FreeListLeafValue`, free_lists_tree_nodes.rs 12-16. -/
structure FreeValue where
  pageIds : List Nat
  root : Nat
deriving DecidableEq, Repr, Inhabited

/-- `TagsLeafValue`, tags_tree_nodes.rs 39-46. -/
structure TagsValue where
  root : Nat
  positions : List Nat
deriving DecidableEq, Repr, Inhabited

/-- `Node`, node.rs 27-43. -/
inductive Node where
  | header (h : Header)
  | freeLeaf (keys : List Nat) (values : List FreeValue)
  | freeInternal (keys kids : List Nat)
  | eventLeaf (keys : List Nat) (values : List EventValue)
  | eventInternal (keys kids : List Nat)
  | eventOverflow (next : Nat) (data : Bytes)
  | tagsLeaf (keys : List Nat) (values : List TagsValue)
  | tagsInternal (keys kids : List Nat)
  | tagLeaf (positions : List Nat)
  | tagInternal (keys kids : List Nat)
  | tsnLeaf (pageIds : List Nat)
  | tsnInternal (keys kids : List Nat)
  | trackLeaf (keys : List String) (values : List Nat)
  | trackInternal (keys : List String) (kids : List Nat)
deriving DecidableEq, Repr

/-! ## Sizes computed beforehand -/

/-- `metadata_serialized_size`, events_tree_nodes.rs 219-225. -/
def metadataSize (m : List (String × String)) : Nat :=
  2 + (m.map fun e => 2 + e.1.utf8ByteSize + 2 + e.2.utf8ByteSize).sum

/-- Size of a tag list, 359-364. -/
def tagsSize (tags : List String) : Nat := 2 + (tags.map fun t => 2 + t.utf8ByteSize).sum

/-- Size of the optional tracking info, 371-373 (4 bytes are counted for a length written in 2). -/
def trackingSize : Option Tracking → Nat
  | none => 0
  | some t => 4 + t.source.utf8ByteSize + 8

/-- Size of one value, events_tree_nodes.rs 347-407. -/
def valueSize : EventValue → Nat
  | .inline r =>
    1 + (2 + r.event.eventType.utf8ByteSize) + (2 + r.event.data.length) + tagsSize r.event.tags +
      (if r.event.uuid.isSome then 16 else 0) +
      (if r.event.metadata.isEmpty then 0 else metadataSize r.event.metadata) + trackingSize r.tracking
  | .overflow et _ tags _ uuid metaLen tracking =>
    1 + (2 + et.utf8ByteSize) + 8 + tagsSize tags + 8 + (if uuid.isSome then 16 else 0) +
      (if metaLen > 0 then 8 else 0) + trackingSize tracking

/-- `calc_serialized_size` of the node types: header_node.rs 48-59; free_lists_tree_nodes.rs 23-44, 164-178, 275-278,
332-335; events_tree_nodes.rs 339-410, 670-673, 700-711; tags_tree_nodes.rs 55-66, 145-149, 239-242, 299-302;
tracking_tree_nodes.rs 22-34, 229-240. -/
def nodeSize (kw : Nat) : Node → Nat
  | .header h => if h.trackRoot ≠ 0 then 62 else 52
  | .freeLeaf keys values => 2 + keys.length * 8 + (values.map fun v => 2 + v.pageIds.length * 8 + 8).sum
  | .freeInternal keys kids => 2 + keys.length * 8 + 2 + kids.length * 8
  | .eventLeaf keys values => 2 + keys.length * 8 + (values.map valueSize).sum
  | .eventInternal keys kids => 2 + keys.length * 8 + kids.length * 8
  | .eventOverflow _ data => 8 + data.length
  | .tagsLeaf keys values => 2 + keys.length * kw + (values.map fun v => 8 + 2 + v.positions.length * 8).sum
  | .tagsInternal keys kids => 2 + keys.length * kw + kids.length * 8
  | .tagLeaf positions => 2 + positions.length * 8
  | .tagInternal keys kids => 2 + keys.length * 8 + kids.length * 8
  | .tsnLeaf ids => 2 + ids.length * 8
  | .tsnInternal keys kids => 2 + keys.length * 8 + 2 + kids.length * 8
  | .trackLeaf keys values => 1 + 2 + (keys.map fun k => 1 + k.utf8ByteSize).sum + 8 * values.length
  | .trackInternal keys _ => 1 + 2 + (keys.map fun k => 1 + k.utf8ByteSize).sum + 8 * (keys.length + 1)

/-- `PAGE_HEADER_SIZE`, page.rs 18. -/
def pageHeaderSize : Nat := 9

/-- `Page::calc_serialized_size`, page.rs 30-33. -/
def pageSizeOf (kw : Nat) (n : Node) : Nat := pageHeaderSize + nodeSize kw n

/-! ## Writing -/

/-- String with a 2-byte length in front. -/
def str16 (s : String) : Bytes := le 2 s.utf8ByteSize ++ strBytes s

/-- `serialize_metadata_into`, events_tree_nodes.rs 228-252. -/
def encMetadata (m : List (String × String)) : Bytes :=
  le 2 m.length ++ m.flatMap fun e => str16 e.1 ++ str16 e.2

def encTags (tags : List String) : Bytes := le 2 tags.length ++ tags.flatMap str16

/-- events_tree_nodes.rs 470-475. -/
def encTracking : Option Tracking → Bytes
  | none => []
  | some t => str16 t.source ++ le 8 t.position

def encUuid : Option Uuid → Bytes
  | none => []
  | some u => u.toArray.toList

/-- `EventValueFlags`, events_tree_nodes.rs 324-332. -/
def flagByte (overflow uuid metadata tracking : Bool) : Nat :=
  (if overflow then 1 else 0) + (if uuid then 2 else 0) + (if metadata then 4 else 0) + (if tracking then 8 else 0)

/-- One value, events_tree_nodes.rs 424-528. -/
def encValue : EventValue → Bytes
  | .inline r =>
    le 1 (flagByte false r.event.uuid.isSome (!r.event.metadata.isEmpty) r.tracking.isSome) ++
    (str16 r.event.eventType ++ (le 2 r.event.data.length ++ (r.event.data ++ (encTags r.event.tags ++
    (encUuid r.event.uuid ++ ((if r.event.metadata.isEmpty then [] else encMetadata r.event.metadata) ++
    encTracking r.tracking))))))
  | .overflow et dataLen tags root uuid metaLen tracking =>
    le 1 (flagByte true uuid.isSome (decide (metaLen > 0)) tracking.isSome) ++
    (str16 et ++ (le 8 dataLen ++ (encTags tags ++ (le 8 root ++ (encUuid uuid ++
    ((if metaLen > 0 then le 8 metaLen else []) ++ encTracking tracking))))))

/-- `HeaderNode::serialize_into`, header_node.rs 61-95. -/
def encHeader (h : Header) : Bytes :=
  le 8 h.tsn ++ (le 8 h.nextPage ++ (le 8 h.freeRoot ++ (le 8 h.eventsRoot ++ (le 8 h.tagsRoot ++ (le 8 h.nextPosition ++
  (le 4 h.schema ++ (if h.trackRoot ≠ 0 then le 2 1 ++ le 8 h.trackRoot else [])))))))

def ints (l : List Nat) : Bytes := l.flatMap (le 8)

/-- Tracking key: one length byte, tracking_tree_nodes.rs 48-60. -/
def str8 (s : String) : Bytes := le 1 s.utf8ByteSize ++ strBytes s

/-- The bytes written by `serialize_into` of each node type: free_lists_tree_nodes.rs 46-71, 180-203, 280-293, 337-360;
events_tree_nodes.rs 413-531, 675-685, 713-731; tags_tree_nodes.rs 68-96, 151-171, 244-257, 304-322;
tracking_tree_nodes.rs 36-69, 242-272. -/
def encode (kw : Nat) : Node → Bytes
  | .header h => encHeader h
  | .freeLeaf keys values =>
    le 2 keys.length ++ (ints keys ++ values.flatMap fun v => le 2 v.pageIds.length ++ (ints v.pageIds ++ le 8 v.root))
  | .freeInternal keys kids => le 2 keys.length ++ (ints keys ++ (le 2 kids.length ++ ints kids))
  | .eventLeaf keys values => le 2 keys.length ++ (ints keys ++ values.flatMap encValue)
  | .eventInternal keys kids => le 2 keys.length ++ (ints keys ++ ints kids)
  | .eventOverflow next data => le 8 next ++ data
  | .tagsLeaf keys values =>
    le 2 keys.length ++ ((keys.flatMap fun k => (be 16 k).take kw) ++
      values.flatMap fun v => le 8 v.root ++ (le 2 v.positions.length ++ ints v.positions))
  | .tagsInternal keys kids => le 2 keys.length ++ ((keys.flatMap fun k => (be 16 k).take kw) ++ ints kids)
  | .tagLeaf positions => le 2 positions.length ++ ints positions
  | .tagInternal keys kids => le 2 keys.length ++ (ints keys ++ ints kids)
  | .tsnLeaf ids => le 2 ids.length ++ ints ids
  | .tsnInternal keys kids => le 2 keys.length ++ (ints keys ++ (le 2 kids.length ++ ints kids))
  | .trackLeaf keys values => le 1 1 ++ (le 2 keys.length ++ (keys.flatMap str8 ++ ints values))
  | .trackInternal keys kids => le 1 1 ++ (le 2 keys.length ++ (keys.flatMap str8 ++ ints kids))

/-- Keys `u8::try_from(kb.len())` refuses, tracking_tree_nodes.rs 49-56 and 254-261. -/
def keysTooLong : Node → Bool
  | .trackLeaf keys _ => keys.any fun k => decide (k.utf8ByteSize > 255)
  | .trackInternal keys _ => keys.any fun k => decide (k.utf8ByteSize > 255)
  | _ => false

/-- `Node::serialize_into` with room for `cap` bytes: `write_all` on a cursor fails when the buffer is full. -/
def serializeNode (kw cap : Nat) (n : Node) : Except Err Bytes :=
  if keysTooLong n then .error (.io "tracking key too long to serialize (len > 255)")
  else if (encode kw n).length > cap then .error (.io "failed to write whole buffer")
  else .ok (encode kw n)

/-- `get_type_byte`, node.rs 46-63. -/
def typeByte : Node → Nat
  | .header _ => 0x31
  | .freeLeaf .. => 0x32
  | .freeInternal .. => 0x33
  | .eventLeaf .. => 0x34
  | .eventInternal .. => 0x35
  | .tagsLeaf .. => 0x36
  | .tagsInternal .. => 0x37
  | .tagLeaf .. => 0x38
  | .tagInternal .. => 0x39
  | .eventOverflow .. => 0x61
  | .tsnLeaf .. => 0x62
  | .tsnInternal .. => 0x63
  | .trackLeaf .. => 0x64
  | .trackInternal .. => 0x65

/-! ## Reading -/

open Reader (bind)

def decStr16 : Reader String := (readInt 2).bind readString

/-- `read_metadata`, events_tree_nodes.rs 263-278. -/
def decMetadata : Reader (List (String × String)) :=
  (readInt 2).bind (readMany (decStr16.bind fun k => decStr16.bind fun v => Reader.pure (k, v)))

def decTags : Reader (List String) := (readInt 2).bind (readMany decStr16)

/-- `read_tracking_info`, 288-293. -/
def decTracking : Reader Tracking := decStr16.bind fun s => (readInt 8).bind fun p => Reader.pure ⟨s, p⟩

/-- A field present only if its flag is set. -/
def optionally {α} (flag : Bool) (r : Reader α) : Reader (Option α) :=
  if flag then r.bind fun a => Reader.pure (some a) else Reader.pure none

/-- `flags.contains`. -/
def flagSet (flags i : Nat) : Bool := flags / 2 ^ i % 2 = 1

/-- Inline event, events_tree_nodes.rs 563-601. -/
def decInline (flags : Nat) (et : String) : Reader EventValue :=
  (readInt 2).bind fun n => (readBytes n).bind fun data => decTags.bind fun tags =>
  (optionally (flagSet flags 1) readUuid).bind fun uuid =>
  (optionally (flagSet flags 2) decMetadata).bind fun md =>
  (optionally (flagSet flags 3) decTracking).bind fun tr =>
  Reader.pure (.inline ⟨⟨et, data, tags, uuid, md.getD []⟩, tr⟩)

/-- Overflow event, events_tree_nodes.rs 602-640. -/
def decOverflow (flags : Nat) (et : String) : Reader EventValue :=
  (readInt 8).bind fun dataLen => decTags.bind fun tags => (readInt 8).bind fun root =>
  (optionally (flagSet flags 1) readUuid).bind fun uuid =>
  (optionally (flagSet flags 2) (readInt 8)).bind fun ml =>
  (optionally (flagSet flags 3) decTracking).bind fun tr =>
  Reader.pure (.overflow et dataLen tags root uuid (ml.getD 0) tr)

/-- One value, events_tree_nodes.rs 547-640. -/
def decValue : Reader EventValue :=
  (readInt 1).bind fun flags =>
  if flags ≥ 16 then Reader.fail (.deserialization "unknown flag bits set")
  else decStr16.bind fun et => if flagSet flags 0 then decOverflow flags et else decInline flags et

/-- Read if at least `n` bytes are left, else the default, header_node.rs 134-151. -/
def ifRoom {α} (n : Nat) (r : Reader α) (dflt : α) : Reader α :=
  remaining.bind fun k => if k ≥ n then r else Reader.pure dflt

/-- `HeaderNode::from_slice`, header_node.rs 121-171. -/
def decHeader : Reader Header :=
  (readInt 8).bind fun tsn => (readInt 8).bind fun nextPage => (readInt 8).bind fun freeRoot =>
  (readInt 8).bind fun eventsRoot => (readInt 8).bind fun tagsRoot => (readInt 8).bind fun nextPosition =>
  (ifRoom 4 (readInt 4) 0).bind fun schema =>
  (ifRoom 2 (readInt 2) 0).bind fun flags =>
  if flags ≥ 2 then Reader.fail (.deserialization "unknown flag bits set")
  else (optionally (flagSet flags 0) (readInt 8)).bind fun tr =>
    Reader.pure ⟨tsn, freeRoot, eventsRoot, tagsRoot, nextPage, nextPosition, schema, tr.getD 0⟩

def decInts (n : Nat) : Reader (List Nat) := readMany (readInt 8) n

/-- Checked narrowing `u16::try_from`/`u8::try_from`, tracking_tree_nodes.rs 77-100. -/
def narrow (max : Nat) (r : Reader Nat) : Reader Nat :=
  r.bind fun n => if n > max then Reader.fail (.deserialization "v0 tracking leaf value too large") else Reader.pure n

/-- Order used for sorting old tracking pages, tracking_tree_nodes.rs 117. -/
def keyLe (a b : String × Nat) : Bool := decide (¬ b.1 < a.1)

/-- `TrackingLeafNode::from_slice`, tracking_tree_nodes.rs 71-128. -/
def decTrackLeaf : Reader Node :=
  (readInt 1).bind fun ver =>
  (if ver = 0 then narrow 65535 (readInt 4) else readInt 2).bind fun count =>
  (readMany ((if ver = 0 then narrow 255 (readInt 4) else readInt 1).bind readString) count).bind fun keys =>
  (decInts count).bind fun values =>
  if ver = 0 then
    let pairs := (keys.zip values).mergeSort keyLe
    Reader.pure (.trackLeaf (pairs.map (·.1)) (pairs.map (·.2)))
  else Reader.pure (.trackLeaf keys values)

/-- `TrackingInternalNode::from_slice`, tracking_tree_nodes.rs 274-306. -/
def decTrackInternal : Reader Node :=
  (readInt 1).bind fun ver =>
  if ver = 0 then Reader.fail (.deserialization "unsupported tracking internal version 0")
  else (readInt 2).bind fun count => (readMany ((readInt 1).bind readString) count).bind fun keys =>
    (decInts (keys.length + 1)).bind fun kids => Reader.pure (.trackInternal keys kids)

/-- Internal nodes whose child count is implied, events_tree_nodes.rs 733-757, tags_tree_nodes.rs 324-347. -/
def decImplied (mk : List Nat → List Nat → Node) (key : Reader Nat) : Reader Node :=
  (readInt 2).bind fun n => (readMany key n).bind fun keys => (decInts (n + 1)).bind fun kids => Reader.pure (mk keys kids)

/-- Internal nodes with an explicit child count, free_lists_tree_nodes.rs 219-242, 362-383. -/
def decExplicit (mk : List Nat → List Nat → Node) : Reader Node :=
  (readInt 2).bind fun n => (decInts n).bind fun keys => (readInt 2).bind fun c => (decInts c).bind fun kids =>
  Reader.pure (mk keys kids)

def decFreeValue : Reader FreeValue :=
  (readInt 2).bind fun n => (decInts n).bind fun ids => (readInt 8).bind fun root => Reader.pure ⟨ids, root⟩

def decTagsValue : Reader TagsValue :=
  (readInt 8).bind fun root => (readInt 2).bind fun n => (decInts n).bind fun ps => Reader.pure ⟨root, ps⟩

/-- Leaf with keys and one value per key, events_tree_nodes.rs 533-652, tags_tree_nodes.rs 98-126,
free_lists_tree_nodes.rs 88-118. -/
def decLeaf {ν} (mk : List Nat → List ν → Node) (key : Reader Nat) (value : Reader ν) : Reader Node :=
  (readInt 2).bind fun n => (readMany key n).bind fun keys => (readMany value n).bind fun values =>
  Reader.pure (mk keys values)

/-- `EventOverflowNode::from_slice`, events_tree_nodes.rs 687-697. -/
def decEventOverflow : Reader Node :=
  (readInt 8).bind fun next => remaining.bind fun n => (readBytes n).bind fun data => Reader.pure (.eventOverflow next data)

/-- The reader for a type byte, node.rs 123-186. -/
def nodeReader (kw ty : Nat) : Option (Reader Node) :=
  if ty = 0x31 then some (decHeader.bind fun h => Reader.pure (.header h))
  else if ty = 0x32 then some (decLeaf .freeLeaf (readInt 8) decFreeValue)
  else if ty = 0x33 then some (decExplicit .freeInternal)
  else if ty = 0x34 then some (decLeaf .eventLeaf (readInt 8) decValue)
  else if ty = 0x35 then some (decImplied .eventInternal (readInt 8))
  else if ty = 0x61 then some decEventOverflow
  else if ty = 0x36 then some (decLeaf .tagsLeaf (readTagHash kw) decTagsValue)
  else if ty = 0x37 then some (decImplied .tagsInternal (readTagHash kw))
  else if ty = 0x38 then some ((readInt 2).bind fun n => (decInts n).bind fun ps => Reader.pure (.tagLeaf ps))
  else if ty = 0x39 then some (decImplied .tagInternal (readInt 8))
  else if ty = 0x62 then some ((readInt 2).bind fun n => (decInts n).bind fun ids => Reader.pure (.tsnLeaf ids))
  else if ty = 0x63 then some (decExplicit .tsnInternal)
  else if ty = 0x64 then some decTrackLeaf
  else if ty = 0x65 then some decTrackInternal
  else none

/-- `Node::deserialize`, node.rs 123-186; bytes left over are ignored. -/
def decode (kw ty : Nat) (data : Bytes) : Except Err Node :=
  match nodeReader kw ty with
  | none => .error (.databaseCorrupted "Invalid node type")
  | some r =>
    match r data with
    | .error e => .error e
    | .ok (n, _) => .ok n

end Uma.Codec
