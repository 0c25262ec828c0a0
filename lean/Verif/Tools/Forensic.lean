import Verif.Codec.NodeProof
import Verif.Tools.Check

/-!
# The analysis of damaged pages of the tag index

Stage 4 of `umadb-check`, umadb-tools/src/bin/umadb-check.rs 698-907.

Slices out of range panic.  Notes are recorded as what they are about, not as texts.  A key is a number as everywhere (`unbe` of sixteen bytes).
Memory is not bounded; `saturating_mul` and `saturating_sub` do not saturate for the numbers that occur (at most 65535 keys of 16 bytes).
-/

namespace Uma.Tools
open Uma.Codec Uma.Spec Uma.Db Uma.Page Uma.Mvcc

inductive Note
  | short
  | noKeys
  | keyCut (i : Nat)
  | headCut (i : Nat)
  | positionsCut (i : Nat)
deriving DecidableEq, Repr

/-- `&body[i..j]`. -/
def cutOut (body : Bytes) (i j : Nat) : Except Err Bytes :=
  if i ≤ j ∧ j ≤ body.length then .ok ((body.drop i).take (j - i)) else .error (.panic "slice index out of range")

/-- `k[..n].copy_from_slice(src)` for a fresh `k` of sixteen zeros, where `src` has `n` bytes. -/
def keyOf (n : Nat) (src : Bytes) : Except Err Nat :=
  if n ≤ 16 ∧ src.length = n then .ok (unbe (src ++ List.replicate (16 - n) 0)) else .error (.panic "slice index out of range")

/-- The loop over the keys, 721-733; the `i`-th and the `n` after it. -/
def keysAt (body : Bytes) (kw off : Nat) : (n i : Nat) → Except Err (List Nat × List Note)
  | 0, _ => .ok ([], [])
  | n + 1, i =>
    let start := off + i * kw
    (if start + kw ≤ body.length then do
      let b ← cutOut body start (start + kw)
      let k ← keyOf kw b
      .ok (k, [])
    else do
      let avail := body.length - start
      let b ← cutOut body start (start + avail)
      let k ← keyOf avail b
      .ok (k, [Note.keyCut i])).bind fun x => do
    let r ← keysAt body kw off n (i + 1)
    .ok (x.1 :: r.1, x.2 ++ r.2)

/-- The loops over the positions, 751-754 and 760-763. -/
def positionsAt (body : Bytes) (off : Nat) : (n : Nat) → Except Err (List Nat)
  | 0 => .ok []
  | n + 1 => do
    let b ← cutOut body off (off + 8)
    let ps ← positionsAt body (off + 8) n
    .ok (unle b :: ps)

/-- The loop over the values, 736-768. -/
def valuesAt (body : Bytes) : (keys : List Nat) → (i off : Nat) → Except Err (List (Nat × List Nat) × List Note)
  | [], _, _ => .ok ([], [])
  | k :: keys, i, off =>
    if off + 10 > body.length then .ok ([], [.headCut i])
    else do
      let _root ← cutOut body off (off + 8)
      let b ← cutOut body (off + 8) (off + 10)
      let plen := unle b
      if off + 10 + plen * 8 > body.length then do
        let ps ← positionsAt body (off + 10) ((body.length - (off + 10)) / 8)
        .ok ([(k, ps)], [.positionsCut i])
      else do
        let ps ← positionsAt body (off + 10) plen
        let r ← valuesAt body keys (i + 1) (off + 10 + plen * 8)
        .ok ((k, ps) :: r.1, r.2)

/-- `forensic_parse_tags_leaf`, 704-770, without the number of entries. -/
def forensicParse (body : Bytes) (kw : Nat) : Except Err (List (Nat × List Nat) × List Note) :=
  if body.length < 2 then .ok ([], [.short])
  else do
    let b ← cutOut body 0 2
    let n := unle b
    if body.length < 2 + n * kw then .ok ([], [.noKeys])
    else do
      let ks ← keysAt body kw 2 n 0
      let r ← valuesAt body ks.1 0 (2 + n * kw)
      .ok (r.1, ks.2 ++ r.2)

/-- What `analyze_entries` counts. -/
structure Findings where
  total : Nat
  withEvent : Nat
  matching : Nat
  /-- At most five positions whose event has no such tag, with the key. -/
  mismatches : List (Nat × Nat)
deriving DecidableEq, Repr

/-- Whether a tag with the hash `h` is taken for one with the key `k`, 789-800: for the old format the first eight bytes are compared. -/
def sameKey (usedW : Nat) (h k : Nat) : Bool := if usedW = 8 then h / 256 ^ 8 == k / 256 ^ 8 else h == k

/-- One position, 784-812.  `H8`: `tag_to_hash_crc64`; `H`: the hash of the database, normalized. -/
def analyzePosition (H8 H : String → Nat) (usedW : Nat) (events : Nat → Option Event) (k : Nat) (f : Findings) (p : Nat) : Findings :=
  match events p with
  | none => f
  | some e =>
    let f := { f with withEvent := f.withEvent + 1 }
    if e.tags.any fun t => sameKey usedW (if usedW = 8 then H8 t else H t) k then { f with matching := f.matching + 1 }
    else if f.mismatches.length < 5 then { f with mismatches := f.mismatches ++ [(p, k)] }
    else f

/-- `analyze_entries`, 772-817. -/
def analyzeEntries (H8 H : String → Nat) (usedW : Nat) (events : Nat → Option Event) (entries : List (Nat × List Nat)) : Findings :=
  entries.foldl (fun f x => x.2.foldl (analyzePosition H8 H usedW events x.1) { f with total := f.total + x.2.length }) ⟨0, 0, 0, []⟩

/-- `events_by_position`, 446-530: the events of the batches read by `scanEvents`. -/
def scannedEvents (env : Env) (s : Snap) : (fuel start : Nat) → List SeqEvent
  | 0, _ => []
  | fuel + 1, start =>
    match readConditional env.H env.ord s ⟨[]⟩ (some start) false (some 1024) false Cancel.never with
    | .error _ => []
    | .ok batch =>
      match batch.getLast? with
      | none => []
      | some e => batch ++ scannedEvents env s fuel (e.position + 1)

/-- `events_by_position.get`: later insertions win; positions occur once. -/
def eventAt (l : List SeqEvent) (p : Nat) : Option Event := (l.reverse.find? fun e => e.position == p).map (·.event)

/-- The bytes of a page that Stage 4 looks at, 822-827: everything after the nine bytes of the header, whatever length the header gives. -/
def forensicBody (bytes : Bytes) : Bytes := if bytes.length ≥ 9 then bytes.drop 9 else bytes

/-- Stage 4 for one page, 820-903: with the width of the database, with the old width, and whether the decoder accepts it with the old width. -/
structure Autopsy where
  current : List (Nat × List Nat) × List Note
  currentFindings : Findings
  legacy : List (Nat × List Nat) × List Note
  legacyFindings : Findings
  core : Except Err Node

def autopsy (H8 H : String → Nat) (kw : Nat) (events : Nat → Option Event) (bytes : Bytes) : Except Err Autopsy := do
  let body := forensicBody bytes
  let cur ← forensicParse body kw
  let old ← forensicParse body 8
  .ok ⟨cur, analyzeEntries H8 H kw events cur.1, old, analyzeEntries H8 H 8 events old.1, decode 8 0x36 body⟩

/-- The pages kept for Stage 4, 270-290 and 388-395: pages that cannot be deserialized and whose first byte is that of a page of the tag index. -/
def forensicPage (kw : Nat) (bytes : Bytes) : Bool :=
  failed (deserializePage kw bytes) && bytes.head? == some 0x36

end Uma.Tools
