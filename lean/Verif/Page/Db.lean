import Verif.Db.Lawful
import Verif.Mvcc.Open
import Verif.Page.EventsRead
import Verif.Page.Tags
import Verif.Page.Tracking
import Verif.Page.Process

/-!
# The page-level database

`Mvcc::reader`, `writer`, `commit` (umadb-core/src/mvcc.rs 688-755, 810-854) and the operations of db.rs on a `Writer`, over
the file of `Verif/Mvcc/WritePages.lean`: the backend `pageBackend`.

Simplifications.  The page cache may lose entries at any commit (`IO.keep`; none kept: no cache).  The registry of open
readers is represented by its answer when the next writer starts (`oldest`, see `Verif/Page/Readers.lean`).  Reads
through `WriterSnapshot`-less writers do not record the pages read (`Writer.deser`); `Own.cached` shows that these are the
pages of the snapshot.  `commit` refuses pages holding numbers that are not `u64`s; in the code they cannot be formed.
-/

namespace Uma.Page
open Uma.Codec Uma.Mvcc Uma.Spec

/-- Settings: the pager, `zero_fill_pages`, and `binary_search` on lists with equal keys. -/
structure Conf where
  g : Pager
  zeroFill : Bool
  bs : List Nat → Nat → Nat

/-- `Mvcc` (mvcc.rs 85-110): the file, pinned headers and key width, the page cache, and the oldest reader.  The rest is
what a crash can bring back: the slots of the pages `loose` may not have reached the disk, and hold there what they hold in
`disk`; `doubt`: the last attempt to write a header failed. -/
structure PDb where
  file : File
  m : Opened
  cache : Nat → Option Node
  oldest : Option Nat
  disk : File
  loose : List Nat
  doubt : Bool

/-- `Mvcc::read_page`, mvcc.rs 603-625. -/
def PDb.read (c : Conf) (d : PDb) (p : Nat) : Except Err Node :=
  if p = 0 ∨ p = 1 then .error (.internal "Do not read headers with read_page")
  else match d.cache p with
    | some n => .ok n
    | none => readPage c.g d.m.kw p d.file

def PDb.base (c : Conf) (d : PDb) (p : Nat) : Option Node := (d.read c p).toOption

/-- `get_latest_header_page` and `as_header_node`. -/
def PDb.header (d : PDb) : Except Err Header := do
  let p ← latestPage d.m.h0 d.m.h1
  asHeader p.node

/-- Bound on the number of turns of any traversal. -/
def turns (c : Conf) (nextPos nextPage : Nat) : Nat := nextPos + nextPage * (c.g.pageSize + 2)

/-- What `read_conditional` sees of the trees at these roots. -/
def snapOf (c : Conf) (v : Nat → Option Node) (fuel eventsRoot tagsRoot : Nat) : Db.Snap where
  scan := evScan v fuel eventsRoot
  tagScan := Uma.Page.tagScan c.bs v fuel tagsRoot
  lookup := evLookup v fuel eventsRoot

/-- A snapshot in which nothing can be read. -/
def noSnap (e : Err) : Db.Snap := ⟨fun _ _ => ([], some e), fun _ _ _ => [], fun _ => .error e⟩

/-- The view of a reader, mvcc.rs 688-720. -/
def PDb.snap (c : Conf) (d : PDb) : Db.Snap :=
  match d.header with
  | .error e => noSnap e
  | .ok h => snapOf c (d.base c) (turns c h.nextPosition h.nextPage) h.eventsRoot h.tagsRoot

def PDb.nextPos (d : PDb) : Nat :=
  match d.header with
  | .error _ => 0
  | .ok h => h.nextPosition

/-- `get_tracking_info`, db.rs 45-77. -/
def PDb.track (c : Conf) (d : PDb) (src : String) : Except Err (Option Nat) :=
  match d.header with
  | .error e => .error e
  | .ok h => trackLookup (d.base c) (turns c h.nextPosition h.nextPage) h.trackRoot src

/-- A `Writer` together with the database and the header page it started from. -/
structure PW where
  db : PDb
  hp : HPage
  wr : Writer

/-- `Writer::new`, mvcc.rs 984-1022, as called in `Mvcc::writer`. -/
def newWriter (c : Conf) (d : PDb) (h : Header) : Writer where
  base := d.base c
  kw := d.m.kw
  pageSize := c.g.pageSize
  tsn := h.tsn + 1
  nextPage := h.nextPage
  freeRoot := h.freeRoot
  eventsRoot := h.eventsRoot
  tagsRoot := h.tagsRoot
  trackRoot := h.trackRoot
  nextPos := h.nextPosition
  reusable := []
  reused := []
  freed := []
  deser := fun _ => none
  dirty := []

/-- `Mvcc::writer`, mvcc.rs 722-755. -/
def PDb.writer (c : Conf) (d : PDb) : Except Err PW := do
  let p ← latestPage d.m.h0 d.m.h1
  let h ← asHeader p.node
  match findReusable d.oldest (newWriter c d h) with
  | (.error e, _) => .error e
  | (.ok (), w) => .ok ⟨d, p, w⟩

/-- What fails during a commit: writing or syncing the data pages, or the header.  The affected slots may then hold
anything, and the file may have grown. -/
inductive Fault where
  | data (junk : File)
  | header (junk : File)

/-- What the environment decides during a commit. -/
structure IO where
  /-- Iteration order of the set of freed pages. -/
  ord : Writer → List Nat
  ordLaw : ∀ w, (ord w).Perm w.freed
  fault : Option Fault
  /-- Content of `page_buf`. -/
  buf : Nat → UInt8
  /-- Pages still in the cache at the end. -/
  keep : Nat → Bool
  /-- The oldest reader when the next writer starts. -/
  oldest : Option Nat

open Classical in
/-- The slots of the pages `l` hold junk. -/
noncomputable def scramble (ps : Nat) (l : List Nat) (junk f : File) : File where
  len := max f.len junk.len
  known := junk.known
  byte i := if i < max f.len junk.len ∧ ∃ p ∈ l, p * ps ≤ i ∧ i < p * ps + ps then junk.byte i else f.byte i

open Classical in
/-- The disk after a successful `fsync` when only the slots of the pages `loose` may have missed it. -/
noncomputable def synced (ps : Nat) (loose : List Nat) (disk f : File) : File where
  len := f.len
  known := f.known
  byte i := if ∃ p ∈ loose, p * ps ≤ i ∧ i < p * ps + ps then disk.byte i else f.byte i

/-- `fsync` after writing the pages `l`: slots whose writing failed earlier are not relied on until written again. -/
noncomputable def PDb.fsync (c : Conf) (l : List Nat) (d : PDb) : PDb :=
  { d with loose := d.loose.filter (· ∉ l), disk := synced c.g.pageSize (d.loose.filter (· ∉ l)) d.disk d.file }

/-- Draining the dirty pages into the cache, mvcc.rs 828-835. -/
def cacheAfter (keep : Nat → Bool) (dirty : Pages) (cache : Nat → Option Node) (p : Nat) : Option Node :=
  if keep p then (match dirty.get p with | some n => some n | none => cache p) else none

def Writer.roots (w : Writer) : NewRoots :=
  ⟨w.tsn, w.freeRoot, w.eventsRoot, w.tagsRoot, w.nextPage, w.nextPos, w.trackRoot⟩

open Classical in
/-- The header part of `commit`, mvcc.rs 838-846. -/
noncomputable def commitHead (c : Conf) (io : IO) (hp : HPage) (w : Writer) (d : PDb) : Except Err Unit × PDb :=
  match cowHeader hp w.roots with
  | .error e => (.error e, d)
  | .ok p =>
    if ¬ NodeFits w.kw p.node then (.error (.internal "number out of range"), d)
    else match io.fault with
      | some (.header junk) => (.error (.io "header"),
          { d with file := scramble c.g.pageSize [p.id] junk d.file, loose := p.id :: d.loose, doubt := true })
      | _ =>
        match writeOnePage c.g w.kw ((List.range c.g.pageSize).map io.buf) c.zeroFill p.id p.node d.file with
        | (.error e, f) => (.error e, { d with file := f })
        | (.ok (), f) => (.ok (), { PDb.fsync c [p.id] { d with file := f } with m := pinHeader p d.m, doubt := false })

open Classical in
/-- The rest of `commit` after `process_freed_page_ids`, mvcc.rs 819-846. -/
noncomputable def commitPages (c : Conf) (io : IO) (hp : HPage) (w : Writer) (d : PDb) : Except Err Unit × PDb :=
  if ¬ ∀ x ∈ w.dirty, NodeFits w.kw x.2 then (.error (.internal "number out of range"), d)
  else match io.fault with
    | some (.data junk) => (.error (.io "data"),
        { d with file := scramble c.g.pageSize w.dirty.ids junk d.file, loose := d.loose ++ w.dirty.ids })
    | _ =>
      match writePages c.g w.kw c.zeroFill w.dirty d.file with
      | (.error e, f) => (.error e, { d with file := f, loose := d.loose ++ w.dirty.ids })
      | (.ok _, f) =>
        commitHead c io hp w { PDb.fsync c w.dirty.ids { d with file := f } with cache := cacheAfter io.keep w.dirty d.cache }

/-- `Mvcc::commit`, mvcc.rs 810-854. -/
noncomputable def PW.commit (c : Conf) (io : IO) (w : PW) : Except Err Unit × PDb :=
  match processFreed io.ord w.wr with
  | (.error e, _) => (.error e, { w.db with oldest := io.oldest })
  | (.ok (), wr) => commitPages c io w.hp wr { w.db with oldest := io.oldest }

/-- Run a tree operation on the writer. -/
def PW.run {α : Type} (m : W α) (w : PW) : Except Err α × PW :=
  ((m w.wr).1, { w with wr := (m w.wr).2 })

noncomputable def pageBackend (c : Conf) : Db.Backend PDb PW ((EventValue × Nat) × Option (EventValue × Nat)) IO where
  begin := PDb.writer c
  snapR := PDb.snap c
  nextPosR := PDb.nextPos
  trackR := PDb.track c
  snap w := snapOf c w.wr.view (turns c w.wr.nextPos w.wr.nextPage) w.wr.eventsRoot w.wr.tagsRoot
  nextPos w := w.wr.nextPos
  issue w := ((issuePosition w.wr).1, { w with wr := (issuePosition w.wr).2 })
  validate := validateEvent c.g.pageSize
  tagInsert h p := PW.run (tagsInsert c.bs h p)
  eventAppend _ v p := PW.run (evAppend v p)
  trackUpsert src pos := PW.run (trackUpsert src pos)
  commit := PW.commit c

end Uma.Page
