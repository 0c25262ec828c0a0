import Verif.Page.Crash

/-!
# The integrity checker

`umadb-check`, umadb-tools/src/bin/umadb-check.rs: what it finds wrong with a file, and its verdict.

Simplifications.  Errors are recorded as the numbers of the pages concerned (or the number of the check on the events),
not as the texts printed.  What is only printed is left out: counts by node type, the search of event pages for missing
positions, and Stage 4 (the analysis of damaged tag index pages, lines 698-907, see `Tools/Forensic.lean`), which do not affect
the verdict.  Pages read are not put into the cache.  The page size is that of the database.
-/

namespace Uma.Tools
open Uma.Codec Uma.Mvcc Uma.Page Uma.Spec Uma.Db

/-- What the checker finds. -/
structure Report where
  /-- `header_errors`: header pages that cannot be deserialized. -/
  headers : List Nat
  /-- `deser_errors`: pages that cannot be read or deserialized. -/
  pages : List Nat
  /-- `event_errors`. -/
  events : List Nat
  /-- `total_events_read`. -/
  total : Nat
  /-- `last_event_pos`. -/
  last : Nat
deriving DecidableEq, Repr

def failed {α : Type} : Except Err α → Bool
  | .ok _ => false
  | .error _ => true

/-- Stage 1, umadb-check.rs 143-189: header pages that are there but cannot be deserialized. -/
def headerErrors (c : Conf) (d : PDb) : List Nat :=
  [0, 1].filter fun p => match readPageBytes c.g p d.file with
    | .ok b => failed (deserializePage d.m.kw b)
    | .error _ => false

/-- Stage 1, umadb-check.rs 191-201: header pages that are not there. -/
def headerGaps (c : Conf) (d : PDb) : List Nat := [0, 1].filter fun p => failed (readPageBytes c.g p d.file)

/-- Stage 2, umadb-check.rs 259-312: pages the header counts as allocated. -/
def pageErrors (c : Conf) (d : PDb) (next : Nat) : List Nat :=
  (List.range' 2 (next - 2)).filter fun p => failed (d.read c p)

/-- Stage 2, umadb-check.rs 314-412: pages after those, until the end of the file or a page of zeros. -/
def beyondErrors (c : Conf) (d : PDb) : (fuel pid : Nat) → List Nat
  | 0, _ => []
  | fuel + 1, pid =>
    if pid * c.g.pageSize + c.g.pageSize > d.file.len then []
    else
      let b := d.file.readAt (pid * c.g.pageSize) c.g.pageSize
      if b.all (· == 0) then []
      else (if failed (deserializePage d.m.kw b) then [pid] else []) ++ beyondErrors c d fuel (pid + 1)

/-- Stage 3, umadb-check.rs 446-530: all events in batches of 1024.  Answers `last_event_pos`, `total_events_read` and
whether reading failed.  The number of turns is bounded here; when it runs out reading counts as failed. -/
def scanEvents (env : Env) (s : Snap) : (fuel start last total : Nat) → Nat × Nat × Bool
  | 0, _, last, total => (last, total, true)
  | fuel + 1, start, last, total =>
    match readConditional env.H env.ord s ⟨[]⟩ (some start) false (some 1024) false Cancel.never with
    | .error _ => (last, total, true)
    | .ok batch =>
      match batch.getLast? with
      | none => (last, total, false)
      | some e => scanEvents env s fuel (e.position + 1) e.position (total + batch.length)

/-- Stage 3, umadb-check.rs 535-560: the last event by a backwards read. -/
def lastByTree (env : Env) (s : Snap) : Except Err (Option Nat) := do
  let v ← readConditional env.H env.ord s ⟨[]⟩ none true (some 1) false Cancel.never
  .ok (v.getLast?.map (·.position))

/-- Stage 3, umadb-check.rs 532-606: the numbers of the checks that fail. -/
def eventErrors (next last : Nat) (scanFailed : Bool) (tree : Except Err (Option Nat)) : List Nat :=
  (if scanFailed then [0] else []) ++
  (match tree with
    | .error _ => [1]
    | .ok _ => []) ++
  (if last ≠ next - 1 then [2] else []) ++
  (match tree with
    | .ok (some p) => (if p ≠ next - 1 then [3] else []) ++ if p ≠ last then [4] else []
    | _ => [3])

/-- Stages 1 to 3. -/
def report (c : Conf) (env : Env) (d : PDb) (h : Header) : Report :=
  let s := snapOf c (d.base c) (turns c h.nextPosition h.nextPage) h.eventsRoot h.tagsRoot
  let scan := scanEvents env s (h.nextPosition + 1) 1 0 0
  { headers := headerErrors c d
    pages := headerGaps c d ++ pageErrors c d h.nextPage ++ beyondErrors c d (d.file.len + 1) h.nextPage
    events := eventErrors h.nextPosition scan.1 scan.2.2 (lastByTree env s)
    total := scan.2.1
    last := scan.1 }

/-- `real_main`, umadb-check.rs 98-697, on the content of an existing file; answers also the file left behind. -/
def check (c : Conf) (env : Env) (kw0 : Nat) (f : File) : Except Err Report × File :=
  match openExisting c.g kw0 c.zeroFill f with
  | (.error e, f') => (.error e, f')
  | (.ok m, f') =>
    (do
      let p ← latestPage m.h0 m.h1
      let h ← asHeader p.node
      .ok (report c env (.fresh f' m f [1 - p.id] none) h), f')

/-- The final outcome, umadb-check.rs 909-917. -/
def Report.passes (r : Report) : Bool := r.pages.isEmpty && r.events.isEmpty

/-- How the checker ends. -/
def verdict (c : Conf) (env : Env) (kw0 : Nat) (f : File) : Except Err Unit :=
  match (check c env kw0 f).1 with
  | .error e => .error e
  | .ok r => if r.passes then .ok () else .error (.internal "Integrity check failed")

end Uma.Tools
