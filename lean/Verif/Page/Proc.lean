import Verif.Page.Lawful

/-!
# Several databases in one process

The width of tag keys and with it the hash of tags is one variable of the process, `TAG_KEY_WIDTH_BYTES`
(umadb-core/src/tags_tree_nodes.rs 14-25), set whenever a database is created or opened (umadb-core/src/mvcc.rs 305-307, 453-487) and
read by every encoding and decoding of tag pages and by `tag_to_hash` (umadb-core/src/db.rs 959-966).  Elsewhere in this model the width
belongs to the database; here a process has any number of databases and one width.

Simplification: calls follow each other; the width does not change in the middle of a call.
-/

namespace Uma.Page
open Uma.Codec Uma.Mvcc Uma.Spec

/-- The databases open in the process, by number. -/
structure Proc where
  width : Nat
  db : Nat → Option PDb

/-- Initial value of `TAG_KEY_WIDTH_BYTES`, tags_tree_nodes.rs 14. -/
def Proc.start : Proc := ⟨tagHashLen, fun _ => none⟩

/-- A database as it is worked on while the process has this width. -/
def atWidth (kw : Nat) (d : PDb) : PDb := { d with m := { d.m with kw := kw } }

/-- The width when `Mvcc::new` for an existing file returns, with or without an error: mvcc.rs 453-470.  It is set when the headers could
be read and the schema version is known. -/
def widthLeft (g : Pager) (kw0 : Nat) (zeroFill : Bool) (f : File) : Nat :=
  match openHeaders g kw0 zeroFill f with
  | (.error _, _) => kw0
  | (.ok (h0, h1), _) =>
    match (do let p ← latestPage h0 h1; asHeader p.node) with
    | .error _ => kw0
    | .ok h => if h.schema > dbSchemaVersion then kw0 else widthFor h.schema

/-- Calls of the library, `UmaDb`. -/
inductive ProcCall where
  | create
  | openFile (f : File)
  | append (req : Request) (io : IO)
  | read (query : Option Query) (start : Option Nat) (backwards : Bool) (limit : Option Nat)
  | track (source : String)
  | head

inductive ProcReply where
  | opened (r : Except Err Unit)
  | appended (r : Except Err Nat)
  | events (r : Except Err (List SeqEvent × Option Nat))
  | tracked (r : Except Err (Option Nat))
  | head (r : Option Nat)
  | notOpen

def Proc.put (P : Proc) (i : Nat) (d : PDb) : Proc := { P with db := fun j => if j = i then some d else P.db j }

/-- What the request logic gets: `tag_to_hash` at the width of the process. -/
def Proc.env (P : Proc) (v5 : String → Uuid) (ord : List (String × List Nat) → List (String × List Nat)) : Db.Env :=
  ⟨tagHash v5 P.width, ord⟩

/-- A call for database `i`. -/
noncomputable def Proc.call (conf : Nat → Conf) (v5 : String → Uuid) (ord : List (String × List Nat) → List (String × List Nat)) (P : Proc)
    (i : Nat) : ProcCall → ProcReply × Proc
  | .create =>
    match create (conf i).g (conf i).zeroFill emptyFile with
    | (.error e, _) => (.opened (.error e), { P with width := tagHashLen })
    | (.ok m, f) => (.opened (.ok ()), { P.put i (.fresh f m f [] none) with width := tagHashLen })
  | .openFile f =>
    match openExisting (conf i).g P.width (conf i).zeroFill f with
    | (.error e, _) => (.opened (.error e), { P with width := widthLeft (conf i).g P.width (conf i).zeroFill f })
    | (.ok m, f') => (.opened (.ok ()), { P.put i (.fresh f' m f' [] none) with
        width := widthLeft (conf i).g P.width (conf i).zeroFill f })
  | .append req io =>
    match P.db i with
    | none => (.notOpen, P)
    | some d =>
      let r := Db.append (pageBackend (conf i)) (P.env v5 ord) req io (atWidth P.width d)
      (.appended r.1, P.put i r.2)
  | .read query start backwards limit =>
    match P.db i with
    | none => (.notOpen, P)
    | some d => (.events (Db.read (pageBackend (conf i)) (P.env v5 ord) (atWidth P.width d) query start backwards limit), P)
  | .track source =>
    match P.db i with
    | none => (.notOpen, P)
    | some d => (.tracked ((pageBackend (conf i)).trackR (atWidth P.width d) source), P)
  | .head =>
    match P.db i with
    | none => (.notOpen, P)
    | some d => (.head (Db.head (pageBackend (conf i)) (atWidth P.width d)), P)

/-- Calls one after the other, each for the database with the given number. -/
noncomputable def Proc.calls (conf : Nat → Conf) (v5 : String → Uuid) (ord : List (String × List Nat) → List (String × List Nat)) :
    List (Nat × ProcCall) → Proc → List (Nat × ProcReply) × Proc
  | [], P => ([], P)
  | (i, x) :: xs, P =>
    let r := P.call conf v5 ord i x
    let rest := Proc.calls conf v5 ord xs r.2
    ((i, r.1) :: rest.1, rest.2)

end Uma.Page
