import Verif.Page.Share
import Verif.Server.Handler
import Verif.Server.Hub

/-!
# Starting and stopping the server

`start_server_with_options`, umadb-server/src/lib.rs 274-367, with `raise_open_file_limit` 205-270, `UmaDbServer::new` 408-420 and
`UmaDbServerRequestHandler::new` (handler.rs 25-90).  A run is the list of the states the server goes through, one for each thing another
process or a client could notice.

Simplifications: whether the address can be parsed and bound, whether another process holds the lock of the file, what `setrlimit` accepts and
whether the TLS material is any good are given from outside; after an error or a panic everything the server held is dropped.  That
`health_reporter()` begins with the status SERVING for the empty name is tonic-health's behaviour, not checked here.
-/

namespace Uma.Server
open Uma.Page Uma.Mvcc

/-! ## The limit of open files -/

/-- `RLIM_INFINITY`. -/
def unlimited : Nat := 2 ^ 64 - 1

/-- `libc::rlimit`. -/
structure FileLimit where
  soft : Nat
  hard : Nat
  deriving DecidableEq, Repr

/-- The lines printed by `raise_open_file_limit_inner`. -/
inductive LimitNote where
  | unread
  | atHard
  | raised (target : Nat)
  | enough
  | refused
  deriving DecidableEq, Repr

/-- `candidates`, 234-238. -/
def limitTargets (l : FileLimit) : List Nat := if l.hard = unlimited then [1048576, 65536] else [l.hard]

/-- The loop, 239-269; `accepts`: `setrlimit` returns 0. -/
def tryTargets (accepts : FileLimit → Bool) (l : FileLimit) : List Nat → Bool → LimitNote × FileLimit
  | [], attempted => (if attempted then .refused else .enough, l)
  | t :: ts, attempted =>
    if t ≤ l.soft then tryTargets accepts l ts attempted
    else if accepts ⟨t, l.hard⟩ then (.raised t, ⟨t, l.hard⟩)
    else tryTargets accepts l ts true

/-- `raise_open_file_limit_inner`, 211-270; `reads`: `getrlimit` returns 0. -/
def raiseLimit (reads : Bool) (accepts : FileLimit → Bool) (l : FileLimit) : LimitNote × FileLimit :=
  if !reads then (.unread, l)
  else if l.hard ≠ unlimited ∧ l.hard ≤ l.soft then (.atHard, l)
  else tryTargets accepts l (limitTargets l) false

/-! ## The server -/

/-- What is visible of the process that starts a server. -/
structure Site where
  limit : FileLimit
  /-- `ONCE`, 206 -/
  once : Bool
  /-- the address listened on -/
  listening : Option Nat
  file : Option File
  /-- the lock of the file is held by this server -/
  locked : Bool
  db : Option PDb
  /-- the head watch, once it exists -/
  head : Option (Option Nat)
  permits : Option Nat
  /-- "UmaDB has … events" -/
  printed : Option Nat
  /-- statuses of the health service: SERVING or NOT_SERVING -/
  health : String → Option Bool
  /-- calls are taken -/
  serving : Bool
  /-- `srv_shutdown_tx` has sent -/
  stop : Bool

/-- Options and surroundings. -/
structure Setting where
  conf : Conf
  /-- `options.listen_addr.parse()` -/
  addr : Option Nat
  binds : Bool
  /-- another process holds the lock -/
  taken : Bool
  readsLimit : Bool
  accepts : FileLimit → Bool
  /-- UMADB_READER_THREADS -/
  threads : Option (List Char)
  cores : Option Nat
  /-- TLS is asked for; certificate and key can be used -/
  tls : Option Bool

inductive StartErr where
  /-- the error of `parse`, which is none of `DcbError` -/
  | address
  | failed (e : Err)

/-- A process before it starts a server; the file at the path, if there is one. -/
def Site.off (limit : FileLimit) (file : Option File) : Site :=
  ⟨limit, false, none, file, false, none, none, none, none, fun _ => none, false, false⟩

/-- What is left when the server has been dropped. -/
def Site.drop (s : Site) : Site := { Site.off s.limit s.file with once := s.once, printed := s.printed }

/-- `raise_open_file_limit`, 205-208. -/
def Site.raise (S : Setting) (s : Site) : Site :=
  if s.once then s else { s with once := true, limit := (raiseLimit S.readsLimit S.accepts s.limit).2 }

/-- `Mvcc::new`, mvcc.rs 241-534, with `Pager::new`, pager.rs 62-137. -/
def openAt (S : Setting) (file : Option File) : Except Err PDb × File :=
  if S.taken then (.error (.initialization "Database file is already locked"), file.getD emptyFile)
  else openDb S.conf file.isNone (file.getD emptyFile)

def serviceName : String := "umadb.v1.DCB"

/-- `health_reporter()`, 329. -/
def newHealth : String → Option Bool := fun n => if n = "" then some true else none

/-- `set_service_status`. -/
def Site.setHealth (s : Site) (name : String) (up : Bool) : Site :=
  { s with health := fun n => if n = name then some up else s.health n }

/-- From the health service on, 327-350: what happens to a server with an open database. -/
def serveFrom (S : Setting) (s : Site) : List Site × Except StartErr Unit :=
  let s1 := { s with health := newHealth }
  let s2 := s1.setHealth "" true
  let s3 := s2.setHealth serviceName true
  match S.tls with
  | some false => ([s1, s2, s3, s3.drop], .error (.failed (.panic "failed to apply TLS config")))
  | _ => ([s1, s2, s3, { s3 with serving := true }], .ok ())

/-- `start_server_with_options` until calls are taken, 274-350. -/
def startServer (S : Setting) (s : Site) : List Site × Except StartErr Unit :=
  let s1 := s.raise S
  match S.addr with
  | none => ([s, s1], .error .address)
  | some a =>
    if !S.binds then ([s, s1], .error (.failed (.initialization "failed to bind to address"))) else
    let s2 := { s1 with listening := some a }
    match openAt S s.file with
    | (.error e, f) => ([s, s1, s2, { s2.drop with file := some f }], .error (.failed e))
    | (.ok d, f) =>
      let s3 := { s2 with file := some f, locked := true, db := some d }
      match initialHead d with
      | .error e => ([s, s1, s2, s3, s3.drop], .error (.failed e))
      | .ok h =>
        let s4 := { s3 with head := some h }
        match newSemaphore (readersLimit S.threads S.cores) with
        | .error e => ([s, s1, s2, s3, s4, s4.drop], .error (.failed e))
        | .ok n =>
          let s5 := { s4 with permits := some n }
          let s6 := { s5 with printed := some (((handlerHead d).toOption.getD (some 0)).getD 0) }
          let r := serveFrom S s6
          ([s, s1, s2, s3, s4, s5, s6] ++ r.1, r.2)

/-- From the shutdown signal to the return, 352-366. -/
def stopServer (s : Site) : List Site :=
  let s1 := s.setHealth "" false
  let s2 := s1.setHealth serviceName false
  let s3 := { s2 with stop := true }
  [s, s1, s2, s3, { s3 with serving := false }, s3.drop]

/-- What a client that asks the health service is told; nothing before calls are taken. -/
def Site.asked (s : Site) (name : String) : Option Bool := if s.serving then s.health name else none

end Uma.Server
