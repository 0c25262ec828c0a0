import Verif.Page.Proc
import Verif.Page.Crash

/-!
# Several processes and one path

`Pager::new` (umadb-core/src/pager.rs 62-137) looks whether there is a file at the path, opens or creates it, and tries to lock it; what
`Mvcc::new` does next depends on what was seen at first (`is_file_new`, umadb-core/src/mvcc.rs 303).  The lock is advisory, exclusive and not
waited for, and is given up when the `Pager` is dropped (pager.rs 52-58) or the process ends.  Each of these is one step of a process, and
the steps of processes are interleaved in any way.

Simplifications: nobody removes or replaces the file, and no call of the operating system fails on its own; `Mvcc::new` after the lock and
every later call of the library is one step (for a process that stops in the middle of one, see `Verif/Page/Crash.lean`); a process has
one database; the I/O thread of the pipelined writer, which opens the path once more without a lock (umadb-core/src/io_shell.rs 18-25),
is left out.
-/

namespace Uma.Page
open Uma.Codec Uma.Mvcc Uma.Spec

/-- How far a process has got with opening the database; the argument is `is_file_new`. -/
inductive Standing where
  | out
  | looked (isNew : Bool)
  | opened (isNew : Bool)
  | locked (isNew : Bool)
  | up (d : PDb)

/-- The file at the path, if there is one, the process holding its lock, and the processes. -/
structure Shared where
  file : Option File
  lock : Option Nat
  proc : Nat → Standing

/-- Nobody has begun. -/
def Shared.start (f : Option File) : Shared := ⟨f, none, fun _ => .out⟩

/-- A step of a process: the four of opening, the end of the process or of its use of the database, and the calls of `UmaDb`. -/
inductive ShareAct where
  | look
  | openFile
  | lock
  | init
  | stop
  | append (req : Request) (io : IO)
  | read (query : Option Query) (start : Option Nat) (backwards : Bool) (limit : Option Nat)
  | track (source : String)
  | head

/-- What the user of the library in that process is told. -/
inductive ShareReply where
  | still
  | opened (r : Except Err Unit)
  | said (r : ProcReply)

def Shared.set (S : Shared) (i : Nat) (st : Standing) : Shared := { S with proc := fun j => if j = i then st else S.proc j }

/-- `Drop for Pager`, pager.rs 52-58, or the end of the process. -/
def Shared.leave (S : Shared) (i : Nat) : Shared := { S.set i .out with lock := if S.lock = some i then none else S.lock }

/-- The rest of `Pager::new` (`file_len`, pager.rs 123) and `Mvcc::new`, mvcc.rs 241-534, with the file locked. -/
def openDb (c : Conf) (isNew : Bool) (f : File) : Except Err PDb × File :=
  let f := { f with known := f.len }
  if isNew then
    match create c.g c.zeroFill f with
    | (.error e, f') => (.error e, f')
    | (.ok m, f') => (.ok (.fresh f' m f' [] none), f')
  else (reopen c tagHashLen f, (openExisting c.g tagHashLen c.zeroFill f).2)

/-- A step of process `i`; one that does not fit its stage does nothing. -/
noncomputable def Shared.step (c : Conf) (env : Db.Env) (S : Shared) (i : Nat) : ShareAct → ShareReply × Shared
  | .look =>
    match S.proc i with
    | .out => (.still, S.set i (.looked S.file.isNone))
    | _ => (.still, S)
  | .openFile =>
    match S.proc i with
    | .looked isNew =>
      match S.file with
      | some _ => (.still, S.set i (.opened isNew))
      | none =>
        if isNew then (.still, { S.set i (.opened true) with file := some emptyFile })
        else (.opened (.error (.initialization "Couldn't open database file")), S.set i .out)
    | _ => (.still, S)
  | .lock =>
    match S.proc i with
    | .opened isNew =>
      match S.lock with
      | some _ => (.opened (.error (.initialization "Database file is already locked")), S.set i .out)
      | none => (.still, { S.set i (.locked isNew) with lock := some i })
    | _ => (.still, S)
  | .init =>
    match S.proc i, S.file with
    | .locked isNew, some f =>
      match openDb c isNew f with
      | (.error e, f') => (.opened (.error e), { S.leave i with file := some f' })
      | (.ok d, f') => (.opened (.ok ()), { S.set i (.up d) with file := some f' })
    | _, _ => (.still, S)
  | .stop => (.still, S.leave i)
  | .append req io =>
    match S.proc i, S.file with
    | .up d, some f =>
      let r := Db.append (pageBackend c) env req io { d with file := f }
      (.said (.appended r.1), { S.set i (.up r.2) with file := some r.2.file })
    | _, _ => (.still, S)
  | .read query start backwards limit =>
    match S.proc i, S.file with
    | .up d, some f => (.said (.events (Db.read (pageBackend c) env { d with file := f } query start backwards limit)), S)
    | _, _ => (.still, S)
  | .track source =>
    match S.proc i, S.file with
    | .up d, some f => (.said (.tracked ((pageBackend c).trackR { d with file := f } source)), S)
    | _, _ => (.still, S)
  | .head =>
    match S.proc i, S.file with
    | .up d, some f => (.said (.head (Db.head (pageBackend c) { d with file := f })), S)
    | _, _ => (.still, S)

/-- Steps one after the other, each by the given process. -/
noncomputable def Shared.steps (c : Conf) (env : Db.Env) : List (Nat × ShareAct) → Shared → List (Nat × ShareReply) × Shared
  | [], S => ([], S)
  | (i, a) :: xs, S =>
    let r := S.step c env i a
    let rest := Shared.steps c env xs r.2
    ((i, r.1) :: rest.1, rest.2)

end Uma.Page
