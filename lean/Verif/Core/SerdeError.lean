import Verif.Spec.Types

/-!
# Model of the serialization of errors (umadb-dcb/src/lib.rs 485-658, feature `serde`)

`DcbError` derives `Serialize` and `Deserialize`, except that the variant `Io` goes through `serde_io_error`, 538-658.

Simplifications: what the derived code does is trusted (`Wire.plain`: the variant and its fields).  `std::io::Error` is modelled by
where it comes from: the operating system, a bare kind, a constant message of the standard library, or `io::Error::new`; the texts of the first three are
fields here.
-/

namespace Uma.Core

/-- `std::io::ErrorKind`; the last three are not stable names, the standard library uses them itself. -/
inductive IoKind where
  | notFound | permissionDenied | connectionRefused | connectionReset | hostUnreachable | networkUnreachable
  | connectionAborted | notConnected | addrInUse | addrNotAvailable | networkDown | brokenPipe | alreadyExists
  | wouldBlock | notADirectory | isADirectory | directoryNotEmpty | readOnlyFilesystem | staleNetworkFileHandle
  | invalidInput | invalidData | timedOut | writeZero | storageFull | notSeekable | quotaExceeded | fileTooLarge
  | resourceBusy | executableFileBusy | deadlock | crossesDevices | tooManyLinks | invalidFilename
  | argumentListTooLong | interrupted | unsupported | unexpectedEof | outOfMemory | other | filesystemLoop | inProgress
  | uncategorized
deriving DecidableEq, Repr, Inhabited

/-- `std::io::Error`. -/
inductive IoError where
  /-- `from_raw_os_error`: code, the kind decoded from it, the text of `strerror`. -/
  | os (code : Nat) (kind : IoKind) (text : String)
  /-- `ErrorKind::into`: the description of the kind. -/
  | simple (kind : IoKind) (text : String)
  /-- A constant of the standard library, such as "failed to fill whole buffer". -/
  | constant (kind : IoKind) (text : String)
  /-- `io::Error::new(kind, text)`. -/
  | custom (kind : IoKind) (text : String)
deriving DecidableEq, Repr, Inhabited

/-- `io::Error::kind`. -/
def IoError.kind : IoError → IoKind
  | .os _ k _ => k
  | .simple k _ => k
  | .constant k _ => k
  | .custom k _ => k

/-- `io::Error::get_ref` and `to_string` of what it gives: only errors made by `io::Error::new` carry an error inside. -/
def IoError.inner : IoError → Option String
  | .custom _ t => some t
  | _ => none

/-- `Display` of `io::Error`. -/
def IoError.display : IoError → String
  | .os c _ t => t ++ " (os error " ++ toString c ++ ")"
  | .simple _ t => t
  | .constant _ t => t
  | .custom _ t => t

/-- The names written, 553-594. -/
def kindName : IoKind → Option String
  | .notFound => some "NotFound"
  | .permissionDenied => some "PermissionDenied"
  | .connectionRefused => some "ConnectionRefused"
  | .connectionReset => some "ConnectionReset"
  | .hostUnreachable => some "HostUnreachable"
  | .networkUnreachable => some "NetworkUnreachable"
  | .connectionAborted => some "ConnectionAborted"
  | .notConnected => some "NotConnected"
  | .addrInUse => some "AddrInUse"
  | .addrNotAvailable => some "AddrNotAvailable"
  | .networkDown => some "NetworkDown"
  | .brokenPipe => some "BrokenPipe"
  | .alreadyExists => some "AlreadyExists"
  | .wouldBlock => some "WouldBlock"
  | .notADirectory => some "NotADirectory"
  | .isADirectory => some "IsADirectory"
  | .directoryNotEmpty => some "DirectoryNotEmpty"
  | .readOnlyFilesystem => some "ReadOnlyFilesystem"
  | .staleNetworkFileHandle => some "StaleNetworkFileHandle"
  | .invalidInput => some "InvalidInput"
  | .invalidData => some "InvalidData"
  | .timedOut => some "TimedOut"
  | .writeZero => some "WriteZero"
  | .storageFull => some "StorageFull"
  | .notSeekable => some "NotSeekable"
  | .quotaExceeded => some "QuotaExceeded"
  | .fileTooLarge => some "FileTooLarge"
  | .resourceBusy => some "ResourceBusy"
  | .executableFileBusy => some "ExecutableFileBusy"
  | .deadlock => some "Deadlock"
  | .crossesDevices => some "CrossesDevices"
  | .tooManyLinks => some "TooManyLinks"
  | .invalidFilename => some "InvalidFilename"
  | .argumentListTooLong => some "ArgumentListTooLong"
  | .interrupted => some "Interrupted"
  | .unsupported => some "Unsupported"
  | .unexpectedEof => some "UnexpectedEof"
  | .outOfMemory => some "OutOfMemory"
  | .other => some "Other"
  | _ => none

/-- The kinds read back, 608-649. -/
def kindOfName : Option String → IoKind
  | some "NotFound" => .notFound
  | some "PermissionDenied" => .permissionDenied
  | some "ConnectionRefused" => .connectionRefused
  | some "ConnectionReset" => .connectionReset
  | some "HostUnreachable" => .hostUnreachable
  | some "NetworkUnreachable" => .networkUnreachable
  | some "ConnectionAborted" => .connectionAborted
  | some "NotConnected" => .notConnected
  | some "AddrInUse" => .addrInUse
  | some "AddrNotAvailable" => .addrNotAvailable
  | some "NetworkDown" => .networkDown
  | some "BrokenPipe" => .brokenPipe
  | some "AlreadyExists" => .alreadyExists
  | some "WouldBlock" => .wouldBlock
  | some "NotADirectory" => .notADirectory
  | some "IsADirectory" => .isADirectory
  | some "DirectoryNotEmpty" => .directoryNotEmpty
  | some "ReadOnlyFilesystem" => .readOnlyFilesystem
  | some "StaleNetworkFileHandle" => .staleNetworkFileHandle
  | some "InvalidInput" => .invalidInput
  | some "InvalidData" => .invalidData
  | some "TimedOut" => .timedOut
  | some "WriteZero" => .writeZero
  | some "StorageFull" => .storageFull
  | some "NotSeekable" => .notSeekable
  | some "QuotaExceeded" => .quotaExceeded
  | some "FileTooLarge" => .fileTooLarge
  | some "ResourceBusy" => .resourceBusy
  | some "ExecutableFileBusy" => .executableFileBusy
  | some "Deadlock" => .deadlock
  | some "CrossesDevices" => .crossesDevices
  | some "TooManyLinks" => .tooManyLinks
  | some "InvalidFilename" => .invalidFilename
  | some "ArgumentListTooLong" => .argumentListTooLong
  | some "Interrupted" => .interrupted
  | some "Unsupported" => .unsupported
  | some "UnexpectedEof" => .unexpectedEof
  | some "OutOfMemory" => .outOfMemory
  | some "Other" => .other
  | _ => .other

/-- `serde_io_error::IoError`, 543-547. -/
structure IoWire where
  kind : Option String
  message : Option String
deriving DecidableEq, Repr, Inhabited

/-- `serde_io_error::serialize`, 549-601. -/
def writeIo (e : IoError) : IoWire := ⟨kindName e.kind, e.inner⟩

/-- `serde_io_error::deserialize`, 603-657. -/
def readIo (w : IoWire) : IoError := .custom (kindOfName w.kind) (w.message.getD "unknown error")

/-- `DcbError`, 485-533: `Io` with its error, the other variants as in `Err`. -/
inductive DcbErr where
  | io (e : IoError)
  | plain (e : Err)
deriving DecidableEq, Repr, Inhabited

/-- What is written for an error. -/
inductive Wire where
  | io (w : IoWire)
  | plain (e : Err)
deriving DecidableEq, Repr, Inhabited

def writeErr : DcbErr → Wire
  | .io e => .io (writeIo e)
  | .plain e => .plain e

def readErr : Wire → DcbErr
  | .io w => .io (readIo w)
  | .plain e => .plain e

end Uma.Core
