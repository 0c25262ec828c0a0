import Verif.Net.Rpc

/-!
# Model of connecting and routing

Client: umadb-client/src/lib.rs 916-1021, 1059-1076.  Server: umadb-server/src/lib.rs 37-66, 78-166, 177-194, and the command line,
umadb/src/lib.rs 34-191.  Text is a list of characters.
-/

namespace Uma.Net

abbrev Text := List Char

/-- `str::starts_with`. -/
def startsWith (u p : Text) : Bool := p.isPrefixOf u

/-- `ClientTlsOptions`, 916-920; also what is handed to `ClientTlsConfig`. -/
structure TlsOptions where
  domain : Option String := none
  ca : Option (List Nat) := none
deriving DecidableEq, Repr

/-- An `Endpoint`: where to, and the TLS configuration if one was set. -/
structure Endpoint where
  url : Text
  tls : Option TlsOptions
deriving DecidableEq, Repr

def https : Text := "https://".toList
def grpcs : Text := "grpcs://".toList

/-- `new_endpoint`, 922-954; the second test looks at the URL as it was given. -/
def newEndpoint (url : Text) (tls : Option TlsOptions) : Endpoint :=
  let owned := if startsWith url grpcs = true then https ++ url.drop grpcs.length else url
  match tls with
  | some opts => ⟨owned, some opts⟩
  | none => if startsWith url https = true then ⟨owned, some {}⟩ else ⟨owned, none⟩

/-- A connection as `tonic` makes it: `https` URLs need a TLS configuration, for other URLs it is not used.  `reaches`: the
server answers (and, with TLS, its certificate is accepted). -/
def dial (reaches : Bool) (e : Endpoint) : Except String Bool :=
  if startsWith e.url https = true then
    match e.tls with
    | none => .error "HTTPS URI without TLS support"
    | some _ => if reaches then .ok true else .error "connection refused"
  else if reaches then .ok false
  else .error "connection refused"

/-- A connected client: its configuration and whether the channel is encrypted. -/
structure Connected where
  config : ClientConfig
  encrypted : Bool

/-- `connect_with_tls_options`, 1059-1076. -/
def connectWith (url : Text) (tls : Option TlsOptions) (batchSize : Option Nat) (apiKey : Option String) (reaches : Bool) :
    Except Err Connected :=
  match dial reaches (newEndpoint url tls) with
  | .error m => .error (.transport m)
  | .ok enc => .ok ⟨⟨startsWith url https || startsWith url grpcs, apiKey, batchSize⟩, enc⟩

/-- The loop of `connect`, 1001-1020, with `left` attempts to go, attempt number `n` next: the outcome and how many attempts
were made. -/
def retry {α : Type} (attempt : Nat → Except Err α) : Nat → Nat → Except Err α × Nat
  | 0, n => (.error (.transport ""), n)
  | left + 1, n =>
    match attempt n with
    | .ok c => (.ok c, n + 1)
    | .error e => if left = 0 then (.error e, n + 1) else retry attempt left (n + 1)

/-- `max_attempts`, 1000. -/
def maxAttempts : Nat := 50

/-- `connect`, 974-1021; the file of the CA certificate has been read. -/
def connect (url : Text) (ca : Option (List Nat)) (batchSize : Option Nat) (apiKey : Option String) (reaches : Nat → Bool) :
    Except Err Connected × Nat :=
  retry (fun n => connectWith url (some ⟨none, ca⟩) batchSize apiKey (reaches n)) maxAttempts 0

/-! ## Server -/

/-- `ServerTlsOptions::from_path_strings`, 44-57; `readFile` tells what the file holds. -/
def serverTls {α : Type} (readFile : String → Except String α) : Option String → Option String → Except String (Option (α × α))
  | some cert, some key =>
    match readFile cert with
    | .error e => .error e
    | .ok c =>
      match readFile key with
      | .error e => .error e
      | .ok k => .ok (some (c, k))
  | none, none => .ok none
  | _, _ => .error "both cert_path and key_path must be provided for TLS"

inductive ReadMethod
  | fileIo | mmap
deriving DecidableEq, Repr

/-- `ReadMethod::from_str`, umadb-core/src/pager.rs 28-34. -/
def readMethod (s : String) : Option ReadMethod :=
  if s.toLower = "fileio" then some .fileIo else if s.toLower = "mmap" then some .mmap else none

/-- What the command line sets of the server: umadb/src/lib.rs 34-109. -/
structure Args where
  cert : Option String
  key : Option String
  apiKey : Option String
  readMethod : String := "fileio"

/-- Encryption, key and read method of the server that is started: `from_args` 145-159, `validate` 163-168, `to_server_options`
170-190. -/
def serverOf {α : Type} (readFile : String → Except String α) (a : Args) :
    Except String (Option (α × α) × Option String × ReadMethod) :=
  if a.cert.isSome ≠ a.key.isSome then .error "both tls_cert_path and tls_key_path must be provided for TLS"
  else
    match serverTls readFile a.cert a.key with
    | .error e => .error e
    | .ok tls => .ok (tls, a.apiKey, (readMethod a.readMethod).getD .mmap)

/-! ## Paths -/

/-- `str::replace`: all occurrences of `p`, from the left, not overlapping (`p` is not empty).  `skip`: characters of the last
occurrence still to pass over. -/
def replaceFrom (p r : Text) : Nat → Text → Text
  | _, [] => []
  | skip + 1, _ :: s => replaceFrom p r skip s
  | 0, c :: s => if startsWith (c :: s) p = true then r ++ replaceFrom p r (p.length - 1) s else c :: replaceFrom p r 0 s

def replaceAll (p r s : Text) : Text := replaceFrom p r 0 s

def oldService : Text := "/umadb.UmaDBService/".toList
def service : Text := "/umadb.v1.DCB/".toList

/-- `PathRewriterService::call`, 105-138; `builds`: the new URI can be built. -/
def rewritePath (builds : Bool) (path : Text) : Text :=
  if startsWith path oldService = true then
    if builds then replaceAll oldService service path else path
  else path

inductive Method
  | read | subscribe | append | head | tracking
deriving DecidableEq, Repr

/-- umadb.proto 171-187. -/
def Method.name : Method → Text
  | .read => "Read".toList
  | .subscribe => "Subscribe".toList
  | .append => "Append".toList
  | .head => "Head".toList
  | .tracking => "GetTrackingInfo".toList

/-- The generated service: a call is selected by its exact path. -/
def route (path : Text) : Option Method :=
  [Method.read, .subscribe, .append, .head, .tracking].find? (fun m => path == service ++ m.name)

end Uma.Net
