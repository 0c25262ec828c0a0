import Verif.Net.Client
import Verif.Db.Append

/-!
# Model of `read_with_head` and `collect_with_head`

umadb-dcb/src/lib.rs 66-75, 172-183 (call `read`, then `collect_with_head`), 214-222 (async), umadb-client/src/lib.rs 722-728 (sync),
umadb-core/src/db.rs 463-478 (embedded).
-/

namespace Uma.Net
open Uma.Db

/-- The loop of `collect_with_head`: items until the end, an error ends it, then `head`.  The Rust loop has no bound; with `turns` too small the
answer is `none` (the theorems show how many suffice). -/
def collectLoop {σ : Type} (next : σ → Option (Except Err SeqEvent) × σ) (head : σ → Except Err (Option Nat) × σ) :
    (turns : Nat) → σ → List SeqEvent → Option (Except Err (List SeqEvent × Option Nat))
  | 0, _, _ => none
  | turns + 1, s, out =>
    match next s with
    | (some (.error e), _) => some (.error e)
    | (some (.ok ev), s') => collectLoop next head turns s' (out ++ [ev])
    | (none, s') =>
      match head s' with
      | (.error e, _) => some (.error e)
      | (.ok h, _) => some (.ok (out, h))

/-- `DcbReadResponseAsync::collect_with_head`, umadb-dcb/src/lib.rs 214-222, on the response of the async client. -/
def asyncCollect (turns : Nat) (inc : Incoming) : Option (Except Err (List SeqEvent × Option Nat)) :=
  collectLoop asyncNext asyncHead turns (AsyncResp.new inc) []

/-- `SyncClientReadResponse::collect_with_head`, umadb-client/src/lib.rs 722-728. -/
def syncCollect (turns : Nat) (inc : Incoming) : Option (Except Err (List SeqEvent × Option Nat)) :=
  collectLoop (syncNext false) syncHead turns (SyncResp.new inc) []

/-- `ReadResponse` of the embedded database, db.rs 463-485. -/
structure LocalResp where
  events : List SeqEvent
  head : Option Nat

/-- `next`, db.rs 463-468. -/
def LocalResp.next (r : LocalResp) : Option (Except Err SeqEvent) × LocalResp :=
  match r.events with
  | [] => (none, r)
  | e :: l => (some (.ok e), { r with events := l })

/-- `next_batch`, db.rs 478-481. -/
def LocalResp.nextBatch (r : LocalResp) : Except Err (List SeqEvent) × LocalResp := (.ok r.events, { r with events := [] })

/-- `head`, db.rs 471-473. -/
def LocalResp.getHead (r : LocalResp) : Except Err (Option Nat) × LocalResp := (.ok r.head, r)

/-- `collect_with_head`, db.rs 474-477: drains the events. -/
def LocalResp.collect (r : LocalResp) : Except Err (List SeqEvent × Option Nat) × LocalResp := (.ok (r.events, r.head), { r with events := [] })

/-- `read_with_head` on the embedded database, umadb-dcb/src/lib.rs 66-75. -/
def localReadWithHead {δ σ υ ι : Type} (B : Backend δ σ υ ι) (env : Env) (d : δ) (query : Option Query) (start : Option Nat) (backwards : Bool)
    (limit : Option Nat) : Except Err (List SeqEvent × Option Nat) :=
  match Db.read B env d query start backwards limit with
  | .error e => .error e
  | .ok (events, h) => (LocalResp.collect ⟨events, h⟩).1

end Uma.Net
