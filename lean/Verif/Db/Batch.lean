import Verif.Db.AppendApi

/-!
# `append_batch`

`UmaDb::append_batch`, umadb-core/src/db.rs 77-147: several requests in one transaction through the library, with a policy for errors that
differs from the one of the writer thread.  Simplification: a Rust panic is the result `.error (.panic msg)`.
-/

namespace Uma.Db
open Uma.Spec

variable {δ σ υ ι : Type}

/-- The variables of the loop: the transaction, `results`, and `abort_idx` with `abort_err`. -/
structure Items (σ : Type) where
  w : σ
  results : List (Except Err Nat)
  abort : Option (Nat × Err)

/-- One turn, db.rs 103-125. -/
def stepItem (B : Backend δ σ υ ι) (env : Env) (x : Items σ) (idx : Nat) (req : Request) : Except String (Items σ) :=
  match processAppend B env req (fun _ => Cancel.never) x.w with
  | (.error (.panic m), _) => .error m
  | (.ok p, w') => .ok { x with w := w', results := x.results ++ [.ok p] }
  | (.error e, w') =>
    if isIntegrityError e then .ok { x with w := w', results := x.results ++ [.error e] }
    else .ok ⟨w', x.results ++ [.error e], some (idx, e)⟩

/-- The loop, db.rs 103-125; it ends after the first error that is not an integrity error. -/
def runItems (B : Backend δ σ υ ι) (env : Env) : Nat → List Request → Items σ → Except String (Items σ)
  | _, [], x => .ok x
  | idx, req :: reqs, x =>
    if x.abort.isSome then .ok x
    else
      match stepItem B env x idx req with
      | .error m => .error m
      | .ok x' => runItems B env (idx + 1) reqs x'

/-- db.rs 129-141: every other result is replaced, and the missing ones are filled in. -/
def abortedResults (total failedAt : Nat) (e : Err) (results : List (Except Err Nat)) : List (Except Err Nat) :=
  results.mapIdx (fun i r => if i ≠ failedAt then .error (shadow e) else r) ++ List.replicate (total - results.length) (.error (shadow e))

/-- `append_batch`, db.rs 85-147. -/
def appendBatch (B : Backend δ σ υ ι) (env : Env) (reqs : List Request) (i : ι) (d : δ) : Except Err (List (Except Err Nat)) × δ :=
  match B.begin d with
  | .error e => (.error e, d)
  | .ok w =>
    match runItems B env 0 reqs ⟨w, [], none⟩ with
    | .error m => (.error (.panic m), d)
    | .ok x =>
      match x.abort with
      | some (failedAt, e) => (.ok (abortedResults reqs.length failedAt e x.results), d)
      | none =>
        match B.commit i x.w with
        | (.error e, d') => (.error e, d')
        | (.ok _, d') => (.ok x.results, d')

end Uma.Db
