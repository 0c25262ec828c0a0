import Verif.Spec.Db

/-!
# What it means for a history of calls to be linearizable

Calls overlap in time.  The history says when each call began and when it returned, and with what answer.
-/

namespace Uma.Spec

/-- What can be asked of a reader. -/
inductive Look
  | read (query : Option Query) (start : Option Nat) (backwards : Bool) (limit : Option Nat)
  | head
  | track (source : String)

inductive Seen
  /-- The events, and the head reported with them. -/
  | events (l : List SeqEvent) (head : Option Nat)
  | position (p : Option Nat)

/-- The right answer when the database is `s`. -/
def Look.on (s : Db) : Look → Seen
  | .read query start backwards limit =>
    .events (Spec.read s.log (query.getD ⟨[]⟩) start backwards limit)
      (match limit with
        | none => Spec.head s.log
        | some _ => (Spec.read s.log (query.getD ⟨[]⟩) start backwards limit).getLast?.map (·.position))
  | .head => .position (Spec.head s.log)
  | .track source => .position (s.track source)

/-- What happens between clients and the store. -/
inductive Happening
  /-- An append is called, under the name `id`. -/
  | asked (id : Nat) (req : Request)
  /-- It returns. -/
  | answered (id : Nat) (a : Except Err Nat)
  /-- The head is announced. -/
  | announced (head : Option Nat)
  /-- A reader is asked for, under the name `i`. -/
  | opened (i : Nat)
  /-- The reader `i` returns an answer. -/
  | saw (i : Nat) (l : Look) (a : Seen)
  | crashed

/-- Happenings with their times. -/
abbrev History := List (Nat × Happening)

/-- An append that took effect, or was refused, at some time. -/
structure Done where
  time : Nat
  id : Nat
  req : Request
  ans : Except Err Nat

/-- The database at the time `t`. -/
def stateAt (valid : Record → Prop) [DecidablePred valid] (s : Db) (A : List Done) (t : Nat) : Db :=
  (appendAll valid s ((A.filter fun x => decide (x.time ≤ t)).map (·.req))).2

/-- The calls of the history `hist` can be understood as if each happened in an instant between its beginning and its end,
starting with the database `s`.  `A`: the appends that happened, in order; they are carried out one after the other.
`τ`: the instant of each reader. -/
structure Linear (valid : Record → Prop) [DecidablePred valid] (s : Db) (hist : History) (A : List Done) (τ : Nat → Nat) : Prop where
  /-- Time goes on. -/
  clock : hist.Pairwise fun x y => x.1 < y.1
  sorted : A.Pairwise fun x y => x.time ≤ y.time
  /-- Each append happens once at most. -/
  once : (A.map (·.id)).Nodup
  /-- Their answers are those of appends one at a time. -/
  legal : SaysAll (A.map (·.ans)) (appendAll valid s (A.map (·.req))).1
  /-- What happens was asked for before. -/
  asked : ∀ x ∈ A, ∃ t, (t, .asked x.id x.req) ∈ hist ∧ t < x.time
  /-- Who gets an answer gets the one of the append that happened, afterwards; or a failure is reported, and nothing
  happened. -/
  answered : ∀ t id a, (t, .answered id a) ∈ hist →
    (∃ x ∈ A, x.id = id ∧ x.ans = a ∧ x.time < t) ∨ (Failure a ∧ ∀ x ∈ A, x.id ≠ id)
  /-- Nobody is answered twice, or without asking. -/
  onceAnswered : ∀ t t' id a a', (t, .answered id a) ∈ hist → (t', .answered id a') ∈ hist → t = t'
  askedFirst : ∀ t id a, (t, .answered id a) ∈ hist → ∃ t' req, (t', .asked id req) ∈ hist ∧ t' < t
  /-- A reader answers from the database as it was at an instant after the reader was asked for; always the same. -/
  looks : ∀ t i l a, (t, .saw i l a) ∈ hist → (∃ t0, (t0, .opened i) ∈ hist ∧ t0 < τ i) ∧ τ i < t ∧ a = l.on (stateAt valid s A (τ i))
  /-- An announced head is that of the moment. -/
  heads : ∀ t h, (t, .announced h) ∈ hist → h = Spec.head (stateAt valid s A t).log

end Uma.Spec
