import Verif.Spec.Log

/-!
# Abstract specification: appending

A database is the log and a map from tracking source to position.  `append` says what one request must do; it does
not mention trees, pages, batches or transactions.
-/

namespace Uma.Spec

structure Db where
  log : Log
  track : String → Option Nat

def Db.empty : Db := ⟨[], fun _ => none⟩

/-- What a client is told, up to message texts. -/
inductive Outcome where
  | ok (position : Nat)
  | refusedIntegrity
  | refusedArgument
deriving DecidableEq, Repr

/-- Does an actual answer say this? -/
def Says (r : Except Err Nat) (o : Outcome) : Prop :=
  match r, o with
  | .ok p, .ok p' => p = p'
  | .error (.integrity _), .refusedIntegrity => True
  | .error (.invalidArgument _), .refusedArgument => True
  | _, _ => False

/-- Answers and outcomes agree one by one. -/
def SaysAll : List (Except Err Nat) → List Outcome → Prop
  | [], [] => True
  | r :: rs, o :: os => Says r o ∧ SaysAll rs os
  | _, _ => False

/-- Recorded events that violate the condition, oldest first. -/
def violations (log : Log) (c : Condition) : List SeqEvent :=
  (sequenced log).filter fun e =>
    c.after.all (fun a => decide (a < e.position)) && decide (Matches c.failIfEventsMatch e.event)

/-- The events are a repeat of recorded ones: all carry uuids, and the first recorded events that violate the
condition are, uuid by uuid, exactly the submitted ones.  (The number of events fits in 32 bits.) -/
def IsRepeat (log : Log) (c : Condition) (events : List Event) : Prop :=
  events ≠ [] ∧ (∀ e ∈ events, e.uuid.isSome) ∧ events.length < 2 ^ 32 ∧
    ((violations log c).take events.length).map (·.event.uuid) = events.map (·.uuid)

instance (log : Log) (c : Condition) (events : List Event) : Decidable (IsRepeat log c events) :=
  inferInstanceAs (Decidable (_ ∧ _))

/-- Position answered to a repeat: that of the last of the repeated events. -/
def repeatPosition (log : Log) (c : Condition) (events : List Event) : Nat :=
  (((violations log c).take events.length).getLast?.map (·.position)).getD 0

/-- The records an accepted request adds. -/
def recordsOf (req : Request) : List Record := req.events.map fun e => ⟨e, req.tracking⟩

/-- The tracking source is acceptable, its position is new. -/
def setTrack (track : String → Option Nat) (t : Tracking) : String → Option Nat :=
  fun s => if s = t.source then some t.position else track s

/-- What one request does.  `valid` says which records can be stored. -/
def append (valid : Record → Prop) [DecidablePred valid] (s : Db) (req : Request) : Outcome × Db :=
  let violated := req.condition.bind fun c => if violations s.log c = [] then none else some c
  match violated with
  | some c =>
    if IsRepeat s.log c req.events then (.ok (repeatPosition s.log c req.events), s)
    else (.refusedIntegrity, s)
  | none =>
    if ¬ ∀ r ∈ recordsOf req, valid r then (.refusedArgument, s)
    else
      let log' := s.log ++ recordsOf req
      let pos := if req.events = [] then 0 else log'.length
      match req.tracking with
      | none => (.ok pos, ⟨log', s.track⟩)
      | some t =>
        if 255 < t.source.utf8ByteSize then (.refusedArgument, s)
        else if ∃ p ∈ s.track t.source, t.position ≤ p then (.refusedIntegrity, s)
        else (.ok pos, ⟨log', setTrack s.track t⟩)

/-- Requests one after the other. -/
def appendAll (valid : Record → Prop) [DecidablePred valid] : Db → List Request → List Outcome × Db
  | s, [] => ([], s)
  | s, r :: rs =>
    let (o, s') := append valid s r
    let (os, s'') := appendAll valid s' rs
    (o :: os, s'')

/-- An answer reporting a failure of the store (not a refusal of the request, not success). -/
def Failure : Except Err Nat → Prop
  | .ok _ => False
  | .error (.integrity _) => False
  | .error (.invalidArgument _) => False
  | .error _ => True

/-- What a sequence of requests does when they are served in batches: every batch either takes full effect, its
requests executed one after the other, or is reported as failed to every client in it.  A failed batch has no effect,
unless the failure happened while making it durable: then it may have happened as a whole.
Arguments: state before, requests with client ids, answers sent, heads announced, state after. -/
inductive Served (valid : Record → Prop) [DecidablePred valid] :
    Db → List (Nat × Request) → List (Nat × Except Err Nat) → List (Option Nat) → Db → Prop
  | done {s} : Served valid s [] [] [] s
  | committed {s js as js' as' hs s'} :
      as.map (·.1) = js.map (·.1) →
      SaysAll (as.map (·.2)) (appendAll valid s (js.map (·.2))).1 →
      Served valid (appendAll valid s (js.map (·.2))).2 js' as' hs s' →
      Served valid s (js ++ js') (as ++ as')
        (head (appendAll valid s (js.map (·.2))).2.log :: hs) s'
  | failed {s js as js' as' hs s'} :
      as.map (·.1) = js.map (·.1) → (∀ a ∈ as, Failure a.2) →
      Served valid s js' as' hs s' →
      Served valid s (js ++ js') (as ++ as') hs s'
  | failedLate {s js as js' as' hs s'} :
      as.map (·.1) = js.map (·.1) → (∀ a ∈ as, Failure a.2) →
      Served valid (appendAll valid s (js.map (·.2))).2 js' as' hs s' →
      Served valid s (js ++ js') (as ++ as') hs s'

end Uma.Spec

namespace Uma.Spec

/-- The change an accepted request makes. -/
def effect (s : Db) (req : Request) : Db :=
  ⟨s.log ++ recordsOf req, match req.tracking with | none => s.track | some t => setTrack s.track t⟩

/-- History of requests with their answers: each took effect as a whole or not at all.
`took`: it was appended; the client was told so (with the last position), or a failure of the store was reported.
`not`: nothing changed; the client got an error, or the position of the events it was repeating. -/
inductive Trace (valid : Record → Prop) : Db → List (Request × Except Err Nat × Bool) → Db → Prop
  | nil {s} : Trace valid s [] s
  | took {s req a tr s'} :
      (∀ c ∈ req.condition, violations s.log c = []) →
      (∀ r ∈ recordsOf req, valid r) →
      (∀ t ∈ req.tracking, ∀ p ∈ s.track t.source, p < t.position) →
      ((req.events ≠ [] ∧ a = .ok (s.log.length + req.events.length)) ∨ (req.events = [] ∧ a = .ok 0) ∨
        Failure a) →
      Trace valid (effect s req) tr s' → Trace valid s ((req, a, true) :: tr) s'
  | not {s req a tr s'} :
      ((∃ e, a = .error e) ∨
        ∃ c ∈ req.condition, IsRepeat s.log c req.events ∧ a = .ok (repeatPosition s.log c req.events)) →
      Trace valid s tr s' → Trace valid s ((req, a, false) :: tr) s'

/-- Requests of a history that took effect. -/
def tookEffect (tr : List (Request × Except Err Nat × Bool)) : List Request :=
  (tr.filter (·.2.2)).map (·.1)

end Uma.Spec
