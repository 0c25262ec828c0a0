import Verif.Spec.Types

/-!
# Abstract specification: the event log

This file is the yardstick.  It refers to nothing of the implementation: a database *is* a list of records
(the record at list index `i` has position `i + 1`) and a map from tracking source to position.
-/

namespace Uma.Spec

/-- An event satisfies a query item: the type is listed (or none is), and every item tag is an event tag. -/
def ItemMatches (it : QueryItem) (e : Event) : Prop :=
  (it.types = [] ∨ e.eventType ∈ it.types) ∧ ∀ t ∈ it.tags, t ∈ e.tags

/-- An event satisfies a query: no items, or some item is satisfied. -/
def Matches (q : Query) (e : Event) : Prop :=
  q.items = [] ∨ ∃ it ∈ q.items, ItemMatches it e

instance (it : QueryItem) (e : Event) : Decidable (ItemMatches it e) :=
  inferInstanceAs (Decidable (_ ∧ _))

instance (q : Query) (e : Event) : Decidable (Matches q e) :=
  inferInstanceAs (Decidable (_ ∨ _))

/-- The committed events, oldest first. -/
abbrev Log := List Record

/-- Attach consecutive positions starting at `n`. -/
def numberFrom {α} (n : Nat) : List α → List (Nat × α)
  | [] => []
  | a :: l => (n, a) :: numberFrom (n + 1) l

def toSeq (p : Nat × Record) : SeqEvent := ⟨p.1, p.2.event, p.2.tracking⟩

/-- The log with positions 1, 2, 3, … -/
def sequenced (log : Log) : List SeqEvent := (numberFrom 1 log).map toSeq

/-- Position range selected by `start` and direction. -/
def InRange (start : Option Nat) (backwards : Bool) (p : Nat) : Prop :=
  match start with
  | none => True
  | some s => if backwards then p ≤ s else s ≤ p

instance (start : Option Nat) (b : Bool) (p : Nat) : Decidable (InRange start b p) :=
  match start with
  | none => isTrue trivial
  | some s => inferInstanceAs (Decidable (if b then p ≤ s else s ≤ p))

def applyLimit {α} (limit : Option Nat) (l : List α) : List α :=
  match limit with
  | none => l
  | some n => l.take n

/-- What a read must return. -/
def read (log : Log) (q : Query) (start : Option Nat) (backwards : Bool) (limit : Option Nat) :
    List SeqEvent :=
  let sel := (sequenced log).filter
    fun e => decide (InRange start backwards e.position) && decide (Matches q e.event)
  applyLimit limit (if backwards then sel.reverse else sel)

/-- Last committed position. -/
def head (log : Log) : Option Nat := if log = [] then none else some log.length

/-- Some recorded event after `after` matches the query. -/
def Conflict (log : Log) (c : Condition) : Prop :=
  ∃ e ∈ sequenced log, (∀ a, c.after = some a → a < e.position) ∧ Matches c.failIfEventsMatch e.event

end Uma.Spec
