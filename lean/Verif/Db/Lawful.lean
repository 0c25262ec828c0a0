import Verif.Spec.Db
import Verif.Db.Append
import Verif.Db.ReadCorrect

/-! What the storage operations must do for the request logic to be right; established for the in-memory backend in
`Mem.lean` and for the page-level backend in `Verif/Page`. -/

namespace Uma.Db
open Uma.Spec

/-- Logical content of a write transaction: position counter, events, tag index entries, tracking. -/
structure Abs where
  next : Nat
  log : Log
  idx : TagHash → List Nat
  track : String → Option Nat

/-- The index holds exactly the tags of the recorded events: under each hash the positions of the events with such a tag, in
order, a position once for each tag of its event that has this hash. -/
def idxOf (H : String → TagHash) (log : Log) : TagHash → List Nat :=
  fun h => (numberFrom 1 log).flatMap fun x => (x.2.event.tags.filter fun t => decide (H t = h)).map fun _ => x.1

theorem mem_idxOf {H : String → TagHash} {log : Log} {h : TagHash} {p : Nat} :
    p ∈ idxOf H log h ↔ ∃ r, (p, r) ∈ numberFrom 1 log ∧ ∃ t ∈ r.event.tags, H t = h := by
  simp only [idxOf, List.mem_flatMap, List.mem_map, List.mem_filter, decide_eq_true_eq]
  constructor
  · rintro ⟨⟨q, r⟩, h1, t, ⟨h2, h3⟩, rfl⟩
    exact ⟨r, h1, t, h2, h3⟩
  · rintro ⟨r, h1, t, h2, h3⟩
    exact ⟨(p, r), h1, t, ⟨h2, h3⟩, rfl⟩

/-- Transaction content corresponding to a database state. -/
def Abs.of (H : String → TagHash) (s : Spec.Db) : Abs :=
  ⟨s.log.length + 1, s.log, idxOf H s.log, s.track⟩

/-- Errors after which the whole batch is given up (neither refusal nor panic). -/
def Fatal (e : Err) : Prop :=
  isIntegrityError e = false ∧ isInvalidArgumentError e = false ∧ isPanic e = false

variable {δ σ υ ι : Type}

/-- The check of a condition with query `q`, made on the snapshot `s`, sees `log` or fails with an error in `Bad`. -/
def Checks (H : String → TagHash) (s : Snap) (log : Log) (q : Query) (Bad : Err → Prop) : Prop :=
  ∀ ord : List (String × List Nat) → List (String × List Nat), (∀ l, (ord l).Perm l) →
    ∀ (start limit : Option Nat) (c : Cancel),
      readConditional H ord s q start false limit false c = .ok (Spec.read log q start false limit) ∨
      (readConditional H ord s q start false limit false c = .error .cancelledByUser ∧ ∃ j, c j = true) ∨
      ∃ e, readConditional H ord s q start false limit false c = .error e ∧ Bad e

theorem checks_of_refines {H : String → TagHash} {s : Snap} {log : Log} (h : Refines H s log) (q : Query) (Bad : Err → Prop) :
    Checks H s log q Bad := fun ord hord start limit c =>
  (readConditional_correct H ord hord s log h q start false limit false c).imp id .inl

/-- What the writer needs of the storage, if it is only to check conditions whose query satisfies `Asks`. -/
structure Workable (B : Backend δ σ υ ι) (H : String → TagHash) (valid : Record → Prop) where
  /-- `RepD d s`: the committed database `d` holds `s`. -/
  RepD : δ → Spec.Db → Prop
  /-- `Rep w s a`: the transaction `w` started from `s` and now holds `a`. -/
  Rep : σ → Spec.Db → Abs → Prop
  /-- Errors with which an operation before the commit may fail. -/
  Fails : Err → Prop
  fails : ∀ {e}, Fails e → Fatal e
  /-- Queries on which the storage answers rightly or not at all. -/
  Asks : Query → Prop
  begin : ∀ {d s}, RepD d s →
    (∃ w, B.begin d = .ok w ∧ Rep w s (Abs.of H s)) ∨ ∃ e, B.begin d = .error e ∧ Fails e
  checks : ∀ {w s0 s q}, Rep w s0 (Abs.of H s) → Asks q → Checks H (B.snap w) s.log q Fails
  nextPos : ∀ {w s0 a}, Rep w s0 a → B.nextPos w = a.next
  issue : ∀ {w s0 a}, Rep w s0 a →
    (B.issue w).1 = a.next ∧ Rep (B.issue w).2 s0 { a with next := a.next + 1 }
  validate : ∀ r, (valid r ∧ ∃ v, B.validate r = .ok v) ∨
    (¬ valid r ∧ ∃ m, B.validate r = .error (.invalidArgument m))
  tagInsert : ∀ {w s0 a} h p, (∃ t, H t = h) → Rep w s0 a → p = a.log.length + 1 → a.next = p + 1 →
    (∃ w', B.tagInsert h p w = (.ok (), w') ∧
      Rep w' s0 { a with idx := fun h' => if h' = h then a.idx h' ++ [p] else a.idx h' }) ∨
    ∃ e w', B.tagInsert h p w = (.error e, w') ∧ Fails e
  eventAppend : ∀ {w s0 a} r v p, Rep w s0 a → B.validate r = .ok v → p = a.log.length + 1 →
    a.next = p + 1 →
    (∃ w', B.eventAppend r v p w = (.ok (), w') ∧ Rep w' s0 { a with log := a.log ++ [r] }) ∨
    ∃ e w', B.eventAppend r v p w = (.error e, w') ∧ Fails e
  trackUpsert : ∀ {w s0 a} src pos, Rep w s0 a →
    (if 255 < src.utf8ByteSize then
      ∃ m w', B.trackUpsert src pos w = (.error (.invalidArgument m), w') ∧ Rep w' s0 a
    else if ∃ p ∈ a.track src, pos ≤ p then
      ∃ m w', B.trackUpsert src pos w = (.error (.integrity m), w') ∧ Rep w' s0 a
    else
      ∃ w', B.trackUpsert src pos w = (.ok (), w') ∧
        Rep w' s0 { a with track := setTrack a.track ⟨src, pos⟩ }) ∨
    ∃ e w', B.trackUpsert src pos w = (.error e, w') ∧ Fails e
  /-- A failed commit leaves the old or the new state, never a mixture. -/
  commit : ∀ {w s0 s} i, Rep w s0 (Abs.of H s) →
    (∃ d, B.commit i w = (.ok (), d) ∧ RepD d s) ∨
    ∃ e d, B.commit i w = (.error e, d) ∧ Fatal e ∧ (RepD d s0 ∨ RepD d s)

/-- What the storage must do for reads and writes to be right; conditions may have any query. -/
structure Lawful (B : Backend δ σ υ ι) (H : String → TagHash) (valid : Record → Prop) extends Workable B H valid where
  asks : ∀ q, Asks q
  snapR : ∀ {d s}, RepD d s → Refines H (B.snapR d) s.log
  nextPosR : ∀ {d s}, RepD d s → B.nextPosR d = s.log.length + 1
  trackR : ∀ {d s} src, RepD d s → B.trackR d src = .ok (s.track src)
  snap : ∀ {w s0 s}, Rep w s0 (Abs.of H s) → Refines H (B.snap w) s.log

instance {B : Backend δ σ υ ι} {H : String → TagHash} {valid : Record → Prop} :
    CoeOut (Lawful B H valid) (Workable B H valid) := ⟨Lawful.toWorkable⟩

end Uma.Db
