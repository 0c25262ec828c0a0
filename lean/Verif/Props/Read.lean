import Verif.Db.Mem

/-!
# Properties of reading: C07, C08, C09, C10, C11, C40

`L.RepD d s` says that the committed database `d` of some lawful storage holds the abstract state `s`
(`Verif/Db/Lawful.lean`); every database reachable through the API has such an `s` (`Verif/Props/Append.lean`), and
the page-level storage is lawful (`Verif/Page`).
-/

namespace Uma.Props
open Uma.Spec Uma.Db

variable {δ σ υ ι : Type} {B : Backend δ σ υ ι} {valid : Record → Prop}

/-- C07: a forward read returns the first `limit` matching events from `start` on, in increasing position order. -/
theorem C07_forward_read {env : Env} (he : EnvOk env) (L : Lawful B env.H valid) {d : δ} {s : Spec.Db}
    (hd : L.RepD d s) (query : Option Query) (start limit : Option Nat) :
    ∃ h, Db.read B env d query start false limit = .ok
      (applyLimit limit ((sequenced s.log).filter fun e =>
        start.all (fun st => decide (st ≤ e.position)) && decide (Matches (query.getD ⟨[]⟩) e.event)), h) := by
  unfold Db.read
  rcases readConditional_correct env.H env.ord he.ord _ _ (L.snapR hd) (query.getD ⟨[]⟩) start false limit
    false Cancel.never with h | ⟨_, j, hj⟩
  · rw [h]
    have : Spec.read s.log (query.getD ⟨[]⟩) start false limit =
        applyLimit limit ((sequenced s.log).filter fun e =>
          start.all (fun st => decide (st ≤ e.position)) && decide (Matches (query.getD ⟨[]⟩) e.event)) := by
      simp only [Spec.read, Bool.false_eq_true, if_false]
      congr 2
      funext e
      congr 1
      rw [Bool.eq_iff_iff, decide_eq_true_iff]
      cases start <;> simp [InRange]
    rw [← this]
    exact ⟨_, rfl⟩
  · simp [Cancel.never] at hj

/-- C07, second half: the positions are strictly increasing (so no event is returned twice) and are those of the log. -/
theorem C07_positions (log : Log) :
    (sequenced log).map (·.position) = List.range' 1 log.length ∧
    (sequenced log).map (fun e => (⟨e.event, e.tracking⟩ : Record)) = log := by
  have : ∀ n, (numberFrom n log).map (fun p => (toSeq p).position) = List.range' n log.length ∧
      (numberFrom n log).map (fun p => (⟨(toSeq p).event, (toSeq p).tracking⟩ : Record)) = log := by
    induction log with
    | nil => intro n; simp [numberFrom]
    | cons r log ih => intro n; simp [numberFrom, toSeq, List.range'_succ]; exact ih (n + 1)
  simpa [sequenced, Function.comp_def] using this 1

/-- C08: a backward read returns the last `limit` matching events up to `start`, in decreasing position order. -/
theorem C08_backward_read {env : Env} (he : EnvOk env) (L : Lawful B env.H valid) {d : δ} {s : Spec.Db}
    (hd : L.RepD d s) (query : Option Query) (start limit : Option Nat) :
    ∃ h, Db.read B env d query start true limit = .ok
      (applyLimit limit ((sequenced s.log).filter fun e =>
        start.all (fun st => decide (e.position ≤ st)) && decide (Matches (query.getD ⟨[]⟩) e.event)).reverse, h) := by
  unfold Db.read
  rcases readConditional_correct env.H env.ord he.ord _ _ (L.snapR hd) (query.getD ⟨[]⟩) start true limit
    false Cancel.never with h | ⟨_, j, hj⟩
  · rw [h]
    have : Spec.read s.log (query.getD ⟨[]⟩) start true limit =
        applyLimit limit ((sequenced s.log).filter fun e =>
          start.all (fun st => decide (e.position ≤ st)) && decide (Matches (query.getD ⟨[]⟩) e.event)).reverse := by
      simp only [Spec.read, if_true]
      congr 3
      funext e
      congr 1
      rw [Bool.eq_iff_iff, decide_eq_true_iff]
      cases start <;> simp [InRange]
    rw [← this]
    exact ⟨_, rfl⟩
  · simp [Cancel.never] at hj

/-- C08, boundary: a backward read from position 0 returns nothing. -/
theorem C08_start_zero {env : Env} (he : EnvOk env) (L : Lawful B env.H valid) {d : δ} {s : Spec.Db}
    (hd : L.RepD d s) (query : Option Query) (limit : Option Nat) :
    ∃ h, Db.read B env d query (some 0) true limit = .ok ([], h) := by
  obtain ⟨h, hr⟩ := C08_backward_read he L hd query (some 0) limit
  refine ⟨h, ?_⟩
  rw [hr]
  have : ((sequenced s.log).filter fun e =>
      (some 0).all (fun st => decide (e.position ≤ st)) && decide (Matches (query.getD ⟨[]⟩) e.event)) = [] := by
    rw [List.filter_eq_nil_iff]
    intro e he'
    simp only [sequenced, List.mem_map] at he'
    obtain ⟨⟨p, r⟩, hp, rfl⟩ := he'
    have := (mem_numberFrom.mp hp).1
    simp [toSeq]; omega
  rw [this]
  cases limit <;> simp [applyLimit]

/-- C09: an event of the log is selected by a query exactly when the query has no items or some item is satisfied. -/
theorem C09_query_meaning {env : Env} (he : EnvOk env) (L : Lawful B env.H valid) {d : δ} {s : Spec.Db}
    (hd : L.RepD d s) (items : List QueryItem) (backwards : Bool) :
    ∃ evs h, Db.read B env d (some ⟨items⟩) none backwards none = .ok (evs, h) ∧
      ∀ e, e ∈ evs ↔ e ∈ sequenced s.log ∧
        (items = [] ∨ ∃ it ∈ items,
          (it.types = [] ∨ e.event.eventType ∈ it.types) ∧ ∀ t ∈ it.tags, t ∈ e.event.tags) := by
  cases backwards
  · obtain ⟨h, hr⟩ := C07_forward_read he L hd (some ⟨items⟩) none none
    exact ⟨_, h, hr, fun e => by
      simp only [applyLimit, List.mem_reverse, List.mem_filter, Option.all_none, Bool.true_and,
        decide_eq_true_iff]
      rfl⟩
  · obtain ⟨h, hr⟩ := C08_backward_read he L hd (some ⟨items⟩) none none
    exact ⟨_, h, hr, fun e => by
      simp only [applyLimit, List.mem_reverse, List.mem_filter, Option.all_none, Bool.true_and,
        decide_eq_true_iff]
      rfl⟩

/-- C10: whatever the hash function, reading through the tag index gives the same list as the sequential scan. -/
theorem C10_index_equals_scan (H : String → TagHash)
    (ord : List (String × List Nat) → List (String × List Nat)) (hord : ∀ l, (ord l).Perm l)
    (s : Snap) (log : Log) (hr : Refines H s log)
    (q : Query) (start : Option Nat) (backwards : Bool) (limit : Option Nat) :
    readConditional H ord s q start backwards limit false Cancel.never =
      readConditional H ord s q start backwards limit true Cancel.never := by
  rcases readConditional_correct H ord hord s log hr q start backwards limit false Cancel.never with
    h | ⟨_, j, hj⟩
  · rcases readConditional_correct H ord hord s log hr q start backwards limit true Cancel.never with
      h' | ⟨_, j, hj⟩
    · rw [h, h']
    · simp [Cancel.never] at hj
  · simp [Cancel.never] at hj

/-- C11: `head` is the number of committed events, none if there are none. -/
theorem C11_head {H : String → TagHash} (L : Lawful B H valid) {d : δ} {s : Spec.Db} (hd : L.RepD d s) :
    Db.head B d = if s.log = [] then none else some s.log.length := by
  simp only [Db.head, L.nextPosR hd, headOfNext, Nat.add_sub_cancel, List.length_eq_zero_iff]

/-- C11: head reported with a read: of the snapshot without limit, last returned position with limit. -/
theorem C11_read_head {env : Env} (L : Lawful B env.H valid) {d : δ} {s : Spec.Db}
    (hd : L.RepD d s) (query : Option Query) (start : Option Nat) (backwards : Bool) (limit : Option Nat)
    {evs : List SeqEvent} {h : Option Nat}
    (hr : Db.read B env d query start backwards limit = .ok (evs, h)) :
    (limit = none → h = if s.log = [] then none else some s.log.length) ∧
    (limit ≠ none → h = evs.getLast?.map (·.position)) := by
  unfold Db.read at hr
  split at hr
  · cases hr
  · simp only [Except.ok.injEq, Prod.mk.injEq] at hr
    obtain ⟨rfl, rfl⟩ := hr
    cases limit with
    | none =>
      refine ⟨fun _ => ?_, by simp⟩
      simp only [L.nextPosR hd, headOfNext, Nat.add_sub_cancel, List.length_eq_zero_iff]
    | some n => exact ⟨by simp, fun _ => rfl⟩

/-- C40: with a cancel flag raised at any moment a read returns the complete result or the cancellation error, the
latter only if the flag was raised. -/
theorem C40_cancel_read (H : String → TagHash)
    (ord : List (String × List Nat) → List (String × List Nat)) (hord : ∀ l, (ord l).Perm l)
    (s : Snap) (log : Log) (hr : Refines H s log)
    (q : Query) (start : Option Nat) (backwards : Bool) (limit : Option Nat) (force : Bool) (c : Cancel) :
    readConditional H ord s q start backwards limit force c
        = .ok (Spec.read log q start backwards limit) ∨
      (readConditional H ord s q start backwards limit force c = .error .cancelledByUser ∧
        ∃ j, c j = true) :=
  readConditional_correct H ord hord s log hr q start backwards limit force c

/-! ## Concrete cases -/

section Examples

def exEvent (t : String) (tags : List String) : Event := ⟨t, [1, 2], tags, none, []⟩

/-- Three events; the hash maps every tag to the same value. -/
def exLog : Log :=
  [⟨exEvent "a" ["x", "y"], none⟩, ⟨exEvent "b" ["x"], none⟩, ⟨exEvent "a" ["y", "x"], none⟩]

def exDb : MemDb := ⟨4, exLog, [(7, 1), (7, 2), (7, 3)], [("src", 5)]⟩

def exEnv : Env := ⟨fun _ => 7, id⟩

theorem exEnvOk : EnvOk exEnv := ⟨fun _ => List.Perm.refl _⟩

theorem exRep : (memLawful exEnv.H (fun _ => true)).RepD exDb
    ⟨exLog, fun s => if s = "src" then some 5 else none⟩ where
  next := rfl
  log := rfl
  idx h p := by
    constructor
    · intro hm
      simp only [exDb, List.mem_cons, Prod.mk.injEq, List.not_mem_nil, or_false] at hm
      rcases hm with ⟨rfl, rfl⟩ | ⟨rfl, rfl⟩ | ⟨rfl, rfl⟩
      · exact mem_idxOf.mpr ⟨_, by simp [numberFrom, exLog]; exact rfl, "x", by simp [exEvent], rfl⟩
      · exact mem_idxOf.mpr ⟨_, by simp [numberFrom, exLog]; exact rfl, "x", by simp [exEvent], rfl⟩
      · exact mem_idxOf.mpr ⟨_, by simp [numberFrom, exLog]; exact rfl, "x", by simp [exEvent], rfl⟩
    · intro hm
      obtain ⟨r, hp, t, ht, rfl⟩ := mem_idxOf.mp hm
      simp only [exLog, numberFrom, List.mem_cons, Prod.mk.injEq, List.not_mem_nil, or_false] at hp
      rcases hp with ⟨rfl, _⟩ | ⟨rfl, _⟩ | ⟨rfl, _⟩ <;> simp [exDb, exEnv]
  track s := by
    simp only [exDb, Abs.of, List.lookup_cons, List.lookup_nil]
    by_cases h : s = "src"
    · simp [h]
    · have : (s == "src") = false := by simpa using h
      simp [h, this]

/-- Tag query, forward, with limit; hypotheses of C07/C09 met by `exDb`. -/
example : Db.read (memBackend fun _ => true) exEnv exDb (some ⟨[⟨["a"], ["y", "x"]⟩]⟩) (some 2) false (some 5) =
    .ok ([⟨3, exEvent "a" ["y", "x"], none⟩], some 3) := by
  obtain ⟨h, hr⟩ := C07_forward_read exEnvOk (memLawful exEnv.H (fun _ => true)) exRep
    (some ⟨[⟨["a"], ["y", "x"]⟩]⟩) (some 2) (some 5)
  have hh := (C11_read_head (memLawful exEnv.H (fun _ => true)) exRep _ _ _ _ hr).2 (by simp)
  rw [hr, hh]; rfl

example : ∃ h, Db.read (memBackend fun _ => true) exEnv exDb none (some 2) true none =
    .ok ([⟨2, exEvent "b" ["x"], none⟩, ⟨1, exEvent "a" ["x", "y"], none⟩], h) := by
  obtain ⟨h, hr⟩ := C08_backward_read exEnvOk (memLawful exEnv.H (fun _ => true)) exRep none (some 2) none
  exact ⟨h, by rw [hr]; rfl⟩

example : Db.head (memBackend fun _ => true) exDb = some 3 :=
  C11_head (memLawful exEnv.H (fun _ => true)) exRep

example : readConditional exEnv.H exEnv.ord (memSnap exDb) ⟨[⟨[], ["x"]⟩]⟩ none false none false (fun n => n == 1) =
    .error .cancelledByUser := by
  rcases C40_cancel_read exEnv.H exEnv.ord exEnvOk.ord (memSnap exDb) exLog
    ((memLawful exEnv.H (fun _ => true)).snapR exRep) ⟨[⟨[], ["x"]⟩]⟩ none false none false (fun n => n == 1) with h | h
  · exfalso
    have h2 : readConditional exEnv.H exEnv.ord (memSnap exDb) ⟨[⟨[], ["x"]⟩]⟩ none false none false
      (fun n => n == 1) = .error .cancelledByUser := by
      simp [readConditional, tagQiis, List.zipIdx, addQii, exEnv, memSnap, exDb, InRange, List.range, List.range.loop,
        kmerge, merge2, groupByPos, tagLoop, matchingQiis, exLog, exEvent, typeOk, tagsOk, limitReached]
    rw [h2] at h; cases h
  · exact h.1

end Examples

end Uma.Props
