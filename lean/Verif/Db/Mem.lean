import Verif.Db.AppendProof

/-!
# An in-memory backend

The simplest storage satisfying `Lawful`: lists instead of trees.  It does not model code of /repo; it shows that the
hypotheses of the request-logic theorems can be met, and provides runnable examples.
-/

set_option linter.unusedSimpArgs false

namespace Uma.Db
open Uma.Spec

structure MemDb where
  next : Nat
  log : List Record
  idx : List (TagHash × Nat)
  track : List (String × Nat)
deriving DecidableEq, Repr

def MemDb.empty : MemDb := ⟨1, [], [], []⟩

structure MemTx where
  base : MemDb
  cur : MemDb
deriving DecidableEq, Repr

/-- Disk behaviour at commit. -/
inductive MemIo where
  | good
  | failBefore
  | failAfter

def memSnap (d : MemDb) : Snap where
  scan st b :=
    ((let sel := (numberFrom 1 d.log).filter (fun p => decide (InRange st b p.1))
      if b then sel.reverse else sel), none)
  tagScan h st b :=
    let l := (List.range d.next).filter (fun p => decide ((h, p) ∈ d.idx ∧ InRange st b p))
    if b then l.reverse else l
  lookup p :=
    if p = 0 then .error (.databaseCorrupted "position 0")
    else
      match d.log[p - 1]? with
      | some r => .ok r
      | none => .error (.databaseCorrupted "no such event")

def memBackend (valid : Record → Bool) : Backend MemDb MemTx Unit MemIo where
  begin d := .ok ⟨d, d⟩
  snapR d := memSnap d
  nextPosR d := d.next
  trackR d src := .ok (d.track.lookup src)
  snap w := memSnap w.cur
  nextPos w := w.cur.next
  issue w := (w.cur.next, { w with cur := { w.cur with next := w.cur.next + 1 } })
  validate r := if valid r then .ok () else .error (.invalidArgument "invalid record")
  tagInsert h p w := (.ok (), { w with cur := { w.cur with idx := (h, p) :: w.cur.idx } })
  eventAppend r _ _ w := (.ok (), { w with cur := { w.cur with log := w.cur.log ++ [r] } })
  trackUpsert src pos w :=
    if 255 < src.utf8ByteSize then (.error (.invalidArgument "tracking source too long"), w)
    else
      match w.cur.track.lookup src with
      | some p =>
        if pos ≤ p then (.error (.integrity "non-increasing tracking position"), w)
        else (.ok (), { w with cur := { w.cur with track := (src, pos) :: w.cur.track } })
      | none => (.ok (), { w with cur := { w.cur with track := (src, pos) :: w.cur.track } })
  commit i w :=
    match i with
    | .good => (.ok (), w.cur)
    | .failBefore => (.error (.io "disk full"), w.base)
    | .failAfter => (.error (.io "sync failed"), w.cur)

/-- Representation of logical content by lists. -/
structure MemRep (d : MemDb) (a : Abs) : Prop where
  next : d.next = a.next
  log : d.log = a.log
  idx : ∀ h p, (h, p) ∈ d.idx ↔ p ∈ a.idx h
  track : ∀ s, d.track.lookup s = a.track s

theorem memRefines {H : String → TagHash} {d : MemDb} {s : Spec.Db} (h : MemRep d (Abs.of H s)) :
    Refines H (memSnap d) s.log where
  scan st b := by simp only [memSnap, h.log]; rfl
  lookup p r hp := by
    obtain ⟨h1, h2⟩ := mem_numberFrom.mp hp
    have : p ≠ 0 := by omega
    have hl : d.log = s.log := h.log
    simp [memSnap, this, hl, h2]
  tagMem hh st b p := by
    have hn : d.next = s.log.length + 1 := h.next
    have : p ∈ (memSnap d).tagScan hh st b ↔ p < d.next ∧ (hh, p) ∈ d.idx ∧ InRange st b p := by
      simp only [memSnap]; cases b <;> simp
    rw [this, h.idx, show (Abs.of H s).idx = idxOf H s.log from rfl, mem_idxOf]
    constructor
    · rintro ⟨_, ⟨r, h1, h2⟩, h3⟩; exact ⟨r, h1, h3, h2⟩
    · rintro ⟨r, h1, h3, h2⟩
      refine ⟨?_, ⟨r, h1, h2⟩, h3⟩
      obtain ⟨h4, h5⟩ := mem_numberFrom.mp h1
      obtain ⟨h6, _⟩ := List.getElem?_eq_some_iff.mp h5
      omega
  tagOrd hh st b := by
    have := (List.pairwise_lt_range (n := d.next)).filter
      (fun p => decide ((hh, p) ∈ d.idx ∧ InRange st b p))
    simp only [memSnap]
    cases b
    · exact this.imp (fun h => by simp [before]; omega)
    · simp only [if_true, List.pairwise_reverse]
      exact this.imp (fun h => by simp [before]; omega)

def memLawful (H : String → TagHash) (valid : Record → Bool) :
    Lawful (memBackend valid) H (fun r => valid r = true) where
  RepD d s := MemRep d (Abs.of H s)
  Rep w s a := MemRep w.base (Abs.of H s) ∧ MemRep w.cur a
  snapR h := memRefines h
  nextPosR h := h.next
  trackR src h := by simp only [memBackend, h.track]; rfl
  Fails _ := False
  fails h := h.elim
  begin h := .inl ⟨_, rfl, h, h⟩
  snap h := memRefines h.2
  Asks _ := True
  asks _ := trivial
  checks h _ := checks_of_refines (memRefines h.2) _ _
  nextPos h := h.2.next
  issue h := ⟨h.2.next, h.1, by simp only [memBackend]; rw [h.2.next], h.2.log, h.2.idx, h.2.track⟩
  validate r := by
    by_cases h : valid r
    · left; exact ⟨h, (), by simp [memBackend, h]⟩
    · right; exact ⟨h, _, by simp only [memBackend, h]; rfl⟩
  tagInsert h p _ hw _ _ := by
    left; refine ⟨_, rfl, hw.1, hw.2.next, hw.2.log, ?_, hw.2.track⟩
    intro h' p'
    simp only [List.mem_cons, Prod.mk.injEq, hw.2.idx]
    split
    · next e => simp [e, or_comm]
    · next e => simp [e]
  eventAppend r v p hw _ _ _ := by
    left; exact ⟨_, rfl, hw.1, hw.2.next, by simp [hw.2.log], hw.2.idx, hw.2.track⟩
  trackUpsert {w s0 a} src pos hw := by
    have hset : ∀ s, ((src, pos) :: w.cur.track).lookup s = setTrack a.track ⟨src, pos⟩ s := by
      intro s
      simp only [List.lookup_cons, setTrack, ← hw.2.track]
      by_cases h : s = src
      · simp [h]
      · have : (s == src) = false := by simpa using h
        simp [h, this]
    left
    by_cases h1 : 255 < src.utf8ByteSize
    · rw [if_pos h1]; exact ⟨_, w, by simp only [memBackend, if_pos h1]; rfl, hw⟩
    · rw [if_neg h1]
      simp only [memBackend, if_neg h1, hw.2.track]
      cases hl : a.track src with
      | none =>
        rw [if_neg (by simp)]
        exact ⟨_, rfl, hw.1, hw.2.next, hw.2.log, hw.2.idx, hset⟩
      | some p =>
        by_cases h2 : pos ≤ p
        · rw [if_pos ⟨p, rfl, h2⟩]; simp only [if_pos h2]; exact ⟨_, w, rfl, hw⟩
        · rw [if_neg (by rintro ⟨q, hq, h⟩; cases hq; exact h2 h)]; simp only [if_neg h2]
          exact ⟨_, rfl, hw.1, hw.2.next, hw.2.log, hw.2.idx, hset⟩
  commit i hw := by
    cases i with
    | good => left; exact ⟨_, rfl, hw.2⟩
    | failBefore => right; exact ⟨_, _, rfl, ⟨rfl, rfl, rfl⟩, .inl hw.1⟩
    | failAfter => right; exact ⟨_, _, rfl, ⟨rfl, rfl, rfl⟩, .inr hw.2⟩

theorem memRep_empty (H : String → TagHash) : MemRep MemDb.empty (Abs.of H Spec.Db.empty) where
  next := rfl
  log := rfl
  idx h p := by simp [MemDb.empty, Abs.of, idxOf, Spec.Db.empty, numberFrom]
  track s := rfl

end Uma.Db
