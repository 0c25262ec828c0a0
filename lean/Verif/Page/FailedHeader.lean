import Verif.Page.Crash

/-!
# A header that could not be written

What `Mvcc::commit` leaves when writing or syncing the header page (mvcc.rs 838-846) fails: what a crash before the next
transaction brings back, and what one during the next transaction can destroy.
-/

namespace Uma.Page
open Uma.Codec Uma.Mvcc Uma.Spec

variable {c : Conf} {kw : Nat} {hc : ConfOk c kw} {H : String → Db.TagHash} {d : PDb} {hp : HPage} {h : Header}
  {PE PT PK PF : Multiset (Nat × Node)} {ix : Nat → List Nat} {F : Multiset (Nat × Nat)} {s : Spec.Db}
  {o : Option Nat} {PE' PT' PK' PF' : Multiset (Nat × Node)} {ix' : Nat → List Nat} {N : Multiset Nat} {s' : Spec.Db} {w : Writer}

/-- Junk that is a later content of the slots. -/
theorem scramble_later {ps : Nat} {l : List Nat} {f f' : File} (h : Touched ps l f f') (hz : f.Zeroed) : scramble ps l f' f = f' := by
  have hl : max f.len f'.len = f'.len := Nat.max_eq_right h.len
  have : ∀ i, (scramble ps l f' f).byte i = f'.byte i := by
    intro i
    simp only [scramble]
    rw [hl]
    split
    · rfl
    · next hn =>
      by_cases hi : ∃ p ∈ l, p * ps ≤ i ∧ i < p * ps + ps
      · have : f'.len ≤ i := by
          by_contra hlt
          exact hn ⟨by omega, hi⟩
        have := h.len
        rw [h.zeroed i (by omega), hz i (by omega)]
      · exact (h.other i fun p hp hc => hi ⟨p, hp, hc⟩).symm
  have e : scramble ps l f' f = ⟨(scramble ps l f' f).len, (scramble ps l f' f).known, (scramble ps l f' f).byte⟩ := rfl
  rw [e, funext this]
  simp only [scramble, hl]

/-- What an attempt to write the header over `f1` left in its slot: what was there, the new header, or nothing readable. -/
def Attempted (g : Pager) (slot : Nat) (new : Header) (f1 f : File) : Prop :=
  Unreadable g f slot ∨ (∀ kw, readPage g kw slot f = readPage g kw slot f1) ∨ ∀ kw, readPage g kw slot f = .ok (.header new)

/-- The database after the header could not be written: the data pages are in `f1` and synced. -/
noncomputable def headerFailed (c : Conf) (io : IO) (slot : Nat) (junk : File) (w : Writer) (f1 : File) (d : PDb) : PDb :=
  { PDb.fsync c w.dirty.ids { d with file := f1 } with
    cache := cacheAfter io.keep w.dirty d.cache, file := scramble c.g.pageSize [slot] junk f1
    loose := slot :: (PDb.fsync c w.dirty.ids { d with file := f1 }).loose, doubt := true }

/-- Where doubt comes from. -/
theorem Ready.header_failed (R : Ready c hc H d h F o w PE' PT' PK' PF' ix' N s') (L : LiveAt c hc H d hp h PE PT PK PF ix F s)
    (hd : d.doubt = false) {io : IO} {e : Err} {d' : PDb} (hcom : commitPages c io hp w d = (.error e, d')) (hd' : d'.doubt = true) :
    ∃ junk f1, io.fault = some (.header junk) ∧ Touched c.g.pageSize w.dirty.ids d.file f1 ∧
      (∀ p n, w.dirty.get p = some n → readPage c.g kw p f1 = .ok n) ∧ d' = headerFailed c io (1 - hp.id) junk w f1 d := by
  have hslot := L.slot
  unfold commitPages at hcom
  split at hcom
  · cases hcom; rw [hd] at hd'; cases hd'
  next hfit =>
  have hfit : ∀ x ∈ w.dirty, NodeFits kw x.2 := by rw [R.width] at hfit; exact not_not.mp hfit
  split at hcom
  · cases hcom
    exact absurd (show d.doubt = true from hd') (by rw [hd]; decide)
  cases hwr : writePages c.g w.kw c.zeroFill w.dirty d.file with
  | mk r f1 =>
  rw [hwr] at hcom
  cases r with
  | error e =>
    cases hcom
    exact absurd (show d.doubt = true from hd') (by rw [hd]; decide)
  | ok n =>
    obtain ⟨h1, h2⟩ := R.written L hfit hwr
    simp only at hcom
    unfold commitHead at hcom
    have hcow : cowHeader hp w.roots = .ok ⟨1 - hp.id, .header (newHeader w h.schema)⟩ := by
      have : (if hp.id = 0 then 1 else 0) = 1 - hp.id := by split <;> omega
      unfold cowHeader
      rw [L.node, this]; rfl
    rw [hcow] at hcom
    simp only at hcom
    split at hcom
    · cases hcom
      exact absurd (show d.doubt = true from hd') (by rw [hd]; decide)
    split at hcom
    · next junk hio =>
      cases hcom
      exact ⟨junk, f1, hio, h1, h2, rfl⟩
    · split at hcom
      · cases hcom
        exact absurd (show d.doubt = true from hd') (by rw [hd]; decide)
      · cases hcom

/-- A crash after the header could not be written, before the next transaction is. -/
theorem Ready.failedCrash (R : Ready c hc H d h F o w PE' PT' PK' PF' ix' N s') (L : LiveAt c hc H d hp h PE PT PK PF ix F s)
    (S : SafeAt c kw d hp h (PF + (PE + PT + PK))) (hd : d.doubt = false) {io : IO} {junk f1 f : File}
    (htouch : Touched c.g.pageSize w.dirty.ids d.file f1) (hread : ∀ p n, w.dirty.get p = some n → readPage c.g kw p f1 = .ok n)
    (hjunk : Attempted c.g (1 - hp.id) (newHeader w h.schema) f1 (scramble c.g.pageSize [1 - hp.id] junk f1))
    (hf : Crash c (headerFailed c io (1 - hp.id) junk w f1 d) f) {kw0 : Nat} (hk0 : kw0 ≤ 16) :
    ∃ d', reopen c kw0 f = .ok d' ∧ (LiveS c hc H d' s ∨ LiveS c hc H d' s') ∧ d'.doubt = false := by
  have hslot := L.slot
  have V := hf
  obtain ⟨V1, V2⟩ := hf
  obtain ⟨S1, -, -, hother⟩ := R.settled L S htouch
  have hother := S1.other hd
  have old : OtherOk c.g (scramble c.g.pageSize [1 - hp.id] junk f1) (1 - hp.id) h →
      ∃ d', reopen c kw0 f = .ok d' ∧ (LiveS c hc H d' s ∨ LiveS c hc H d' s') ∧ d'.doubt = false := by
    intro ho
    obtain ⟨d', i', h1, h2, h3, h4, h5⟩ := recover L (Survives.image V L.slot S1.schema S1.len S1.head S1.pages (by
      intro p hm
      rcases List.mem_cons.mp hm with rfl | hm
      · exact ⟨fun hin => by have := L.body hin; omega, by omega⟩
      · exact S1.apart p hm) (by
      intro f0 hf0
      rcases List.mem_cons.mp hf0 with rfl | hf0
      · exact hother.2
      · rcases List.mem_singleton.mp hf0 with rfl
        exact ho)) hk0
    exact ⟨d', h1, .inl ⟨_, _, _, _, _, _, _, _, h2, h3, h5⟩, h4⟩
  rcases hjunk with hu | ho | hn
  · exact old (.inl hu)
  · exact old (hother.1.congr ho)
  · exact R.headCrash L S hd htouch hread hn rfl ⟨V1, fun k hk => (V2 k hk).imp_right fun ⟨f0, h1, h2⟩ => ⟨f0, by
      rcases List.mem_cons.mp h1 with h1 | h1
      · rw [h1]; exact List.mem_cons_self
      · rcases List.mem_singleton.mp h1 with rfl
        simp [headerFailed], h2⟩⟩ hk0

/-- What a failed attempt of a commit to write its header left in the slot: what was there before, the whole header, or
nothing readable. -/
def HeaderLeft (c : Conf) (io : IO) (w : PW) (d' : PDb) : Prop :=
  ∀ wr p, processFreed io.ord w.wr = (.ok (), wr) → cowHeader w.hp wr.roots = .ok p →
    Unreadable c.g d'.file p.id ∨ (∀ kw, readPage c.g kw p.id d'.file = readPage c.g kw p.id w.db.file) ∨
      ∀ kw, readPage c.g kw p.id d'.file = .ok p.node

/-- After a failed attempt to write the header, and a crash before the next transaction is written, the state before or after
the transaction is recovered. -/
theorem failed_header_recovers {w : PW} (hT : Tx c hc H w s (Db.Abs.of H s')) (hd : w.db.doubt = false) {io : IO} {e : Err} {d' : PDb}
    (hcom : PW.commit c io w = (.error e, d')) (hd' : d'.doubt = true) (hleft : HeaderLeft c io w d') {f : File} (hf : Crash c d' f)
    {kw0 : Nat} (hk0 : kw0 ≤ 16) :
    ∃ d2, reopen c kw0 f = .ok d2 ∧ (LiveS c hc H d2 s ∨ LiveS c hc H d2 s') ∧ d2.doubt = false := by
  obtain ⟨h, PE, PT, PK, PF, ix, F, L, S, PE', PT', PK', PF', ix', T⟩ := hT
  obtain ⟨u, w', hrun, PF'', N, R⟩ := T.ready io.ordLaw
  have hslot := L.slot
  have L' : LiveAt c hc H { w.db with oldest := io.oldest } w.hp h PE PT PK PF ix F s := L.recache (fun _ _ h => .inl h) _
  have S' : SafeAt c kw { w.db with oldest := io.oldest } w.hp h (PF + (PE + PT + PK)) := ⟨S.1, S.2, S.3, S.4, S.5, S.6, S.7, S.8⟩
  unfold PW.commit at hcom
  simp only [hrun] at hcom
  obtain ⟨junk, f1, hio, htouch, hread, rfl⟩ := (R.again io.oldest).header_failed L' hd hcom hd'
  have hcow : cowHeader w.hp w'.roots = .ok ⟨1 - w.hp.id, .header (newHeader w' h.schema)⟩ := by
    have : (if w.hp.id = 0 then 1 else 0) = 1 - w.hp.id := by split <;> omega
    unfold cowHeader
    rw [L.node, this]; rfl
  refine (R.again io.oldest).failedCrash L' S' hd htouch hread ?_ hf hk0
  rcases hleft _ _ hrun hcow with h1 | h1 | h1
  · exact .inl h1
  · refine .inr (.inl fun k => (h1 k).trans (htouch.same ?_ ?_ k).symm)
    · intro hm
      have : 2 ≤ 1 - w.hp.id := (R.own.lt (R.own.dirtyIn _ hm)).1
      omega
    · exact slot_len (by show 1 - w.hp.id = 0 ∨ 1 - w.hp.id = 1; omega) (Nat.le_trans S.len S.touched.len)
  · exact .inr (.inr h1)

/-- The parts of a commit that succeeds, and what is left if its header cannot be written. -/
theorem commit_parts {w : PW} {wr : Writer} {io : IO} {d' : PDb} (hio : io.fault = none) (hrun : processFreed io.ord w.wr = (.ok (), wr))
    (hcom : PW.commit c io w = (.ok (), d')) : ∃ n f1 p, writePages c.g wr.kw c.zeroFill wr.dirty w.db.file = (.ok n, f1) ∧
      (∀ x ∈ wr.dirty, NodeFits wr.kw x.2) ∧ cowHeader w.hp wr.roots = .ok p ∧ NodeFits wr.kw p.node ∧
      writeOnePage c.g wr.kw ((List.range c.g.pageSize).map io.buf) c.zeroFill p.id p.node f1 = (.ok (), d'.file) ∧
      d'.m = pinHeader p w.db.m ∧ d'.cache = cacheAfter io.keep wr.dirty w.db.cache ∧ d'.oldest = io.oldest ∧
      ∀ junk, PW.commit c { io with fault := some (.header junk) } w =
        (.error (.io "header"), headerFailed c io p.id junk wr f1 { w.db with oldest := io.oldest }) := by
  unfold PW.commit at hcom
  simp only [hrun] at hcom
  unfold commitPages at hcom
  split at hcom
  · cases hcom
  next hfit =>
  rw [hio] at hcom
  cases hwr : writePages c.g wr.kw c.zeroFill wr.dirty w.db.file with
  | mk r f1 =>
  simp only [hwr] at hcom
  cases r with
  | error e => cases hcom
  | ok n =>
    simp only at hcom
    unfold commitHead at hcom
    cases hcow : cowHeader w.hp wr.roots with
    | error e => simp only [hcow] at hcom; cases hcom
    | ok p =>
      simp only [hcow] at hcom
      split at hcom
      · cases hcom
      next hfit2 =>
      rw [hio] at hcom
      simp only at hcom
      cases hone : writeOnePage c.g wr.kw ((List.range c.g.pageSize).map io.buf) c.zeroFill p.id p.node f1 with
      | mk r2 f2 =>
      have hfile : ∀ l (d : PDb), (PDb.fsync c l { d with file := f1 }).file = f1 := fun _ _ => rfl
      rw [hfile _ { w.db with oldest := io.oldest }, hone] at hcom
      cases r2 with
      | error e => cases hcom
      | ok u =>
        cases hcom
        refine ⟨n, f1, p, rfl, not_not.mp hfit, rfl, not_not.mp hfit2, hone, rfl, rfl, rfl, fun junk => ?_⟩
        unfold PW.commit commitPages commitHead
        simp only [hrun, hwr, hcow, if_neg hfit, if_neg hfit2]
        rfl

end Uma.Page
