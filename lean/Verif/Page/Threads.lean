import Verif.Page.Readers

/-!
# Several threads that append through the library interface

`UmaDb::append`, umadb-core/src/db.rs 214-239, and `Mvcc::writer`, mvcc.rs 722-755, take no lock: between `writer()` and the end of
`commit` of one call another may run.

Simplifications: no readers; calls without events, which return at once (db.rs 224-226), are left out; a call reads all pages it needs in the instant in which it calls `writer()`, and writes its pages in one instant
(executions with less overlap than possible).
-/

namespace Uma.Page
open Uma.Codec Uma.Mvcc Uma.Spec

/-- A call of `UmaDb::append`. -/
inductive Call
  | called (req : Request)
  /-- `process_append_request` has succeeded with the answer `p`, db.rs 229-236. -/
  | computed (req : Request) (p : Nat) (w : PW)
  | returned

structure TSys where
  d : PDb
  calls : List Call
  /-- Requests and answers in the order in which the calls returned. -/
  done : List (Request × Except Err Nat)

def TSys.init (d : PDb) : TSys := ⟨d, [], []⟩

/-- `guard`: when a call may begin its transaction. -/
inductive TStep (c : Conf) (env : Db.Env) (guard : List Call → Prop) : TSys → TSys → Prop
  | call (σ) (req : Request) : Uma.Db.AfterOk req → req.events ≠ [] → TStep c env guard σ { σ with calls := σ.calls ++ [.called req] }
  /-- `writer()` fails, db.rs 228. -/
  | unable {d l req l' done e} : guard (l ++ l') → PDb.writer c d = .error e →
      TStep c env guard ⟨d, l ++ .called req :: l', done⟩ ⟨d, l ++ .returned :: l', done ++ [(req, .error e)]⟩
  /-- db.rs 228-236. -/
  | compute {d l req l' done w p w'} : guard (l ++ l') → PDb.writer c d = .ok w →
      Db.processAppend (pageBackend c) env req (fun _ => Db.Cancel.never) w = (.ok p, w') →
      TStep c env guard ⟨d, l ++ .called req :: l', done⟩ ⟨d, l ++ .computed req p w' :: l', done⟩
  /-- Refused, db.rs 239. -/
  | refuse {d l req l' done w e w'} : guard (l ++ l') → PDb.writer c d = .ok w →
      Db.processAppend (pageBackend c) env req (fun _ => Db.Cancel.never) w = (.error e, w') →
      TStep c env guard ⟨d, l ++ .called req :: l', done⟩ ⟨d, l ++ .returned :: l', done ++ [(req, .error e)]⟩
  /-- `commit`, db.rs 237, on the database as it is then. -/
  | commit {d l req p w l' done io d'} : PW.commit c io { w with db := d } = (.ok (), d') →
      TStep c env guard ⟨d, l ++ .computed req p w :: l', done⟩ ⟨d', l ++ .returned :: l', done ++ [(req, .ok p)]⟩
  | fail {d l req p w l' done io e d'} : PW.commit c io { w with db := d } = (.error e, d') →
      TStep c env guard ⟨d, l ++ .computed req p w :: l', done⟩ ⟨d', l ++ .returned :: l', done ++ [(req, .error e)]⟩

def Threads (c : Conf) (env : Db.Env) (guard : List Call → Prop) : TSys → TSys → Prop := Relation.ReflTransGen (TStep c env guard)

/-- The call has begun its transaction and not returned. -/
def Call.busy : Call → Bool
  | .computed _ _ _ => true
  | _ => false

/-- No other call is within its transaction: what a lock around `UmaDb::append` would ensure. -/
def Alone (l : List Call) : Prop := ∀ x ∈ l, x.busy = false

/-- A call that has begun its transaction on `d` and computed the answer `p`. -/
structure Computed (c : Conf) (env : Db.Env) (d : PDb) (req : Request) (p : Nat) (w : PW) : Prop where
  after : Uma.Db.AfterOk req
  some : req.events ≠ []
  run : ∃ w0, PDb.writer c d = .ok w0 ∧ Db.processAppend (pageBackend c) env req (fun _ => Db.Cancel.never) w0 = (.ok p, w)

/-- Transactions commit successfully one after the other, each on the database as it is then. -/
inductive InTurn (c : Conf) : PDb → List PW → PDb → Prop
  | nil (d) : InTurn c d [] d
  | cons {d d1 d2 w ws io} : PW.commit c io { w with db := d } = (.ok (), d1) → InTurn c d1 ws d2 → InTurn c d (w :: ws) d2

variable {c : Conf} {kw : Nat} {hc : ConfOk c kw} {H : String → Db.TagHash} {d : PDb} {hp : HPage} {h : Header}
  {PE PT PK PF : Multiset (Nat × Node)} {ix : Nat → List Nat} {F : Multiset (Nat × Nat)} {s : Spec.Db} {o : Option Nat}
  {PE' PT' PK' PF' : Multiset (Nat × Node)} {ix' : Nat → List Nat} {N : Multiset Nat} {s' : Spec.Db} {w : Writer}

/-- A successful commit pins the new header over the one in its slot, whatever that was. -/
theorem commitPages_over {io : IO} {d2 : PDb} {m' : Opened} {b : Bool} (h : commitPages c io hp w d = (.ok (), d2))
    (hm : ∀ p, cowHeader hp w.roots = .ok p → pinHeader p m' = pinHeader p d.m) :
    commitPages c io hp w { d with m := m', doubt := b } = (.ok (), d2) := by
  unfold commitPages at h ⊢
  split at h
  · cases h
  next hfit =>
  rw [if_neg hfit]
  split at h
  · cases h
  next hf =>
  simp only
  split at h
  · cases h
  next f hw =>
  unfold commitHead at h ⊢
  split at h
  · cases h
  next p hp =>
  have hm := hm p hp
  simp only
  split at h
  · cases h
  next hfit2 =>
  rw [if_neg hfit2]
  split at h
  · cases h
  next hf2 =>
  split at h
  · cases h
  next f2 hw2 =>
  simp only [PDb.fsync] at h hw2 ⊢
  rw [hw2]
  simp only
  cases h
  rw [hm]

/-- After a successful commit everything is on disk but what was not before. -/
theorem commitPages_disk {io : IO} {d1 : PDb} (h : commitPages c io hp w d = (.ok (), d1)) :
    (∀ p ∈ d1.loose, p ∈ d.loose) ∧ ∃ f, d1.disk = synced c.g.pageSize d1.loose f d1.file := by
  unfold commitPages at h
  split at h
  · cases h
  split at h
  · cases h
  split at h
  · cases h
  unfold commitHead at h
  split at h
  · cases h
  split at h
  · cases h
  split at h
  · cases h
  split at h
  · cases h
  cases h
  refine ⟨fun p hp => ?_, _, rfl⟩
  simp only [PDb.fsync, List.mem_filter] at hp
  exact hp.1.1

theorem writeChunks_any {g : Pager} {k : Nat} {z : Bool} : ∀ {cs : List (List DirtyPage)} {n : Nat} {f f' : File},
    (Mvcc.writeChunks g k z cs n f').1 = (Mvcc.writeChunks g k z cs n f).1
  | [], _, _, _ => rfl
  | _ :: _, _, _, _ => by
    unfold Mvcc.writeChunks
    split
    · rfl
    · exact writeChunks_any

theorem writeOnePage_any {g : Pager} {k : Nat} {b : Bytes} {z : Bool} {i : Nat} {n : Node} {f f' : File} :
    (writeOnePage g k b z i n f').1 = (writeOnePage g k b z i n f).1 := by
  unfold writeOnePage
  split
  · rfl
  · split <;> rfl

/-- Whether a commit succeeds does not depend on the file. -/
theorem commitPages_again {io : IO} {d1 : PDb} (h : commitPages c io hp w d = (.ok (), d1)) (d' : PDb) :
    ∃ d2, commitPages c io hp w d' = (.ok (), d2) := by
  unfold commitPages at h ⊢
  split at h
  · cases h
  next hfit =>
  rw [if_neg hfit]
  split at h
  · cases h
  simp only
  split at h
  · cases h
  next hw =>
  have hw' : (writePages c.g w.kw c.zeroFill w.dirty d'.file).1 = (writePages c.g w.kw c.zeroFill w.dirty d.file).1 := writeChunks_any
  rw [hw] at hw'
  generalize writePages c.g w.kw c.zeroFill w.dirty d'.file = x at hw'
  obtain ⟨r, f'⟩ := x
  simp only at hw'
  subst hw'
  simp only
  unfold commitHead at h ⊢
  split at h
  · cases h
  next p hp =>
  simp only
  split at h
  · cases h
  next hfit2 =>
  rw [if_neg hfit2]
  split at h
  · cases h
  split at h
  · cases h
  next hw2 =>
  generalize hg : writeOnePage c.g w.kw _ c.zeroFill p.id p.node (PDb.file _) = x at hw2
  subst hw2
  generalize hy : writeOnePage c.g w.kw _ c.zeroFill p.id p.node (PDb.file _) = y
  have e : y.1 = .ok () := by rw [← hy, writeOnePage_any, hg]
  obtain ⟨r, f''⟩ := y
  simp only at e
  subst e
  exact ⟨_, rfl⟩

/-- The database `d` with the header of `d0` put back: what `d0` held is still there. -/
structure Over (c : Conf) {kw : Nat} (hc : ConfOk c kw) (H : String → Db.TagHash) (d0 : PDb) (hp : HPage) (h : Header)
    (PE PT PK PF : Multiset (Nat × Node)) (ix : Nat → List Nat) (F : Multiset (Nat × Nat)) (s : Spec.Db) (d : PDb) : Prop where
  live : LiveAt c hc H { d with m := d0.m, doubt := true, oldest := d0.oldest } hp h PE PT PK PF ix F s
  safe : SafeAt c kw { d with m := d0.m, doubt := true, oldest := d0.oldest } hp h (PF + (PE + PT + PK))
  head : readPage c.g 8 hp.id d.file = .ok (.header h)
  pins : ∀ p : HPage, p.id = (if hp.id = 0 then 1 else 0) → pinHeader p d0.m = pinHeader p d.m

theorem Over.refl (L : LiveAt c hc H d hp h PE PT PK PF ix F s) (S : SafeAt c kw d hp h (PF + (PE + PT + PK))) :
    Over c hc H d hp h PE PT PK PF ix F s d :=
  ⟨L.elsewhere rfl (l := []) (.refl L.zeroed) (by simp) (fun p n hpn m hm => L.cache p n m hpn hm),
    ⟨S.1, S.2, S.3, S.4, S.5, S.6, S.7, by simp⟩,
    S.touched.read (fun hm => (S.apart _ hm).2 rfl) (S.head 8), fun _ _ => rfl⟩

theorem cowHeader_id {p : HPage} {r : NewRoots} (h : cowHeader hp r = .ok p) : p.id = if hp.id = 0 then 1 else 0 := by
  unfold cowHeader at h
  obtain ⟨_, -, h⟩ := Props.bind_ok_iff.mp h
  cases h; rfl

theorem pinHeader_twice {p q : HPage} {m : Opened} (h : p.id = q.id) : pinHeader p (pinHeader q m) = pinHeader p m := by
  unfold pinHeader
  rw [h]
  split <;> rfl

/-- A transaction begun in `d0` commits: what it holds is committed, and what `d0` held is still there. -/
theorem Over.commit {d0 d2 : PDb} {io : IO} (O : Over c hc H d0 hp h PE PT PK PF ix F s d)
    (L : LiveAt c hc H d0 hp h PE PT PK PF ix F s)
    (T : TxAt c hc d0 h F w PE' PT' PK' PF' ix' (Db.Abs.of H s')) (he : PW.commit c io ⟨d, hp, w⟩ = (.ok (), d2)) :
    Live c hc H d2 s' ∧ Over c hc H d0 hp h PE PT PK PF ix F s d2 := by
  have T' := T.elsewhere L O.live rfl
  obtain ⟨u, w', hrun, PF'', N, R⟩ := T'.ready io.ordLaw
  have he' : commitPages c io hp w' { d with oldest := io.oldest } = (.ok (), d2) := by
    unfold PW.commit at he
    simpa only [hrun] using he
  have L' : LiveAt c hc H { d with m := d0.m, doubt := true, oldest := io.oldest } hp h PE PT PK PF ix F s :=
    O.live.recache (fun _ _ h => .inl h) io.oldest
  have S' : SafeAt c kw { d with m := d0.m, doubt := true, oldest := io.oldest } hp h (PF + (PE + PT + PK)) :=
    ⟨O.safe.1, O.safe.2, O.safe.3, O.safe.4, O.safe.5, O.safe.6, O.safe.7, by simp⟩
  have hm := commitPages_over (m' := d0.m) (b := true) he' fun p hp => O.pins p (cowHeader_id hp)
  have hspec := commitPages_spec (R.again io.oldest) L' S' io
  have hslot := L.slot
  have hj : (if hp.id = 0 then 1 else 0) = 1 - hp.id := by split <;> omega
  rcases hspec with ⟨d3, hp3, h1, h2, h3, h4, h5⟩ | ⟨e, d3, h1, -⟩
  swap
  · rw [hm] at h1; cases h1
  have h1 : d3 = d2 := (Prod.mk.inj (h1.symm.trans hm)).2
  subst h1
  refine ⟨⟨_, _, _, _, _, _, _, _, h2, h3⟩, ?_⟩
  obtain ⟨f1, f2, f3⟩ := commitPages_frame hc R.width R.own.dirtyNodup L'.zeroed hm
  obtain ⟨g1, disk, g2⟩ := commitPages_disk hm
  have hmay := R.not_dirty O.live
  have hd2 : ∀ p ∈ w'.dirty.ids, 2 ≤ p := fun p hp => (R.own.lt (R.own.dirtyIn p hp)).1
  have hnot : hp.id ∉ (if hp.id = 0 then 1 else 0) :: w'.dirty.ids := by
    rw [hj]
    intro hm
    rcases List.mem_cons.mp hm with hm | hm
    · omega
    · have := hd2 _ hm; omega
  have hlive : LiveAt c hc H { d3 with m := d0.m, doubt := true, oldest := d0.oldest } hp h PE PT PK PF ix F s := by
    refine L'.elsewhere rfl f1 (fun p hp => ?_) (fun p n hpn m hm => ?_)
    · rw [hj] at hp
      intro hq
      rcases List.mem_cons.mp hp with hp | hp
      · have := L'.body hq; omega
      · exact hmay p hp hq
    · rcases f2 p (fun hd => hmay p hd (mem_ids_of hpn)) with h | h
      · exact L'.cache p n m hpn (by rw [← h]; exact hm)
      · rw [h] at hm; cases hm
  have hhead : readPage c.g 8 hp.id d3.file = .ok (.header h) := f1.read hnot O.head
  refine ⟨hlive, ⟨S'.schema, h3.touched, fun p hp => S'.apart p (g1 p hp), h3.len, h3.zeroed, fun k => ?_, fun p n hpn => ?_, by simp⟩,
    hhead, fun p hpid => ?_⟩
  · show readPage c.g k hp.id d3.disk = _
    rw [g2, synced_read fun hm => (S'.apart _ (g1 _ hm)).2 rfl]
    exact readPage_header_width hhead k
  · show readPage c.g kw p d3.disk = _
    rw [g2, synced_read fun hm => (S'.apart _ (g1 _ hm)).1 (mem_ids_of hpn)]
    exact hlive.file p n hpn
  · rw [h5.pinned]
    refine (pinHeader_twice ?_).symm
    have := h2.slot
    have := h5.other
    rw [hpid, hj]; omega

end Uma.Page
