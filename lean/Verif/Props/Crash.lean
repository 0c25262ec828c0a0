import Verif.Page.FailedHeader
import Verif.Props.Append

/-!
# Crash atomicity and durability: C20, C21

For databases made of pages in a file (`Verif/Page`), under the crash model of `Verif/Page/Crash.lean`.
-/

namespace Uma.Props
open Uma.Spec Uma.Db Uma.Page Uma.Mvcc

variable {c : Conf} {kw : Nat}

/-- What every reader of the database sees is `s`. -/
structure Shows (c : Conf) (env : Env) (d : PDb) (s : Spec.Db) : Prop where
  reads : ∀ query start backwards limit, ∃ h, Db.read (pageBackend c) env d query start backwards limit =
    .ok (Spec.read s.log (query.getD ⟨[]⟩) start backwards limit, h)
  head : Db.head (pageBackend c) d = Spec.head s.log
  track : ∀ src, (pageBackend c).trackR d src = .ok (s.track src)

theorem shows {env : Env} (he : EnvOk env) (hc : ConfOk c kw) (hH : ∀ t, Codec.NormalizedTo kw (env.H t)) {d : PDb} {s : Spec.Db}
    (hd : Live c hc env.H d s) : Shows c env d s := by
  refine ⟨fun query start backwards limit => ?_, ?_, fun src => (pageLawful hc hH).trackR src hd⟩
  · unfold Db.read
    rcases readConditional_correct env.H env.ord he.ord _ _ ((pageLawful hc hH).snapR hd) (query.getD ⟨[]⟩) start backwards limit
      false Cancel.never with h | ⟨_, j, hj⟩
    · rw [h]; exact ⟨_, rfl⟩
    · simp [Cancel.never] at hj
  · rw [C11_head (pageLawful hc hH) hd]; rfl

/-- The writer thread takes the request `j` from its queue and then others from `q` into the batch `b`. -/
def Builds {δ σ υ ι : Type} (B : Backend δ σ υ ι) (env : Env) (max vis : Nat) (d : δ) (j : Job) (q : List Msg) (b : Batch σ)
    (q' : List Msg) : Prop :=
  ∃ w b1, B.begin d = .ok w ∧ stepJob B env (Batch.new w) j = .ok b1 ∧ drain B env max vis q b1 = .ok (b, q')

section Keeps
variable {δ σ υ ι : Type} {B : Backend δ σ υ ι} {P : σ → Prop}

/-- Everything a batch does to its transaction preserves `P`. -/
structure Keeps (B : Backend δ σ υ ι) (P : σ → Prop) : Prop where
  issue : ∀ w, P w → P (B.issue w).2
  tagInsert : ∀ h p w, P w → P (B.tagInsert h p w).2
  eventAppend : ∀ r v p w, P w → P (B.eventAppend r v p w).2
  trackUpsert : ∀ s p w, P w → P (B.trackUpsert s p w).2

theorem Keeps.insertTags (K : Keeps B P) (H : String → TagHash) (p : Nat) : ∀ (ts : List String) (w : σ), P w →
    P (Db.insertTags B H p ts w).2
  | [], w, h => h
  | t :: ts, w, h => by
    have := K.tagInsert (H t) p w h
    unfold Db.insertTags
    split
    · rename_i heq; rw [heq] at this; exact this
    · rename_i heq; rw [heq] at this; exact K.insertTags H p ts _ this

theorem Keeps.appendValues (K : Keeps B P) (H : String → TagHash) : ∀ (vs : List (Record × υ)) (last : Nat) (w : σ), P w →
    P (Db.appendValues B H vs last w).2
  | [], _, w, h => h
  | (r, v) :: vs, _, w, h => by
    have h1 := K.issue w h
    have h2 := K.insertTags H (B.issue w).1 r.event.tags _ h1
    unfold Db.appendValues
    simp only
    split
    · rename_i heq; rw [heq] at h2; exact h2
    · rename_i w2 heq
      rw [heq] at h2
      have h3 := K.eventAppend r v (B.issue w).1 _ h2
      split
      · rename_i heq; rw [heq] at h3; exact h3
      · rename_i heq; rw [heq] at h3; exact K.appendValues H vs _ _ h3

theorem Keeps.processAppend (K : Keeps B P) (env : Env) (req : Request) (cc : Nat → Cancel) (w : σ) (h : P w) :
    P (Db.processAppend B env req cc w).2 := by
  unfold Db.processAppend
  split
  · exact h
  split
  · exact h
  rename_i vs _
  have ha : ∀ w, P w → P ((fun w => if vs.isEmpty then ((.ok 0 : Except Err Nat), w) else Db.appendValues B env.H vs 0 w) w).2 := by
    intro w h
    simp only
    split
    · exact h
    · exact K.appendValues _ _ _ _ h
  unfold applyRequest
  simp only
  split
  · exact ha w h
  · rename_i t _
    have h1 := K.trackUpsert t.source t.position w h
    split
    · rename_i heq; rw [heq] at h1; exact h1
    · rename_i heq; rw [heq] at h1; exact ha _ h1

theorem Keeps.stepJob (K : Keeps B P) {env : Env} {b b' : Batch σ} {j : Job} (hs : Db.stepJob B env b j = .ok b') (h : P b.w) :
    P b'.w := by
  have h1 := K.processAppend env j.req j.cancel b.w h
  unfold Db.stepJob at hs
  simp only at hs
  split at hs
  · cases hs
  · rename_i heq; rw [heq] at h1; cases hs; exact h1
  · rename_i heq; rw [heq] at h1; cases hs; exact h1

theorem Keeps.drain (K : Keeps B P) {env : Env} {max : Nat} : ∀ {vis : Nat} {q q' : List Msg} {b b' : Batch σ},
    Db.drain B env max vis q b = .ok (b', q') → P b.w → P b'.w
  | 0, q, q', b, b', hs, h => by unfold Db.drain at hs; cases hs; exact h
  | vis + 1, [], q', b, b', hs, h => by unfold Db.drain at hs; cases hs; exact h
  | vis + 1, m :: q, q', b, b', hs, h => by
    unfold Db.drain at hs
    split at hs
    · cases hs; exact h
    split at hs
    · cases hs; exact h
    split at hs
    · cases hs; exact h
    split at hs
    · cases hs
    · rename_i heq
      exact K.drain hs (K.stepJob heq h)

end Keeps

/-- The transaction of a batch is one on the database it started from. -/
theorem Builds.db {env : Env} {max vis : Nat} {d : PDb} {j : Job} {q q' : List Msg} {b : Batch PW}
    (h : Builds (pageBackend c) env max vis d j q b q') : b.w.db = d := by
  obtain ⟨w, b1, h1, h2, h3⟩ := h
  have K : Keeps (pageBackend c) fun w : PW => w.db = d := ⟨fun _ h => h, fun _ _ _ h => h, fun _ _ _ _ h => h, fun _ _ _ h => h⟩
  refine K.drain h3 (K.stepJob h2 ?_)
  show w.db = d
  have h1 : PDb.writer c d = .ok w := h1
  unfold PDb.writer at h1
  simp only [bind, Except.bind] at h1
  split at h1
  · cases h1
  split at h1
  · cases h1
  split at h1
  · cases h1
  · cases h1; rfl

open Classical in
/-- The batch holds the effect of requests `js` from the queue. -/
theorem Builds.binv {δ σ υ ι : Type} {B : Backend δ σ υ ι} {valid : Record → Prop} {env : Env} (he : EnvOk env)
    (L : Lawful B env.H valid) {max vis : Nat} {d : δ} {s : Spec.Db} (hd : L.RepD d s) {j : Job} {q q' : List Msg} {b : Batch σ}
    (ha : AfterOkAll (.append j :: q)) (h : Builds B env max vis d j q b q') :
    ∃ js, appendJobs (.append j :: q) = js ++ appendJobs q' ∧ b.responders = js.map (·.id) ∧ BInv L.toWorkable b s js := by
  obtain ⟨w, b1, h1, h2, h3⟩ := h
  rcases L.begin hd with ⟨w', hb, hw⟩ | ⟨e, hb, hf⟩
  · rw [hb] at h1; cases h1
    rcases stepJob_spec he L (binv_new L.toWorkable hw) rfl j (ha j (by simp [appendJobs])) with ⟨b', i1, hb1⟩ | ⟨_, m, i1⟩
    · rw [i1] at h2; cases h2
      rcases drain_spec he L max s vis q b1 _ hb1 (fun j hj => ha j (by simp [appendJobs, hj])) with
        ⟨b', q'', js', i2, hb2, hsplit, -⟩ | ⟨_, m, i2⟩
      · rw [i2] at h3; cases h3
        exact ⟨_, by simp [appendJobs, hsplit], hb2.resp, hb2⟩
      · rw [i2] at h3; cases h3
    · rw [i1] at h2; cases h2
  · rw [hb] at h1; cases h1

open Classical in
/-- C20: the process or machine stops at any point while a batch is being committed.  Opening the file again works, and the
database then is that before the batch, or that after it, and nothing else: for every query, head and tracking source. -/
theorem C20_crash_atomic {env : Env} (he : EnvOk env) (hc : ConfOk c kw) (hH : ∀ t, Codec.NormalizedTo kw (env.H t)) {d : PDb}
    {s : Spec.Db} (hd : (pageLawful hc hH).RepD d s) (hdoubt : d.doubt = false) {max vis : Nat} {j : Job} {q q' : List Msg}
    {b : Batch PW} (ha : AfterOkAll (.append j :: q)) (hb : Builds (pageBackend c) env max vis d j q b q')
    (hab : b.abort = none) {io : Page.IO} {f : File} (hf : CommitCrash c io b.w f) {kw0 : Nat} (hk : kw0 ≤ 16) :
    Shows c env d s ∧ ∃ js d', appendJobs (.append j :: q) = js ++ appendJobs q' ∧ b.responders = js.map (·.id) ∧
      reopen c kw0 f = .ok d' ∧
      ((Shows c env d' s ∧ Live c hc env.H d' s) ∨
       (Shows c env d' (appendAll (Accepted c.g.pageSize) s (js.map (·.req))).2 ∧
        Live c hc env.H d' (appendAll (Accepted c.g.pageSize) s (js.map (·.req))).2)) ∧ d'.doubt = false := by
  obtain ⟨js, h1, h2, h3⟩ := hb.binv he (pageLawful hc hH) hd ha
  have hT : Tx c hc env.H b.w s (Abs.of env.H (appendAll (Accepted c.g.pageSize) s (js.map (·.req))).2) := (h3.good hab).1
  obtain ⟨d', k1, k2, k3⟩ := commit_crash_recovers hT (by rw [hb.db]; exact hdoubt) hf hk
  refine ⟨shows he hc hH hd, js, d', h1, h2, k1, ?_, k3⟩
  rcases k2 with k2 | k2
  · exact .inl ⟨shows he hc hH k2.live, k2.live⟩
  · exact .inr ⟨shows he hc hH k2.live, k2.live⟩

/-- C20: a crash while nothing is being committed changes nothing. -/
theorem C20_crash_at_rest {env : Env} (he : EnvOk env) (hc : ConfOk c kw) (hH : ∀ t, Codec.NormalizedTo kw (env.H t)) {d : PDb}
    {s : Spec.Db} (hd : (pageLawful hc hH).RepD d s) (hdoubt : d.doubt = false) {f : File} (hf : Crash c d f) {kw0 : Nat}
    (hk : kw0 ≤ 16) : Shows c env d s ∧ ∃ d', reopen c kw0 f = .ok d' ∧ Shows c env d' s ∧ Live c hc env.H d' s ∧ d'.doubt = false := by
  obtain ⟨d', h1, h2, h3⟩ := crash_recovers hd hdoubt hf hk
  exact ⟨shows he hc hH hd, d', h1, shows he hc hH h2.live, h2.live, h3⟩

open Classical in
/-- C52, what holds: the header of a batch could not be written or synced, so the batch was refused, and the process or machine stops before
the next batch is written.  The slot holds what it held before, the new header or nothing readable.  Again the database is
that before the batch or that after it (see `C52_retry_false` for a crash while the next batch is written). -/
theorem C52_failed_header_partial {env : Env} (he : EnvOk env) (hc : ConfOk c kw) (hH : ∀ t, Codec.NormalizedTo kw (env.H t)) {d : PDb}
    {s : Spec.Db} (hd : (pageLawful hc hH).RepD d s) (hdoubt : d.doubt = false) {max vis : Nat} {j : Job} {q q' : List Msg}
    {b : Batch PW} (ha : AfterOkAll (.append j :: q)) (hb : Builds (pageBackend c) env max vis d j q b q')
    (hab : b.abort = none) {io : Page.IO} {e : Err} {d1 : PDb} (hcom : (pageBackend c).commit io b.w = (.error e, d1))
    (hd1 : d1.doubt = true) (hleft : HeaderLeft c io b.w d1) {f : File} (hf : Crash c d1 f) {kw0 : Nat} (hk : kw0 ≤ 16) :
    Shows c env d s ∧ ∃ js d', appendJobs (.append j :: q) = js ++ appendJobs q' ∧ b.responders = js.map (·.id) ∧
      reopen c kw0 f = .ok d' ∧
      ((Shows c env d' s ∧ Live c hc env.H d' s) ∨
       (Shows c env d' (appendAll (Accepted c.g.pageSize) s (js.map (·.req))).2 ∧
        Live c hc env.H d' (appendAll (Accepted c.g.pageSize) s (js.map (·.req))).2)) ∧ d'.doubt = false := by
  obtain ⟨js, h1, h2, h3⟩ := hb.binv he (pageLawful hc hH) hd ha
  have hT : Tx c hc env.H b.w s (Abs.of env.H (appendAll (Accepted c.g.pageSize) s (js.map (·.req))).2) := (h3.good hab).1
  obtain ⟨d', k1, k2, k3⟩ := failed_header_recovers hT (by rw [hb.db]; exact hdoubt) hcom hd1 hleft hf hk
  refine ⟨shows he hc hH hd, js, d', h1, h2, k1, ?_, k3⟩
  rcases k2 with k2 | k2
  · exact .inl ⟨shows he hc hH k2.live, k2.live⟩
  · exact .inr ⟨shows he hc hH k2.live, k2.live⟩

/-- What can happen to a database: the writer thread serves requests, one is made through the direct interface, or the
process or machine stops, while idle, during a commit or after a header could not be written, and the file is opened again.
Left out: a crash after a failed attempt to write a header when another batch has been partly written since (`doubt`; finding
7 in DESIGN.md). -/
inductive Happens (c : Conf) (env : Env) : PDb → PDb → Prop
  | nothing (d) : Happens c env d d
  | serve {d d'} (max vis io q) : Happens c env d d' → AfterOkAll q → Happens c env d (serve (pageBackend c) env max vis io d' q).db
  | append {d d'} (req io) : Happens c env d d' → AfterOk req → Happens c env d (Db.append (pageBackend c) env req io d').2
  | crash {d d' d'' f kw0} : Happens c env d d' → d'.doubt = false → Crash c d' f → kw0 ≤ 16 → reopen c kw0 f = .ok d'' →
      Happens c env d d''
  | commitCrash {d d' d'' f kw0 max vis j q b q' io} : Happens c env d d' → d'.doubt = false → AfterOkAll (.append j :: q) →
      Builds (pageBackend c) env max vis d' j q b q' → b.abort = none → CommitCrash c io b.w f → kw0 ≤ 16 →
      reopen c kw0 f = .ok d'' → Happens c env d d''
  | headerCrash {d d' d1 d'' f kw0 max vis j q b q' io e} : Happens c env d d' → d'.doubt = false → AfterOkAll (.append j :: q) →
      Builds (pageBackend c) env max vis d' j q b q' → b.abort = none → (pageBackend c).commit io b.w = (.error e, d1) →
      d1.doubt = true → HeaderLeft c io b.w d1 → Crash c d1 f → kw0 ≤ 16 → reopen c kw0 f = .ok d'' → Happens c env d d''

/-- The log has only been added to, tracking positions have only grown. -/
def Grown (s s' : Spec.Db) : Prop :=
  s.log <+: s'.log ∧ ∀ src p, s.track src = some p → ∃ p', s'.track src = some p' ∧ p ≤ p'

theorem Grown.refl (s : Spec.Db) : Grown s s := ⟨List.prefix_refl _, fun _ p h => ⟨p, h, Nat.le_refl _⟩⟩

theorem Grown.trans {s s' s'' : Spec.Db} (h : Grown s s') (h' : Grown s' s'') : Grown s s'' :=
  ⟨h.1.trans h'.1, fun src p hp => by
    obtain ⟨p', h1, h2⟩ := h.2 src p hp
    obtain ⟨p'', h3, h4⟩ := h'.2 src p' h1
    exact ⟨p'', h3, Nat.le_trans h2 h4⟩⟩

theorem trace_grown {valid : Record → Prop} {s s' : Spec.Db} {tr} (h : Trace valid s tr s') : Grown s s' :=
  ⟨by rw [trace_log h]; exact List.prefix_append _ _, fun _ _ hp => trace_monotone h hp⟩

theorem append_grown (valid : Record → Prop) [DecidablePred valid] (s : Spec.Db) (req : Request) : Grown s (Spec.append valid s req).2 := by
  obtain ⟨a, ha⟩ : ∃ a, Says a (Spec.append valid s req).1 := by
    cases (Spec.append valid s req).1 with
    | ok p => exact ⟨.ok p, rfl⟩
    | refusedIntegrity => exact ⟨.error (.integrity ""), trivial⟩
    | refusedArgument => exact ⟨.error (.invalidArgument ""), trivial⟩
  obtain ⟨tr, -, -, h⟩ := appendAll_trace (valid := valid) s [req] [a] ⟨ha, trivial⟩
  exact trace_grown (h .nil)

open Classical in
theorem happens_grown {env : Env} (he : EnvOk env) (hc : ConfOk c kw) (hH : ∀ t, Codec.NormalizedTo kw (env.H t)) {d d' : PDb}
    (h : Happens c env d d') {s : Spec.Db} (hd : Live c hc env.H d s) : ∃ s', Live c hc env.H d' s' ∧ Grown s s' := by
  induction h with
  | nothing => exact ⟨s, hd, .refl s⟩
  | serve max vis io q _ ha ih =>
    obtain ⟨s1, h1, h2⟩ := ih
    obtain ⟨js, rest, as, hs, s', k1, k2, k3, k4, k5, k6, k7⟩ :=
      writerThread_spec he (pageLawful hc hH) max vis io q.length 0 q ⟨_, [], [], false⟩ s1 (Nat.le_refl _) h1 rfl ha
    obtain ⟨tr, t1, t2, t3⟩ := served_trace k2
    exact ⟨s', k5, h2.trans (trace_grown t3)⟩
  | append req io _ ha ih =>
    obtain ⟨s1, h1, h2⟩ := ih
    by_cases hne : req.events = []
    · exact ⟨s1, by rw [C02_empty_append _ _ _ hne]; exact h1, h2⟩
    rcases api_append_spec he (pageLawful hc hH) h1 ha hne io with ⟨-, k⟩ | ⟨e, -, -, k | k⟩
    · exact ⟨_, k, h2.trans (append_grown _ _ _)⟩
    · exact ⟨_, k, h2⟩
    · exact ⟨_, k, h2.trans (append_grown _ _ _)⟩
  | crash _ hdoubt hf hk ho ih =>
    obtain ⟨s1, h1, h2⟩ := ih
    obtain ⟨-, d2, k1, -, k2, -⟩ := C20_crash_at_rest he hc hH h1 hdoubt hf hk
    rw [ho] at k1; cases k1
    exact ⟨s1, k2, h2⟩
  | commitCrash _ hdoubt ha hb hab hf hk ho ih =>
    obtain ⟨s1, h1, h2⟩ := ih
    obtain ⟨js, -, -, hbi⟩ := hb.binv he (pageLawful hc hH) h1 ha
    obtain ⟨d2, k1, k2, -⟩ := commit_crash_recovers (hbi.good hab).1 (by rw [hb.db]; exact hdoubt) hf hk
    rw [ho] at k1; cases k1
    rcases k2 with k2 | k2
    · exact ⟨s1, k2.live, h2⟩
    · obtain ⟨tr, -, -, h⟩ := appendAll_trace _ _ _ (hbi.good hab).2
      exact ⟨_, k2.live, h2.trans (trace_grown (h .nil))⟩

  | headerCrash _ hdoubt ha hb hab hcom hd1 hleft hf hk ho ih =>
    obtain ⟨s1, h1, h2⟩ := ih
    obtain ⟨js, -, -, hbi⟩ := hb.binv he (pageLawful hc hH) h1 ha
    obtain ⟨d2, k1, k2, -⟩ := failed_header_recovers (hbi.good hab).1 (by rw [hb.db]; exact hdoubt) hcom hd1 hleft hf hk
    rw [ho] at k1; cases k1
    rcases k2 with k2 | k2
    · exact ⟨s1, k2.live, h2⟩
    · obtain ⟨tr, -, -, h⟩ := appendAll_trace _ _ _ (hbi.good hab).2
      exact ⟨_, k2.live, h2.trans (trace_grown (h .nil))⟩

theorem repeatPosition_le (log : Log) (cond : Condition) (events : List Event) : repeatPosition log cond events ≤ log.length := by
  unfold repeatPosition
  cases h : ((violations log cond).take events.length).getLast? with
  | none => simp
  | some e =>
    have h1 : e ∈ violations log cond := List.mem_of_mem_take (List.mem_of_getLast? h)
    have h2 := (List.mem_filter.mp h1).1
    simp only [sequenced, List.mem_map] at h2
    obtain ⟨⟨p, r⟩, hp, rfl⟩ := h2
    obtain ⟨h3, h4⟩ := mem_numberFrom.mp hp
    have := (List.getElem?_eq_some_iff.mp h4).1
    simp [toSeq]; omega

theorem trace_ok_le {valid : Record → Prop} {s s' : Spec.Db} {tr} (h : Trace valid s tr s') {x : Request × Except Err Nat × Bool}
    (hx : x ∈ tr) {p : Nat} (hp : x.2.1 = .ok p) : p ≤ s'.log.length := by
  induction h with
  | nil => simp at hx
  | @took s req a tr s' _ _ _ hans ht ih =>
    rcases List.mem_cons.mp hx with rfl | hx
    · have hlen := (trace_grown ht).1.length_le
      simp only [effect, List.length_append, recordsOf, List.length_map] at hlen
      simp only at hp
      subst hp
      rcases hans with ⟨_, h⟩ | ⟨_, h⟩ | h
      · cases h; exact hlen
      · cases h; omega
      · cases h
    · exact ih hx
  | @not s req a tr s' hans ht ih =>
    rcases List.mem_cons.mp hx with rfl | hx
    · have hlen := (trace_grown ht).1.length_le
      simp only at hp
      subst hp
      rcases hans with ⟨e, h⟩ | ⟨cond, _, _, h⟩
      · cases h
      · cases h
        exact Nat.le_trans (repeatPosition_le _ _ _) hlen
    · exact ih hx

open Classical in
/-- C21: a database that has been through anything serves requests and answers `Ok p`.  Whatever happens afterwards, with
any number of crashes, the recovered log begins with the log as it was after the answer, events and positions included, and
reaches at least to `p`; tracking positions have not gone back. -/
theorem C21_durable {env : Env} (he : EnvOk env) (hc : ConfOk c kw) (hH : ∀ t, Codec.NormalizedTo kw (env.H t)) {d0 d d' : PDb}
    {s0 : Spec.Db} (hd0 : (pageLawful hc hH).RepD d0 s0) (h0 : Happens c env d0 d) {max : Nat} {vis : Nat → Nat} {io : Nat → Page.IO}
    {q : List Msg} (ha : AfterOkAll q) (h1 : Happens c env (serve (pageBackend c) env max vis io d q).db d') :
    ∃ acked later, ReadsAll (pageBackend c) env (serve (pageBackend c) env max vis io d q).db acked ∧
      ReadsAll (pageBackend c) env d' later ∧ acked <+: later ∧
      (∀ a ∈ (serve (pageBackend c) env max vis io d q).answers, ∀ p, a.2 = .ok p → p ≤ acked.length) ∧
      (∀ src p, (pageBackend c).trackR (serve (pageBackend c) env max vis io d q).db src = .ok (some p) →
        ∃ p', (pageBackend c).trackR d' src = .ok (some p') ∧ p ≤ p') := by
  obtain ⟨s, hd, -⟩ := happens_grown he hc hH h0 hd0
  obtain ⟨js, rest, as, hs, s', k1, k2, k3, k4, k5, k6, k7⟩ :=
    writerThread_spec he (pageLawful hc hH) max vis io q.length 0 q ⟨d, [], [], false⟩ s (Nat.le_refl _) hd rfl ha
  obtain ⟨tr, t1, t2, t3⟩ := served_trace k2
  obtain ⟨s2, hd2, hgrown, htrack⟩ := happens_grown he hc hH h1 k5
  refine ⟨_, _, readsAll he (pageLawful hc hH) k5, readsAll he (pageLawful hc hH) hd2, ?_, ?_, ?_⟩
  · obtain ⟨l, hl⟩ := hgrown
    rw [← hl, sequenced_append]; exact List.prefix_append _ _
  · intro a ham p hp
    have ham : a ∈ as := by
      have : a ∈ ([] : List Answer) ++ as := by rw [← k3]; exact ham
      simpa using this
    have : a.2 ∈ tr.map (·.2.1) := by rw [t2]; exact List.mem_map_of_mem ham
    obtain ⟨x, hx, hxa⟩ := List.mem_map.mp this
    have := trace_ok_le t3 hx (hxa.trans hp)
    rw [show (sequenced s'.log).length = s'.log.length by simp [sequenced]]
    exact this
  · intro src p hp
    have e : (pageBackend c).trackR (serve (pageBackend c) env max vis io d q).db src = .ok (s'.track src) :=
      (pageLawful hc hH).trackR src k5
    rw [e] at hp
    obtain ⟨p', h2, h3⟩ := htrack src p (Except.ok.inj hp)
    exact ⟨p', by rw [← h2]; exact (pageLawful hc hH).trackR src hd2, h3⟩

/-! ## A concrete case -/

section Examples

/-- 4 KiB pages, preallocated 1024 at a time. -/
def exConf : Conf := ⟨⟨4096, 1024⟩, false, ub⟩

theorem exConf_ok : ConfOk exConf 16 := ⟨by decide, by decide, by decide, ub_bs⟩

def exConstEnv : Env := ⟨fun _ => 7, id⟩

theorem exConstEnv_width (t : String) : Codec.NormalizedTo 16 (exConstEnv.H t) := ⟨by show 7 < _; decide, by show 7 % _ = 0; decide⟩

def exIO : Page.IO := ⟨fun w => w.freed, fun _ => List.Perm.refl _, none, fun _ => 0, fun _ => true, none⟩

open Classical in
/-- A new database, a batch with the request `exReq` (two events, condition and tracking), and a crash while its data pages
are written, which loses all of them: the hypotheses of C20 hold, and one of the two states is that with the events. -/
example : ∃ (d : PDb) (b : Batch PW) (f : File), (pageLawful exConf_ok exConstEnv_width).RepD d Spec.Db.empty ∧ d.doubt = false ∧
    AfterOkAll [.append ⟨1, exReq, noCancel⟩] ∧ Builds (pageBackend exConf) exConstEnv 2048 9 d ⟨1, exReq, noCancel⟩ [] b [] ∧
    b.abort = none ∧ CommitCrash exConf exIO b.w f := by
  obtain ⟨m, f, -, hl⟩ := create_live exConf_ok exConstEnv.H
  have hd : (pageLawful exConf_ok exConstEnv_width).RepD (.fresh f m f [] none) Spec.Db.empty := hl none
  have ha : AfterOkAll [.append ⟨1, exReq, noCancel⟩] := by
    intro j hj
    simp only [appendJobs, List.mem_singleton] at hj
    subst hj
    rintro cc hcc a ha'
    have hcc : exReq.condition = some cc := hcc
    simp only [exReq, Option.some.injEq] at hcc; subst hcc; cases ha'; decide
  have he : EnvOk exConstEnv := ⟨fun l => List.Perm.refl l⟩
  obtain ⟨w, hb, hw⟩ : ∃ w, (pageBackend exConf).begin (.fresh f m f [] none) = .ok w ∧
      (pageLawful exConf_ok exConstEnv_width).Rep w Spec.Db.empty (Abs.of exConstEnv.H Spec.Db.empty) := by
    rcases (pageLawful exConf_ok exConstEnv_width).begin hd with h | ⟨e, -, hf⟩
    · exact h
    · exact hf.elim
  obtain ⟨b, h1, h2⟩ : ∃ b, stepJob (pageBackend exConf) exConstEnv (Batch.new w) ⟨1, exReq, noCancel⟩ = .ok b ∧
      BInv (pageLawful exConf_ok exConstEnv_width).toWorkable b Spec.Db.empty [⟨1, exReq, noCancel⟩] := by
    rcases stepJob_spec he (pageLawful exConf_ok exConstEnv_width) (binv_new _ hw) rfl ⟨1, exReq, noCancel⟩
      (ha _ (by simp [appendJobs])) with h | ⟨hp, -⟩
    · exact h
    · exact absurd hp.1 (by simp [exReq])
  have hB : Builds (pageBackend exConf) exConstEnv 2048 9 (.fresh f m f [] none) ⟨1, exReq, noCancel⟩ [] b [] :=
    ⟨w, b, hb, h1, by unfold Db.drain; rfl⟩
  have hab : b.abort = none := by
    cases hx : b.abort with
    | none => rfl
    | some x =>
      obtain ⟨i, e⟩ := x
      obtain ⟨-, -, -, hF | ⟨-, j, hj, k, l, hkl⟩⟩ := h2.bad i e hx
      · exact hF.elim
      · have : j = ⟨1, exReq, noCancel⟩ := by simpa using List.mem_of_getElem? hj
        subst this
        simp [noCancel, Cancel.never] at hkl
  have hT : Tx exConf exConf_ok exConstEnv.H b.w Spec.Db.empty _ := (h2.good hab).1
  obtain ⟨h, PE, PT, PK, PF, ix, F, L, S, PE', PT', PK', PF', ix', T⟩ := hT
  obtain ⟨u, wr, hrun, -⟩ := T.ready exIO.ordLaw
  refine ⟨_, b, b.w.db.disk, hd, rfl, ha, hB, hab, .data wr hrun ⟨.refl S.zeroed, fun k _ => .inr ⟨_, by simp, fun _ => rfl⟩⟩⟩

end Examples

end Uma.Props
