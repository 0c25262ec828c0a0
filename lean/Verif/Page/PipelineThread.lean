import Verif.Page.PipelineProof

/-!
# What the pipelined writer thread answers
-/

namespace Uma.Page
open Uma.Codec Uma.Mvcc Uma.Spec

variable {c : Conf} {kw : Nat} {hc : ConfOk c kw} {H : String → Db.TagHash} {d : PDb} {s s' : Spec.Db}

/-! ## The trace of requests and answers -/

/-- As `Served`, where failed batches never have an effect. -/
inductive Exact (valid : Record → Prop) [DecidablePred valid] :
    Spec.Db → List (Nat × Request) → List Db.Answer → List (Option Nat) → Spec.Db → Prop
  | done {s : Spec.Db} : Exact valid s [] [] [] s
  | committed {s : Spec.Db} {js : List (Nat × Request)} {as : List Db.Answer} {js' : List (Nat × Request)} {as' : List Db.Answer}
      {hs : List (Option Nat)} {s' : Spec.Db} : as.map (·.1) = js.map (·.1) → SaysAll (as.map (·.2)) (appendAll valid s (js.map (·.2))).1 →
      Exact valid (appendAll valid s (js.map (·.2))).2 js' as' hs s' →
      Exact valid s (js ++ js') (as ++ as') (Spec.head (appendAll valid s (js.map (·.2))).2.log :: hs) s'
  | failed {s : Spec.Db} {js : List (Nat × Request)} {as : List Db.Answer} {js' : List (Nat × Request)} {as' : List Db.Answer}
      {hs : List (Option Nat)} {s' : Spec.Db} : as.map (·.1) = js.map (·.1) → (∀ a ∈ as, Failure a.2) → Exact valid s js' as' hs s' →
      Exact valid s (js ++ js') (as ++ as') hs s'

section Exact
variable {valid : Record → Prop} [DecidablePred valid] {s1 s2 : Spec.Db} {js js' : List (Nat × Request)} {as as' : List Db.Answer}
  {hs hs' : List (Option Nat)}

theorem Exact.served (h : Exact valid s js as hs s1) : Served valid s js as hs s1 := by
  induction h with
  | done => exact .done
  | committed h1 h2 _ ih => exact .committed h1 h2 ih
  | failed h1 h2 _ ih => exact .failed h1 h2 ih

theorem Exact.append (h : Exact valid s js as hs s1) (k : Exact valid s1 js' as' hs' s2) :
    Exact valid s (js ++ js') (as ++ as') (hs ++ hs') s2 := by
  induction h with
  | done => exact k
  | committed h1 h2 _ ih =>
    rw [List.append_assoc, List.append_assoc]
    exact .committed h1 h2 (ih k)
  | failed h1 h2 _ ih =>
    rw [List.append_assoc, List.append_assoc]
    exact .failed h1 h2 (ih k)

theorem Exact.commit (h1 : as.map (·.1) = js.map (·.1)) (h2 : SaysAll (as.map (·.2)) (appendAll valid s (js.map (·.2))).1) :
    Exact valid s js as [Spec.head (appendAll valid s (js.map (·.2))).2.log] (appendAll valid s (js.map (·.2))).2 := by
  have := Exact.committed (js' := []) (as' := []) h1 h2 .done
  simpa using this

theorem Exact.fail (h1 : as.map (·.1) = js.map (·.1)) (h2 : ∀ a ∈ as, Failure a.2) : Exact valid s js as [] s := by
  have := Exact.failed (valid := valid) (s := s) (js' := []) (as' := []) h1 h2 .done
  simpa using this

end Exact

open scoped Classical

/-- The batch in flight consists of the requests `js`. -/
structure Carries (c : Conf) (f : Flight) (js : List Db.Job) (s s' : Spec.Db) : Prop where
  resp : f.responders = js.map (·.id)
  len : f.results.length = js.length
  told : SaysAll f.results (appendAll (Accepted c.g.pageSize) s (js.map (·.req))).1
  after : s' = (appendAll (Accepted c.g.pageSize) s (js.map (·.req))).2
  head : f.head = Spec.head s'.log

/-- The database holds `s`, and the requests `fj` are in flight. -/
def PipeAt (c : Conf) {kw : Nat} (hc : ConfOk c kw) (H : String → Db.TagHash) (st : Pipe) (fj : List Db.Job) (s : Spec.Db) : Prop :=
  (fj = [] ∧ IdleAt c hc H st s) ∨ ∃ f s', FlyAt c hc H st f s s' ∧ Carries c f fj s s'

theorem PipeAt.live {st : Pipe} {fj : List Db.Job} (I : PipeAt c hc H st fj s) : Live c hc H st.db s := by
  rcases I with ⟨-, I⟩ | ⟨f, s', I, -⟩
  · exact I.live
  · exact I.live

/-- From `st` to `st'`, having answered the requests `js`. -/
structure Moves (c : Conf) (s : Spec.Db) (st : Pipe) (js : List Db.Job) (s1 : Spec.Db) (st' : Pipe) : Prop where
  trace : ∃ as hs, Exact (Accepted c.g.pageSize) s (Db.clientReqs js) as hs s1 ∧ st'.answers = st.answers ++ as ∧ st'.heads = st.heads ++ hs
  panicked : st'.panicked = st.panicked

theorem Moves.refl (st : Pipe) : Moves c s st [] s st := ⟨⟨[], [], .done, by simp, by simp⟩, rfl⟩

theorem Moves.trans {s1 s2 : Spec.Db} {st st' st'' : Pipe} {js js' : List Db.Job} (h : Moves c s st js s1 st') (k : Moves c s1 st' js' s2 st'') :
    Moves c s st (js ++ js') s2 st'' := by
  obtain ⟨⟨as, hs, h1, h2, h3⟩, h4⟩ := h
  obtain ⟨⟨as', hs', k1, k2, k3⟩, k4⟩ := k
  refine ⟨⟨as ++ as', hs ++ hs', ?_, by rw [k2, h2, List.append_assoc], by rw [k3, h3, List.append_assoc]⟩, k4.trans h4⟩
  have := h1.append k1
  simpa [Db.clientReqs] using this

theorem failAll_fst (rs : List Nat) (e : Err) : (failAll rs e).map (·.1) = rs := by
  unfold failAll
  rw [List.map_map]
  exact List.map_id rs

theorem failAll_failure {rs : List Nat} {e : Err} (h : Db.Fatal e) : ∀ a ∈ failAll rs e, Failure a.2 := by
  intro a ha
  obtain ⟨r, -, rfl⟩ := List.mem_map.mp ha
  exact Db.failure_of_fatal h

theorem clientReqs_fst (js : List Db.Job) : (Db.clientReqs js).map (·.1) = js.map (·.id) := by simp [Db.clientReqs]
theorem clientReqs_snd (js : List Db.Job) : (Db.clientReqs js).map (·.2) = js.map (·.req) := by simp [Db.clientReqs]

/-- All requests are told the same error. -/
theorem Moves.fails {st st' : Pipe} {js : List Db.Job} {as : List Db.Answer} (h1 : as.map (·.1) = js.map (·.id))
    (h2 : ∀ a ∈ as, Failure a.2) (h3 : st'.answers = st.answers ++ as) (h4 : st'.heads = st.heads) (h5 : st'.panicked = st.panicked) :
    Moves c s st js s st' :=
  ⟨⟨as, [], .fail (by rw [clientReqs_fst]; exact h1) h2, h3, by simp [h4]⟩, h5⟩

/-- The batch in flight lands or is lost. -/
theorem FlyAt.settles {st : Pipe} {f : Flight} {fj : List Db.Job} (I : FlyAt c hc H st f s s') (C : Carries c f fj s s') (io : PipeIO) :
    (∃ st', st.acknowledge c io f = (true, st') ∧ IdleAt c hc H st' s' ∧ st'.db = landed c io f.x st.db ∧ Moves c s st fj s' st') ∨
    ∃ st', st.acknowledge c io f = (false, st') ∧ st'.fly = none ∧ Live c hc H st'.db s ∧ Moves c s st fj s st' := by
  rcases I.acknowledge io with ⟨st', h1, h2, h3, h4, h5, h6⟩ | ⟨st', e, h1, h2, h3, h4, h5, h6, h7⟩
  · refine .inl ⟨st', h1, h2, h3, ⟨f.responders.zip f.results, [f.head], ?_, h4, h5⟩, h6⟩
    have hlen : f.responders.length = f.results.length := by rw [C.resp, C.len, List.length_map]
    have := Exact.commit (valid := Accepted c.g.pageSize) (s := s) (js := Db.clientReqs fj) (as := f.responders.zip f.results)
      (by rw [clientReqs_fst, List.map_fst_zip (by omega), C.resp]) (by rw [clientReqs_snd, List.map_snd_zip (by omega)]; exact C.told)
    rw [clientReqs_snd, ← C.after, ← C.head] at this
    exact this
  · exact .inr ⟨st', h1, h3, h4, .fails (by rw [failAll_fst, C.resp]) (failAll_failure h2) h5 h6 h7⟩

/-- After the barrier. -/
theorem dispatch_spec (hg : c.g.pageSize = defaultPageSize) (hH : ∀ t, NormalizedTo kw (H t))
    {st : Pipe} {b : Db.Batch PW} {js : List Db.Job} (io : PipeIO)
    (hf : st.fly = none) (hl : Live c hc H st.db s)
    (hB : Db.BInv (H := H) (valid := Accepted c.g.pageSize) (pageLawful hc hH).toWorkable (onTx (PW.on { st.db with oldest := io.oldest }) b) s js) :
    ∃ js' fj, js = js' ++ fj ∧ PipeAt c hc H (st.dispatch c io b) fj s ∧ Moves c s st js' s (st.dispatch c io b) := by
  have hroll : ∀ as : List Db.Answer, as.map (·.1) = js.map (·.id) → (∀ a ∈ as, Failure a.2) →
      PipeAt c hc H ({ st with answers := st.answers ++ as }.rollback c io.oldest) [] s ∧
      Moves c s st js s ({ st with answers := st.answers ++ as }.rollback c io.oldest) := by
    intro as h1 h2
    obtain ⟨i1, i2, i3, i4, i5⟩ := rollback_spec (c := c) (st := { st with answers := st.answers ++ as }) hf hl io.oldest
    exact ⟨.inl ⟨rfl, i1⟩, .fails h1 h2 i3 i4 i5⟩
  have hresp : b.responders = js.map (·.id) := hB.resp
  unfold Pipe.dispatch
  cases ha : b.abort with
  | some x =>
    obtain ⟨i, e⟩ := x
    have hfat := (hB.bad i e ha).1
    obtain ⟨h1, h2⟩ := hroll (Db.abortAnswers b.responders i e) (by rw [Db.abortAnswers_fst, hresp]) (by
      intro a ha
      obtain ⟨y, -, rfl⟩ := List.mem_map.mp ha
      show Failure (if y.2 = i then _ else _)
      split
      · exact Db.failure_of_fatal hfat
      · exact Db.failure_of_fatal (Db.fatal_shadow hfat))
    exact ⟨js, [], by simp, h1, h2⟩
  | none =>
    simp only
    obtain ⟨⟨h, PE, PT, PK, PF, ix, F, L, S, PE', PT', PK', PF', ix', T⟩, hsays⟩ := hB.good ha
    have T : TxAt c hc { st.db with oldest := io.oldest } h F b.w.wr PE' PT' PK' PF' ix'
      (Db.Abs.of H (appendAll (Accepted c.g.pageSize) s (js.map (·.req))).2) := T
    have L : LiveAt c hc H { st.db with oldest := io.oldest } b.w.hp h PE PT PK PF ix F s := L
    have S : SafeAt c kw { st.db with oldest := io.oldest } b.w.hp h (PF + (PE + PT + PK)) := S
    rcases prepareCommit_spec hg L T io.ordLaw with ⟨x, w', PF'', N, h1, R, X⟩ | ⟨e, h1, hfat⟩
    · rw [h1]
      refine ⟨[], js, rfl, .inr ⟨_, (appendAll (Accepted c.g.pageSize) s (js.map (·.req))).2, ⟨rfl, b.w.hp, h, PE, PT, PK, PF, ix, F,
        io.oldest, w', PE', PT', PK', PF'', ix', N, L.reader st.db.oldest, S.reader st.db.oldest, R.again st.db.oldest, X, rfl, rfl, rfl⟩,
        hresp, hB.len, hsays, rfl, ?_⟩, ⟨⟨[], [], .done, by simp, by simp⟩, rfl⟩⟩
      show Db.headOfNext w'.nextPos = _
      rw [R.next]
      exact Db.headOfNext_eq _
    · rw [h1]
      obtain ⟨h1, h2⟩ := hroll (failAll b.responders e) (by rw [failAll_fst, hresp]) (failAll_failure hfat)
      exact ⟨js, [], by simp, h1, h2⟩

/-- The barrier and after. -/
theorem barrier_spec (hg : c.g.pageSize = defaultPageSize) (hH : ∀ t, NormalizedTo kw (H t))
    {st : Pipe} {f : Flight} {fj js : List Db.Job} {b : Db.Batch PW} (io : PipeIO) (I : FlyAt c hc H st f s s') (C : Carries c f fj s s')
    (hB : Db.BInv (H := H) (valid := Accepted c.g.pageSize) (pageLawful hc hH).toWorkable
      (onTx (PW.on { landed c io f.x st.db with oldest := io.oldest }) b) s' js) :
    ∃ js' fj' s1, fj ++ js = js' ++ fj' ∧ PipeAt c hc H (st.finish c io b) fj' s1 ∧ Moves c s st js' s1 (st.finish c io b) := by
  unfold Pipe.finish
  rw [I.1]
  rcases I.settles C io with ⟨st1, h1, h2, h3, h4⟩ | ⟨st1, h1, h2, h3, h4⟩
  · simp only [h1]
    rw [← h3] at hB
    obtain ⟨js', fj', k1, k2, k3⟩ := dispatch_spec hg hH io h2.1 h2.live hB
    exact ⟨fj ++ js', fj', s', by rw [k1, List.append_assoc], k2, h4.trans k3⟩
  · simp only [h1]
    obtain ⟨i1, i2, i3, i4, i5⟩ := rollback_spec (c := c) h2 h3 io.oldest
    have hresp : b.responders = js.map (·.id) := hB.resp
    refine ⟨fj ++ js, [], s, by simp, .inl ⟨rfl, i1⟩, h4.trans (.fails (as := failAll b.responders
      (.internal "batch discarded: preceding commit failed")) (by rw [failAll_fst, hresp]) (failAll_failure ⟨rfl, rfl, rfl⟩) ?_ i4 i5)⟩
    show _ ++ _ = _
    rw [i3]

/-- One turn of the loop. -/
theorem turn_spec (hg : c.g.pageSize = defaultPageSize) {env : Db.Env} (he : Db.EnvOk env) (hH : ∀ t, NormalizedTo kw (env.H t)) {st : Pipe}
    {fj : List Db.Job} (I : PipeAt c hc env.H st fj s) (max : Nat) (idle : Bool) (vis : Nat) (io : PipeIO) (q : List Db.Msg)
    (hq : ∀ j ∈ Db.appendJobs q, Db.AfterOk j.req) :
    (∃ q' st' js fj' s1, st.turn c env max idle vis io q = .go q' st' ∧ fj ++ Db.appendJobs q = js ++ (fj' ++ Db.appendJobs q') ∧
      PipeAt c hc env.H st' fj' s1 ∧ Moves c s st js s1 st' ∧ (Db.NoShutdown q → Db.NoShutdown q') ∧
      ∃ l, Db.appendJobs q = l ++ Db.appendJobs q') ∨
    (st.turn c env max idle vis io q = .stop st ∧ (q = [] ∨ ∃ q', q = .shutdown :: q')) ∨
    (st.turn c env max idle vis io q = .stop { st with panicked := true } ∧ ∃ j ∈ Db.appendJobs q, Db.MayPanic j) := by
  have main : ∀ j q1, q = .append j :: q1 →
      (∃ q' st' js fj' s1, st.batch c env max vis io j q1 = .go q' st' ∧ fj ++ Db.appendJobs q = js ++ (fj' ++ Db.appendJobs q') ∧
        PipeAt c hc env.H st' fj' s1 ∧ Moves c s st js s1 st' ∧ (Db.NoShutdown q → Db.NoShutdown q') ∧
      ∃ l, Db.appendJobs q = l ++ Db.appendJobs q') ∨
      (st.batch c env max vis io j q1 = .stop { st with panicked := true } ∧ ∃ j ∈ Db.appendJobs q, Db.MayPanic j) := by
    rintro j q1 rfl
    have hj : Db.AfterOk j.req := hq j (.head _)
    have hq1 : ∀ j ∈ Db.appendJobs q1, Db.AfterOk j.req := fun j hj => hq j (.tail _ hj)
    have hns : Db.NoShutdown (.append j :: q1) → Db.NoShutdown q1 := fun h m hm => h m (.tail _ hm)
    unfold Pipe.batch
    rcases I with ⟨rfl, I⟩ | ⟨f, s', I, C⟩
    · obtain ⟨wr, h1, T⟩ := I.opens io.junk io.oldest
      rw [h1]
      simp only
      rcases pipeBatch_spec he hH (w := ⟨st.db, st.hp, wr⟩) T max vis j q1 hj hq1 with
        ⟨b1, b, q', js', h2, h3, hB, hsplit, hno⟩ | ⟨hp, ⟨m, h2⟩ | ⟨b1, m, h2, h3⟩⟩
      · simp only [h2, h3]
        obtain ⟨js, fj', k1, k2, k3⟩ := dispatch_spec hg hH io I.1 I.live hB
        refine .inl ⟨q', _, js, fj', s, rfl, ?_, ?_, ?_, fun h => hno (hns h), j :: js', by simp [Db.appendJobs, hsplit]⟩
        · show j :: Db.appendJobs q1 = _
          rw [hsplit, ← List.append_assoc, ← k1]
          rfl
        · unfold Pipe.finish; rw [I.1]; exact k2
        · unfold Pipe.finish; rw [I.1]; exact k3
      · simp only [h2]
        exact .inr ⟨trivial, hp⟩
      · simp only [h2, h3]
        exact .inr ⟨trivial, hp⟩
    · obtain ⟨wr, h1, T⟩ := I.opens io
      rw [h1]
      simp only
      rcases pipeBatch_spec he hH (w := ⟨st.db, st.hp, wr⟩) T max vis j q1 hj hq1 with
        ⟨b1, b, q', js', h2, h3, hB, hsplit, hno⟩ | ⟨hp, ⟨m, h2⟩ | ⟨b1, m, h2, h3⟩⟩
      · simp only [h2, h3]
        obtain ⟨js, fj', s1, k1, k2, k3⟩ := barrier_spec hg hH io I C hB
        refine .inl ⟨q', _, js, fj', s1, rfl, ?_, k2, k3, fun h => hno (hns h), j :: js', by simp [Db.appendJobs, hsplit]⟩
        show fj ++ j :: Db.appendJobs q1 = _
        rw [hsplit, ← List.append_assoc, ← k1, List.append_assoc]
        rfl
      · simp only [h2]
        exact .inr ⟨trivial, hp⟩
      · simp only [h2, h3]
        exact .inr ⟨trivial, hp⟩
  have rest : (∀ f, st.fly = some f → idle = false) →
      (∃ q' st' js fj' s1, st.turn c env max idle vis io q = .go q' st' ∧ fj ++ Db.appendJobs q = js ++ (fj' ++ Db.appendJobs q') ∧
      PipeAt c hc env.H st' fj' s1 ∧ Moves c s st js s1 st' ∧ (Db.NoShutdown q → Db.NoShutdown q') ∧
      ∃ l, Db.appendJobs q = l ++ Db.appendJobs q') ∨
    (st.turn c env max idle vis io q = .stop st ∧ (q = [] ∨ ∃ q', q = .shutdown :: q')) ∨
    (st.turn c env max idle vis io q = .stop { st with panicked := true } ∧ ∃ j ∈ Db.appendJobs q, Db.MayPanic j) := by
    intro hidle
    have e : st.turn c env max idle vis io q = st.take c env max vis io q := by
      unfold Pipe.turn
      split
      · next f hf => cases hidle f hf
      · rfl
    rw [e]
    cases q with
    | nil => exact .inr (.inl ⟨rfl, .inl rfl⟩)
    | cons m q1 =>
      cases m with
      | shutdown => exact .inr (.inl ⟨rfl, .inr ⟨q1, rfl⟩⟩)
      | append j =>
        rcases main j q1 rfl with h | h
        · exact .inl h
        · exact .inr (.inr h)
  rcases I with ⟨rfl, I⟩ | ⟨f, s', I, C⟩
  · exact rest fun f hf => by rw [I.1] at hf; cases hf
  · cases idle with
    | false => exact rest fun _ _ => rfl
    | true =>
      have e : st.turn c env max true vis io q = st.wait c io q f := by
        unfold Pipe.turn
        rw [I.1]
      rw [e]
      unfold Pipe.wait
      rcases I.settles C io with ⟨st1, h1, h2, -, h4⟩ | ⟨st1, h1, h2, h3, h4⟩
      · rw [h1]
        exact .inl ⟨q, st1, fj, [], s', rfl, rfl, .inl ⟨rfl, h2⟩, h4, id, [], rfl⟩
      · rw [h1]
        obtain ⟨i1, i2, i3, i4, i5⟩ := rollback_spec (c := c) h2 h3 io.oldest
        have hm : Moves c s st1 [] s (st1.rollback c io.oldest) := ⟨⟨[], [], .done, by simp [i3], by simp [i4]⟩, i5⟩
        exact .inl ⟨q, _, fj, [], s, rfl, rfl, .inl ⟨rfl, i1⟩, by simpa using h4.trans hm, id, [], rfl⟩

/-- The whole run. -/
theorem pipeThread_spec (hg : c.g.pageSize = defaultPageSize) {env : Db.Env} (he : Db.EnvOk env) (hH : ∀ t, NormalizedTo kw (env.H t)) (max : Nat)
    (idle : Nat → Bool) (vis : Nat → Nat) (io : Nat → PipeIO) (k : Nat) : ∀ (n : Nat) (q : List Db.Msg) (st : Pipe) (fj : List Db.Job) (s : Spec.Db),
      st.left q ≤ k → PipeAt c hc env.H st fj s → st.panicked = false → (∀ j ∈ Db.appendJobs q, Db.AfterOk j.req) →
      ∃ js rest as hs s2, fj ++ Db.appendJobs q = js ++ rest ∧ Exact (Accepted c.g.pageSize) s (Db.clientReqs js) as hs s2 ∧
        (pipeThread c env max idle vis io n q st).answers = st.answers ++ as ∧
        (pipeThread c env max idle vis io n q st).heads = st.heads ++ hs ∧
        Live c hc env.H (pipeThread c env max idle vis io n q st).db s2 ∧
        ((pipeThread c env max idle vis io n q st).panicked = false → Db.NoShutdown q → rest = []) ∧
        ((pipeThread c env max idle vis io n q st).panicked = true → ∃ j ∈ rest, Db.MayPanic j) := by
  induction k using Nat.strongRecOn with
  | _ k ih =>
  intro n q st fj s hk I hp hq
  rw [pipeThread]
  rcases turn_spec hg he hH I max (idle n) (vis n) (io n) q hq with ⟨q', st', js, fj', s1, h1, h2, h3, h4, h5, l, h6⟩ | ⟨h1, h2⟩ | ⟨h1, h2⟩
  · have hl := turn_left h1
    split
    · next heq => rw [h1] at heq; cases heq
    next q'' st'' heq =>
    rw [h1] at heq
    cases heq
    have hq' : ∀ j ∈ Db.appendJobs q', Db.AfterOk j.req := fun j hj =>
      hq j (by rw [h6]; exact List.mem_append_right _ hj)
    obtain ⟨⟨as, hs, t1, t2, t3⟩, t4⟩ := h4
    obtain ⟨js2, rest, as2, hs2, s2, i1, i2, i3, i4, i5, i6, i7⟩ := ih (st'.left q') (by omega) (n + 1) q' st' fj' s1 (Nat.le_refl _) h3
      (t4.trans hp) hq'
    refine ⟨js ++ js2, rest, as ++ as2, hs ++ hs2, s2, by rw [h2, i1, List.append_assoc], ?_, by rw [i3, t2, List.append_assoc],
      by rw [i4, t3, List.append_assoc], i5, fun a b => i6 a (h5 b), i7⟩
    have := t1.append i2
    simpa [Db.clientReqs] using this
  · split
    swap
    · next heq => rw [h1] at heq; cases heq
    next st'' heq =>
    rw [h1] at heq
    cases heq
    have hr : ∃ s2, Live c hc env.H (st.reap c (io n)).db s2 ∧ Moves c s st fj s2 (st.reap c (io n)) := by
      unfold Pipe.reap
      rw [hp]
      simp only [Bool.false_eq_true, if_false]
      rcases I with ⟨rfl, I⟩ | ⟨f, s', I, C⟩
      · rw [I.1]
        exact ⟨s, I.live, .refl st⟩
      · rw [I.1]
        simp only
        rcases I.settles C (io n) with ⟨st1, k1, k2, -, k4⟩ | ⟨st1, k1, -, k3, k4⟩
        · rw [k1]; exact ⟨s', k2.live, k4⟩
        · rw [k1]; exact ⟨s, k3, k4⟩
    obtain ⟨s2, l1, ⟨as, hs, t1, t2, t3⟩, t4⟩ := hr
    refine ⟨fj, Db.appendJobs q, as, hs, s2, rfl, t1, t2, t3, l1, fun _ hno => ?_, fun hpt => ?_⟩
    · rcases h2 with rfl | ⟨q', rfl⟩
      · rfl
      · exact absurd rfl (hno _ (.head _))
    · rw [t4, hp] at hpt; cases hpt
  · split
    swap
    · next heq => rw [h1] at heq; cases heq
    next st'' heq =>
    rw [h1] at heq
    cases heq
    have hr : Pipe.reap c (io n) { st with panicked := true } = { st with panicked := true } := by
      unfold Pipe.reap; rfl
    rw [hr]
    obtain ⟨j, hj, hm⟩ := h2
    exact ⟨[], fj ++ Db.appendJobs q, [], [], s, rfl, .done, by simp, by simp, I.live, by simp, fun _ => ⟨j, List.mem_append_right _ hj, hm⟩⟩

end Uma.Page
