import Verif.Page.PipelineThread
import Verif.Props.Sizes

/-!
# The pipelined writer: C31, and C32 for it
-/

namespace Uma.Page
open Uma.Codec Uma.Mvcc Uma.Spec

variable {c : Conf} {kw : Nat} {hc : ConfOk c kw} {H : String → Db.TagHash} {d : PDb} {s s' : Spec.Db}

/-- The thread starts. -/
theorem start_spec (hl : Live c hc H d s) : ∃ st, Pipe.start c d = .ok st ∧ st.db = d ∧ IdleAt c hc H st s ∧
    st.answers = [] ∧ st.heads = [] ∧ st.panicked = false := by
  obtain ⟨h1, h2, h3, h4, h5⟩ := rollback_spec (c := c) (st := ⟨d, ⟨0, .eventLeaf [] []⟩, freshWriter c 0 ⟨0, 0, 0, 0, 0, 0, 0, 0⟩
    (fun _ => none) [] (fun _ => none), [], none, [], [], false⟩) rfl hl d.oldest
  obtain ⟨w, hw⟩ : ∃ w, d.writer c = .ok w := by
    obtain ⟨hp, h, PE, PT, PK, PF, ix, F, L, S⟩ := hl
    obtain ⟨w, h1, -⟩ := L.begin
    exact ⟨_, h1⟩
  unfold Pipe.rollback at h1
  simp only [hw] at h1
  refine ⟨_, ?_, ?_, h1, rfl, rfl, rfl⟩
  · unfold Pipe.start
    rw [hw]
  · rfl

/-- A crash while the writer thread has a batch in flight, or none: while its data pages are written, or its header. -/
inductive PipeCrash (c : Conf) (st : Pipe) (f : File) : Prop where
  | idle : st.fly = none → Crash c st.db f → PipeCrash c st f
  | data (fl : Flight) : st.fly = some fl → Survives c st.db.disk (st.db.loose ++ fl.x.pages.map (·.1)) [st.db.file] f → PipeCrash c st f
  | header (fl : Flight) (f1 f2 : File) (d1 : PDb) : st.fly = some fl → f1 = writeEach c.g fl.x.pages st.db.file →
      d1 = PDb.fsync c (fl.x.pages.map (·.1)) { st.db with file := f1 } → f2 = f1.writeAt (fl.x.hp.id * c.g.pageSize) fl.x.header →
      Survives c d1.disk (fl.x.hp.id :: d1.loose) [f1, f2] f → PipeCrash c st f

open scoped Classical in
theorem PipeAt.crash {st : Pipe} {fj : List Db.Job} (I : PipeAt c hc H st fj s) (hd : st.db.doubt = false) {f : File}
    (hf : PipeCrash c st f) {kw0 : Nat} (hk0 : kw0 ≤ 16) : ∃ d', reopen c kw0 f = .ok d' ∧
      (Live c hc H d' s ∨ Live c hc H d' (appendAll (Accepted c.g.pageSize) s (fj.map (·.req))).2) ∧ d'.doubt = false := by
  rcases I with ⟨rfl, I⟩ | ⟨fl, s', I, C⟩
  · cases hf with
    | idle _ hf =>
      obtain ⟨d', h1, h2, h3⟩ := crash_recovers I.live hd hf hk0
      exact ⟨d', h1, .inl h2.live, h3⟩
    | data fl h => rw [I.1] at h; cases h
    | header fl f1 f2 d1 h => rw [I.1] at h; cases h
  · rw [← C.after]
    obtain ⟨hfl, hp, h, PE, PT, PK, PF, ix, F, o, w, PE', PT', PK', PF', ix', N, L, S, R, X, -⟩ := I
    cases hf with
    | idle h => rw [hfl] at h; cases h
    | data fl' h V =>
      rw [hfl] at h; cases h
      rw [X.ids] at V
      obtain ⟨d', h1, h2, h3⟩ := R.dataCrash L S hd V hk0
      exact ⟨d', h1, .inl h2.live, h3⟩
    | header fl' f1 f2 d1 h hf1 hd1 hf2 V =>
      rw [hfl] at h; cases h
      rw [X.ids] at hd1
      rw [X.hp] at V hf2
      obtain ⟨htouch, hread⟩ := X.writes st.db.file L.zeroed
      rw [← hf1] at htouch hread
      obtain ⟨-, hr⟩ := writeAt_page (p := 1 - hp.id) X.len X.head htouch.zeroed
      simp only at hf2
      rw [← hf2] at hr
      obtain ⟨d', h1, h2, h3⟩ := R.headCrash L S hd htouch hread (readPage_header_width hr) hd1 V hk0
      exact ⟨d', h1, h2.imp LiveS.live LiveS.live, h3⟩

/-- Whether a batch in flight lands is up to the disk. -/
theorem ioCommit_fault (c : Conf) (io : PipeIO) (x : Prepared) (d : PDb) : (∃ d', ioCommit c io x d = (.ok (), d')) ↔ io.fault = none := by
  unfold ioCommit
  cases io.fault with
  | none => exact ⟨fun _ => rfl, fun _ => ⟨_, rfl⟩⟩
  | some ft =>
    refine ⟨fun ⟨d', h⟩ => ?_, fun h => nomatch h⟩
    cases ft <;> exact nomatch (Prod.mk.inj h).1

theorem acknowledge_fault (c : Conf) (io : PipeIO) (f : Flight) (st : Pipe) : (st.acknowledge c io f).1 = true ↔ io.fault = none := by
  rw [← ioCommit_fault c io f.x st.db]
  unfold Pipe.acknowledge
  cases h : ioCommit c io f.x st.db with
  | mk r d' => cases r <;> simp

theorem serializeEach_ok {kw : Nat} (hk : kw ≤ 16) : ∀ {pages : Pages}, (∀ x ∈ pages, NodeFits kw x.2 ∧ pageSizeOf kw x.2 ≤ defaultPageSize) →
    ∃ l, serializeEach kw pages = .ok l
  | [], _ => ⟨[], rfl⟩
  | (p, n) :: ps, h => by
    obtain ⟨h1, h2⟩ := h (p, n) (.head _)
    obtain ⟨b, hb⟩ := serialize_ok (zero := true) hk (shapeOk_of_fits h1) (keysTooLong_of_fits h1) (by rw [zeroBuffer_length]; exact h2)
    obtain ⟨l, hl⟩ := serializeEach_ok hk (pages := ps) fun x hx => h x (.tail _ hx)
    exact ⟨(p, b) :: l, by simp only [serializeEach, hb, hl]⟩

variable {hp : HPage} {h : Header} {PE PT PK PF PE' PT' PK' PF' : Multiset (Nat × Node)} {ix ix' : Nat → List Nat} {F : Multiset (Nat × Nat)}
  {w : Writer}

/-- If the pages fit, the commit can be prepared. -/
theorem TxAt.prepares (hg : c.g.pageSize = defaultPageSize) (L : LiveAt c hc H d hp h PE PT PK PF ix F s)
    (S : SafeAt c kw d hp h (PF + (PE + PT + PK))) (T : TxAt c hc d h F w PE' PT' PK' PF' ix' (Db.Abs.of H s')) {ord : Writer → List Nat}
    (hord : ∀ w, (ord w).Perm w.freed) (hn : Counters (processFreed ord w).2) (hm : Machine s')
    (hsz : ∀ x ∈ (processFreed ord w).2.dirty, splitByCount x.2 = true → pageSizeOf kw x.2 ≤ c.g.pageSize) :
    ∃ x wr, prepareCommit c ord hp w = .ok (x, wr) := by
  obtain ⟨u, w', hrun, PF'', N, R⟩ := T.ready hord
  rw [hrun] at hn hsz
  have hbig : c.g.pageSize ≤ 65536 := by rw [hg]; unfold defaultPageSize; decide
  have hfit := R.sizes L hbig hn hm hsz
  have hhead := R.headFits S hn
  have hcow : cowHeader hp w'.roots = .ok ⟨if hp.id = 0 then 1 else 0, .header (newHeader w' h.schema)⟩ := by
    unfold cowHeader
    rw [L.node]; rfl
  have hwps : w'.pageSize = c.g.pageSize := by
    obtain ⟨Old, hi⟩ := R.inv
    exact hi.wps
  obtain ⟨b, hb⟩ := serialize_ok (kw := kw) hc.kw (buf := List.replicate c.g.pageSize 0) (zero := c.zeroFill) (shapeOk_of_fits hhead)
    (keysTooLong_of_fits hhead) (by
      have := hc.ps
      simp only [pageSizeOf, nodeSize, pageHeaderSize, List.length_replicate]
      split <;> omega)
  obtain ⟨l, hl⟩ := serializeEach_ok hc.kw (pages := w'.dirty) fun x hx => ⟨(hfit x hx).2, hg ▸ (hfit x hx).1⟩
  unfold prepareCommit
  simp only [hrun, hcow]
  rw [R.width, hwps, if_neg (not_not.mpr ⟨hhead, fun x hx => (hfit x hx).2⟩), hb, hl]
  exact ⟨_, _, rfl⟩

end Uma.Page

namespace Uma.Props
open Uma.Spec Uma.Db Uma.Page Uma.Mvcc Uma.Codec

variable {c : Conf} {kw : Nat}

open scoped Classical

/-! ## Requests and answers -/

/-- The requests that were not told of a failure, with their answers. -/
noncomputable def kept (js : List (Nat × Request)) (as : List Answer) : List ((Nat × Request) × Answer) :=
  (js.zip as).filter fun x => ¬ Failure x.2.2

theorem says_kept {a : Except Err Nat} {o : Outcome} (h : Says a o) : ¬ Failure a := by
  cases a with
  | ok p => exact id
  | error e => cases e <;> cases o <;> simp_all [Says, Failure]

theorem saysAll_kept : ∀ {as : List (Except Err Nat)} {os : List Outcome}, SaysAll as os → ∀ a ∈ as, ¬ Failure a
  | a :: as, o :: os, h, x, hx => by
    rcases List.mem_cons.mp hx with rfl | hx
    · exact says_kept h.1
    · exact saysAll_kept h.2 x hx

theorem kept_append {js js' : List (Nat × Request)} {as as' : List Answer} (h : as.map (·.1) = js.map (·.1)) :
    kept (js ++ js') (as ++ as') = kept js as ++ kept js' as' := by
  have hl : js.length = as.length := by have := congrArg List.length h; simpa using this.symm
  unfold kept
  rw [List.zip_append hl, List.filter_append]

theorem kept_all {js : List (Nat × Request)} {as : List Answer} (h : as.map (·.1) = js.map (·.1)) (hk : ∀ a ∈ as, ¬ Failure a.2) :
    (kept js as).map (·.1) = js ∧ (kept js as).map (·.2) = as := by
  have hl : js.length = as.length := by have := congrArg List.length h; simpa using this.symm
  have : kept js as = js.zip as := by
    unfold kept
    rw [List.filter_eq_self]
    intro x hx
    simpa using hk _ (List.of_mem_zip hx).2
  rw [this]
  exact ⟨List.map_fst_zip (by omega), List.map_snd_zip (by omega)⟩

theorem kept_none {js : List (Nat × Request)} {as : List Answer} (hk : ∀ a ∈ as, Failure a.2) : kept js as = [] := by
  unfold kept
  rw [List.filter_eq_nil_iff]
  intro x hx
  simpa using hk _ (List.of_mem_zip hx).2

/-- The requests not told of a failure were executed, one after the other, and nothing else was. -/
theorem exact_kept {valid : Record → Prop} {s s' : Spec.Db} {js : List (Nat × Request)} {as : List Answer} {hs : List (Option Nat)}
    (h : Exact valid s js as hs s') : as.map (·.1) = js.map (·.1) ∧
      SaysAll ((kept js as).map (·.2.2)) (appendAll valid s ((kept js as).map (·.1.2))).1 ∧
      s' = (appendAll valid s ((kept js as).map (·.1.2))).2 := by
  induction h with
  | done => exact ⟨rfl, trivial, rfl⟩
  | @committed s js as js' as' hs s' h1 h2 _ ih =>
    obtain ⟨i1, i2, i3⟩ := ih
    obtain ⟨k1, k2⟩ := kept_all h1 fun a ha => saysAll_kept h2 _ (List.mem_map_of_mem ha)
    have e1 : (kept js as).map (·.1.2) = js.map (·.2) := by
      conv_rhs => rw [← k1]
      rw [List.map_map]; rfl
    have e2 : (kept js as).map (·.2.2) = as.map (·.2) := by
      conv_rhs => rw [← k2]
      rw [List.map_map]; rfl
    simp only [kept_append h1, List.map_append, e1, e2, appendAll_append]
    exact ⟨by rw [h1, i1], saysAll_append h2 i2, i3⟩
  | @failed s js as js' as' hs s' h1 h2 _ ih =>
    obtain ⟨i1, i2, i3⟩ := ih
    rw [kept_append h1, kept_none h2, List.nil_append]
    exact ⟨by simp [h1, i1], i2, i3⟩

/-- Without failures, all requests were executed one after the other. -/
theorem served_all {valid : Record → Prop} {s s' : Spec.Db} {js : List (Nat × Request)} {as : List Answer} {hs : List (Option Nat)}
    (h : Served valid s js as hs s') (hno : ∀ a ∈ as, ¬ Failure a.2) : as.map (·.1) = js.map (·.1) ∧
      SaysAll (as.map (·.2)) (appendAll valid s (js.map (·.2))).1 ∧ s' = (appendAll valid s (js.map (·.2))).2 := by
  have drop : ∀ {js : List (Nat × Request)} {as : List Answer}, as.map (·.1) = js.map (·.1) → (∀ a ∈ as, Failure a.2) →
      (∀ a ∈ as, ¬ Failure a.2) → js = [] ∧ as = [] := by
    intro js as h1 h2 h3
    cases as with
    | nil => exact ⟨by simpa using h1.symm, rfl⟩
    | cons a as => exact absurd (h2 a (.head _)) (h3 a (.head _))
  induction h with
  | done => exact ⟨rfl, trivial, rfl⟩
  | @committed s js as js' as' hs s' h1 h2 _ ih =>
    obtain ⟨i1, i2, i3⟩ := ih fun a ha => hno a (List.mem_append_right _ ha)
    rw [List.map_append, List.map_append, List.map_append, List.map_append, appendAll_append]
    exact ⟨by rw [h1, i1], saysAll_append h2 i2, i3⟩
  | failed h1 h2 _ ih =>
    obtain ⟨rfl, rfl⟩ := drop h1 h2 fun a ha => hno a (List.mem_append_left _ ha)
    exact ih fun a ha => hno a (List.mem_append_right _ ha)
  | failedLate h1 h2 _ ih =>
    obtain ⟨rfl, rfl⟩ := drop h1 h2 fun a ha => hno a (List.mem_append_left _ ha)
    exact ih fun a ha => hno a (List.mem_append_right _ ha)

/-! ## C31 -/

/-- The pipelined writer thread on the database `d` with the messages `q`. -/
noncomputable def pipeServe (c : Conf) (env : Env) (max : Nat) (idle : Nat → Bool) (vis : Nat → Nat) (io : Nat → PipeIO) (d : PDb)
    (q : List Msg) : Except Err Pipe :=
  match Pipe.start c d with
  | .error e => .error e
  | .ok st => .ok (pipeThread c env max idle vis io 0 q st)

theorem pipeServe_spec (hg : c.g.pageSize = defaultPageSize) {env : Env} (he : EnvOk env) (hc : ConfOk c kw)
    (hH : ∀ t, NormalizedTo kw (env.H t)) {d : PDb} {s : Spec.Db} (hd : Live c hc env.H d s) (max : Nat) (idle : Nat → Bool)
    (vis : Nat → Nat) (io : Nat → PipeIO) (q : List Msg) (ha : AfterOkAll q) :
    ∃ r js rest hs s2, pipeServe c env max idle vis io d q = .ok r ∧ appendJobs q = js ++ rest ∧
      Exact (Accepted c.g.pageSize) s (clientReqs js) r.answers hs s2 ∧ r.heads = hs ∧ Live c hc env.H r.db s2 ∧
      (r.panicked = false → NoShutdown q → rest = []) ∧ (r.panicked = true → ∃ j ∈ rest, MayPanic j) := by
  obtain ⟨st, h1, -, h2, h3, h4, h5⟩ := start_spec hd
  obtain ⟨js, rest, as, hs, s2, i1, i2, i3, i4, i5, i6, i7⟩ := pipeThread_spec hg he hH max idle vis io _ 0 q st [] s (Nat.le_refl _)
    (.inl ⟨rfl, h2⟩) h5 ha
  refine ⟨_, js, rest, hs, s2, by unfold pipeServe; rw [h1], i1, ?_, by rw [i4, h4]; rfl, i5, i6, i7⟩
  rw [i3, h3]
  exact i2

/-- C31: whatever the pattern of write failures, readers, batch sizes and waiting, every request taken from the queue is
answered, in order.  Those not told of a failure were executed one after the other on the database as it was, and got
exactly the answers that gives; what readers see afterwards is the result of those and nothing else.  All requests are
taken unless one makes the thread panic (finding 1) or the thread is told to stop. -/
theorem C31_answers (hg : c.g.pageSize = defaultPageSize) {env : Env} (he : EnvOk env) (hc : ConfOk c kw)
    (hH : ∀ t, NormalizedTo kw (env.H t)) {d : PDb} {s : Spec.Db} (hd : (pageLawful hc hH).RepD d s) (max : Nat) (idle : Nat → Bool)
    (vis : Nat → Nat) (io : Nat → PipeIO) (q : List Msg) (ha : AfterOkAll q) :
    ∃ r js rest, pipeServe c env max idle vis io d q = .ok r ∧ appendJobs q = js ++ rest ∧
      r.answers.map (·.1) = js.map (·.id) ∧
      SaysAll ((kept (clientReqs js) r.answers).map (·.2.2))
        (appendAll (Accepted c.g.pageSize) s ((kept (clientReqs js) r.answers).map (·.1.2))).1 ∧
      Shows c env r.db (appendAll (Accepted c.g.pageSize) s ((kept (clientReqs js) r.answers).map (·.1.2))).2 ∧
      (r.panicked = false → NoShutdown q → rest = []) ∧ (r.panicked = true → ∃ j ∈ rest, MayPanic j) := by
  obtain ⟨r, js, rest, hs, s2, h1, h2, h3, -, h5, h6, h7⟩ := pipeServe_spec hg he hc hH hd max idle vis io q ha
  obtain ⟨i1, i2, i3⟩ := exact_kept h3
  exact ⟨r, js, rest, h1, h2, by rw [i1, clientReqs_fst], i2, i3 ▸ shows he hc hH h5, h6, h7⟩

/-- C31: on the same database with the same requests, if no request is told of a failure, the pipelined and the blocking
writer give the same answers and lead to the same database, however either forms its batches. -/
theorem C31_same (hg : c.g.pageSize = defaultPageSize) {env : Env} (he : EnvOk env) (hc : ConfOk c kw)
    (hH : ∀ t, NormalizedTo kw (env.H t)) {d : PDb} {s : Spec.Db} (hd : (pageLawful hc hH).RepD d s) {max max' : Nat} {idle : Nat → Bool}
    {vis vis' : Nat → Nat} {io : Nat → PipeIO} {io' : Nat → Page.IO} {q : List Msg} (ha : AfterOkAll q) (hq : NoShutdown q) {r : Pipe}
    (hr : pipeServe c env max idle vis io d q = .ok r) (hp : r.panicked = false) (hf : ∀ a ∈ r.answers, ¬ Failure a.2)
    (hp' : (serve (pageBackend c) env max' vis' io' d q).panicked = false)
    (hf' : ∀ a ∈ (serve (pageBackend c) env max' vis' io' d q).answers, ¬ Failure a.2) :
    ∃ os s2, r.answers.map (·.1) = (serve (pageBackend c) env max' vis' io' d q).answers.map (·.1) ∧
      SaysAll (r.answers.map (·.2)) os ∧ SaysAll ((serve (pageBackend c) env max' vis' io' d q).answers.map (·.2)) os ∧
      Shows c env r.db s2 ∧ Shows c env (serve (pageBackend c) env max' vis' io' d q).db s2 := by
  obtain ⟨r', js, rest, hs, s2, h1, h2, h3, -, h5, h6, -⟩ := pipeServe_spec hg he hc hH hd max idle vis io q ha
  rw [hr] at h1; cases h1
  obtain ⟨js', rest', as, hs', s', k1, k2, k3, k4, k5, k6, k7⟩ :=
    writerThread_spec he (pageLawful hc hH) max' vis' io' q.length 0 q ⟨d, [], [], false⟩ s (Nat.le_refl _) hd rfl ha
  have k3 : (serve (pageBackend c) env max' vis' io' d q).answers = as := by unfold serve; rw [k3]; rfl
  rw [k3] at hf' ⊢
  have e1 : js = appendJobs q := by rw [h2, h6 hp hq, List.append_nil]
  have e2 : js' = appendJobs q := by rw [k1, k6 hp' hq, List.append_nil]
  obtain ⟨a1, a2, a3⟩ := served_all h3.served hf
  obtain ⟨b1, b2, b3⟩ := served_all k2 hf'
  rw [e2, ← e1] at b1 b2 b3
  refine ⟨_, _, by rw [a1, b1], a2, b2, shows he hc hH h5, ?_⟩
  rw [a3, ← b3]
  exact shows he hc hH k5

/-- The loop of the writer thread comes to `st`, with the messages `q` still to be received. -/
inductive Turns (c : Conf) (env : Env) (max : Nat) (q0 : List Msg) (st0 : Pipe) : List Msg → Pipe → Prop
  | start : Turns c env max q0 st0 q0 st0
  | turn {q q' : List Msg} {st st' : Pipe} (idle : Bool) (vis : Nat) (io : PipeIO) : Turns c env max q0 st0 q st →
      st.turn c env max idle vis io q = .go q' st' → Turns c env max q0 st0 q' st'

theorem turns_spec (hg : c.g.pageSize = defaultPageSize) {env : Env} (he : EnvOk env) {hc : ConfOk c kw}
    (hH : ∀ t, NormalizedTo kw (env.H t)) {max : Nat} {q0 q : List Msg} {st0 st : Pipe} {s : Spec.Db} (hi : IdleAt c hc env.H st0 s)
    (ha : AfterOkAll q0) (h : Turns c env max q0 st0 q st) :
    AfterOkAll q ∧ ∃ js fj s1, appendJobs q0 = js ++ (fj ++ appendJobs q) ∧ PipeAt c hc env.H st fj s1 ∧ Moves c s st0 js s1 st := by
  induction h with
  | start => exact ⟨ha, [], [], s, rfl, .inl ⟨rfl, hi⟩, .refl _⟩
  | turn idle vis io _ ht ih =>
    obtain ⟨ha, js, fj, s1, h1, h2, h3⟩ := ih
    rcases turn_spec hg he hH h2 max idle vis io _ ha with ⟨q', st', js', fj', s2, k1, k2, k3, k4, -, l, k5⟩ | ⟨k1, -⟩ | ⟨k1, -⟩
    · rw [ht] at k1; cases k1
      refine ⟨fun j hj => ha j (by rw [k5]; exact List.mem_append_right _ hj), js ++ js', fj', s2, ?_, k3, h3.trans k4⟩
      rw [h1, k2, List.append_assoc]
    · rw [ht] at k1; cases k1
    · rw [ht] at k1; cases k1

/-- C31: the process or machine stops at any point of the work of the pipelined writer (an acknowledgement within a turn
leaves the state of a turn that only waits).  Opening the file again works; the database then holds the requests `js`
answered so far, except those told of a failure, and either nothing more or also all of the batch in flight.  In particular
it reaches to every position that was reported as `Ok`. -/
theorem C31_durable (hg : c.g.pageSize = defaultPageSize) {env : Env} (he : EnvOk env) (hc : ConfOk c kw)
    (hH : ∀ t, NormalizedTo kw (env.H t)) {d : PDb} {s : Spec.Db} (hd : (pageLawful hc hH).RepD d s) {max : Nat} {q0 q : List Msg}
    {st0 st : Pipe} (h0 : Pipe.start c d = .ok st0) (ha : AfterOkAll q0) (h : Turns c env max q0 st0 q st) (hdoubt : st.db.doubt = false)
    {f : File} (hf : PipeCrash c st f) {kw0 : Nat} (hk : kw0 ≤ 16) :
    ∃ js fj s1 d', appendJobs q0 = js ++ (fj ++ appendJobs q) ∧ st.answers.map (·.1) = js.map (·.id) ∧
      s1 = (appendAll (Accepted c.g.pageSize) s ((kept (clientReqs js) st.answers).map (·.1.2))).2 ∧
      Shows c env st.db s1 ∧ reopen c kw0 f = .ok d' ∧
      (Shows c env d' s1 ∨ Shows c env d' (appendAll (Accepted c.g.pageSize) s1 (fj.map (·.req))).2) ∧
      ∀ a ∈ st.answers, ∀ p, a.2 = .ok p → p ≤ s1.log.length := by
  obtain ⟨st1, i1, -, i2, i3, i4, -⟩ := start_spec hd
  rw [h0] at i1; cases i1
  obtain ⟨-, js, fj, s1, h1, h2, ⟨as, hs, t1, t2, -⟩, -⟩ := turns_spec hg he hH i2 ha h
  rw [i3, List.nil_append] at t2
  rw [← t2] at t1
  obtain ⟨e1, -, e3⟩ := exact_kept t1
  obtain ⟨d', k1, k2, -⟩ := h2.crash hdoubt hf hk
  refine ⟨js, fj, s1, d', h1, by rw [e1, clientReqs_fst], e3, shows he hc hH h2.live, k1, k2.imp (shows he hc hH) (shows he hc hH), ?_⟩
  intro a ham p hp
  obtain ⟨tr, -, u2, u3⟩ := served_trace t1.served
  have : a.2 ∈ tr.map (·.2.1) := by rw [u2]; exact List.mem_map_of_mem ham
  obtain ⟨x, hx, hxa⟩ := List.mem_map.mp this
  exact trace_ok_le u3 hx (hxa.trans hp)

/-- C31: the disk fails while a batch is in flight.  Its requests are all told of a failure, as are those of the batch built on
top of it (`js`), if one was; nothing is announced, and readers see what they saw before. -/
theorem C31_failed (hg : c.g.pageSize = defaultPageSize) {env : Env} (he : EnvOk env) (hc : ConfOk c kw)
    (hH : ∀ t, NormalizedTo kw (env.H t)) {d : PDb} {s : Spec.Db} (hd : (pageLawful hc hH).RepD d s) {max : Nat} {q0 q q' : List Msg}
    {st0 st st' : Pipe} (h0 : Pipe.start c d = .ok st0) (ha : AfterOkAll q0) (h : Turns c env max q0 st0 q st) {f : Flight}
    (hfly : st.fly = some f) {idle : Bool} {vis : Nat} {io : PipeIO} (hio : io.fault ≠ none)
    (ht : st.turn c env max idle vis io q = .go q' st') :
    ∃ js as s1, appendJobs q = js ++ appendJobs q' ∧ st'.answers = st.answers ++ as ∧ as.map (·.1) = f.responders ++ js.map (·.id) ∧
      (∀ a ∈ as, Failure a.2) ∧ st'.heads = st.heads ∧ st'.fly = none ∧ Shows c env st.db s1 ∧ Shows c env st'.db s1 := by
  obtain ⟨st1, i1, -, i2, -⟩ := start_spec hd
  rw [h0] at i1; cases i1
  obtain ⟨hq, -, fj, s1, -, I, -⟩ := turns_spec hg he hH i2 ha h
  rcases I with ⟨-, I⟩ | ⟨f', s', I, C⟩
  · rw [I.1] at hfly; cases hfly
  have hf := I.1
  rw [hfly] at hf; cases hf
  obtain ⟨st1, e, k1, k2, k3, k4, k5, k6, -⟩ : ∃ st1 e, st.acknowledge c io f = (false, st1) ∧ Fatal e ∧ st1.fly = none ∧
      Live c hc env.H st1.db s1 ∧ st1.answers = st.answers ++ failAll f.responders e ∧ st1.heads = st.heads ∧ st1.panicked = st.panicked := by
    rcases I.acknowledge io with ⟨st1, k1, -⟩ | k
    · exact absurd ((acknowledge_fault c io f st).mp (by rw [k1])) hio
    · exact k
  obtain ⟨r1, r2, r3, r4, -⟩ := rollback_spec (c := c) k3 k4 io.oldest
  have hs1 := shows he hc hH I.live
  have hs2 : Shows c env (st1.rollback c io.oldest).db s1 := shows he hc hH r1.live
  unfold Pipe.turn at ht
  rw [hfly] at ht
  cases idle with
  | true =>
    simp only [Pipe.wait, k1] at ht
    cases ht
    exact ⟨[], _, s1, rfl, by rw [r3, k5], by rw [failAll_fst]; simp, failAll_failure k2, by rw [r4, k6], r1.1, hs1, hs2⟩
  | false =>
    simp only at ht
    cases q with
    | nil => simp [Pipe.take] at ht
    | cons m q1 =>
      cases m with
      | shutdown => simp [Pipe.take] at ht
      | append j =>
        simp only [Pipe.take, Pipe.batch] at ht
        obtain ⟨wr, h1, T⟩ := I.opens io
        rw [h1] at ht
        simp only at ht
        rcases pipeBatch_spec he hH (w := ⟨st.db, st.hp, wr⟩) T max vis j q1 (hq j (.head _)) (fun j hj => hq j (.tail _ hj)) with
          ⟨b1, b, q2, js', h2, h3, hB, hsplit, hno⟩ | ⟨hp, ⟨m, h2⟩ | ⟨b1, m, h2, h3⟩⟩
        · simp only [h2, h3, Pipe.finish, hfly, k1] at ht
          cases ht
          have hresp : b.responders = (j :: js').map (·.id) := hB.resp
          refine ⟨j :: js', failAll f.responders e ++ failAll b.responders (.internal "batch discarded: preceding commit failed"), s1,
            by simp [appendJobs, hsplit], ?_, ?_, ?_, by rw [← k6, ← r4], r1.1, hs1, hs2⟩
          · simp only [r3, k5, List.append_assoc]
          · rw [List.map_append, failAll_fst, failAll_fst, hresp]
          · intro a ham
            rcases List.mem_append.mp ham with ham | ham
            · exact failAll_failure k2 a ham
            · exact failAll_failure ⟨rfl, rfl, rfl⟩ a ham
        · simp only [h2] at ht; cases ht
        · simp only [h2, h3] at ht; cases ht

/-- The writer thread takes the request `j` from its queue and then others from `q` into the batch `b`. -/
def PipeBuilds (c : Conf) (env : Env) (max vis : Nat) (io : PipeIO) (st : Pipe) (j : Job) (q : List Msg) (b : Batch PW) (q' : List Msg) : Prop :=
  ∃ wr b1, findReusable io.oldest { st.wr with base := wetBase c (st.seen c io.junk) st.wet } = (.ok (), wr) ∧
    stepJob (pageBackend c) env (Batch.new ⟨st.db, st.hp, wr⟩) j = .ok b1 ∧ drain (pageBackend c) env max vis q b1 = .ok (b, q')

/-- The answers due for the batch in flight. -/
def due (st : Pipe) : List Answer :=
  match st.fly with
  | none => []
  | some f => f.responders.zip f.results

theorem machine_kept {valid : Record → Prop} {s : Spec.Db} (hm : Machine s) {js : List Job} (hreq : ∀ j ∈ js, MachineReq j.req) (as : List Answer) :
    Machine (appendAll valid s ((kept (clientReqs js) as).map (·.1.2))).2 := by
  refine machine_appendAll _ _ hm fun r hr => ?_
  obtain ⟨x, hx, rfl⟩ := List.mem_map.mp hr
  have h1 := (List.of_mem_zip (List.mem_filter.mp hx).1).1
  obtain ⟨j, hj, h2⟩ := List.mem_map.mp h1
  rw [← h2]
  exact hreq j hj

/-- C31, together with `C31_waits`, why a request is told of a failure: if the disk does not fail, no request is cancelled and the
pages fit, a batch is put in flight, holding the answers of its requests; and the batch that was in flight before it has
landed, with its answers sent.  (That tracking pages and leaf pages of the tag index with two tags fit is not guaranteed, see C27; the
other pages always do.) -/
theorem C31_progress (hg : c.g.pageSize = defaultPageSize) {env : Env} (he : EnvOk env) (hc : ConfOk c kw)
    (hH : ∀ t, NormalizedTo kw (env.H t)) {d : PDb} {s : Spec.Db} (hd : (pageLawful hc hH).RepD d s) (hm : Machine s) {max : Nat} {q0 q : List Msg}
    {st0 st : Pipe} (h0 : Pipe.start c d = .ok st0) (ha : AfterOkAll q0) (hreq : ∀ j ∈ appendJobs q0, MachineReq j.req) {j : Job}
    (h : Turns c env max q0 st0 (.append j :: q) st) (hcan : ∀ j' ∈ appendJobs (.append j :: q), ∀ k l, j'.cancel k l = false)
    (hpan : ∀ j' ∈ appendJobs (.append j :: q), ¬ MayPanic j') (vis : Nat) {io : PipeIO} (hio : io.fault = none) :
    ∃ b q' js, PipeBuilds c env max vis io st j q b q' ∧ appendJobs (.append j :: q) = js ++ appendJobs q' ∧
      (Counters (settled io.toIO b.w) →
        (∀ x ∈ (settled io.toIO b.w).dirty, splitByCount x.2 = true → pageSizeOf kw x.2 ≤ c.g.pageSize) →
        ∃ st' f s1, st.turn c env max false vis io (.append j :: q) = .go q' st' ∧ st'.answers = st.answers ++ due st ∧
          st'.heads = st.heads ++ (st.fly.map (·.head)).toList ∧
          st'.fly = some f ∧ f.responders = js.map (·.id) ∧ Shows c env st'.db s1 ∧
          SaysAll f.results (appendAll (Accepted c.g.pageSize) s1 (js.map (·.req))).1) := by
  obtain ⟨st1, i1, -, i2, -⟩ := start_spec hd
  rw [h0] at i1; cases i1
  obtain ⟨hq, js0, fj, s1, hsp, I, ⟨as, hs, t1, -⟩, -⟩ := turns_spec hg he hH i2 ha h
  have hm1 : Machine s1 := by
    rw [(exact_kept t1).2.2]
    exact machine_kept hm (fun j hj => hreq j (by rw [hsp]; exact List.mem_append_left _ hj)) as
  have hturn : st.turn c env max false vis io (.append j :: q) = st.batch c env max vis io j q := by
    unfold Pipe.turn
    cases st.fly <;> rfl
  -- the batch, built on the database `d1`
  have main : ∀ (d1 : PDb) (s' : Spec.Db) (wr : Writer), findReusable io.oldest { st.wr with base := wetBase c (st.seen c io.junk) st.wet } = (.ok (), wr) →
      Tx c hc env.H (PW.on d1 ⟨st.db, st.hp, wr⟩) s' (Abs.of env.H s') → Machine s' →
      ∃ b q' js', PipeBuilds c env max vis io st j q b q' ∧ appendJobs (.append j :: q) = (j :: js') ++ appendJobs q' ∧
        st.batch c env max vis io j q = .go q' (st.finish c io b) ∧ b.responders = (j :: js').map (·.id) ∧
        SaysAll b.results (appendAll (Accepted c.g.pageSize) s' ((j :: js').map (·.req))).1 ∧
        (Counters (settled io.toIO b.w) →
          (∀ x ∈ (settled io.toIO b.w).dirty, splitByCount x.2 = true → pageSizeOf kw x.2 ≤ c.g.pageSize) →
          ∀ st1 : Pipe, ∃ f, (st1.dispatch c io b).fly = some f ∧ f.responders = b.responders ∧ f.results = b.results ∧
            (st1.dispatch c io b).db = st1.db ∧ (st1.dispatch c io b).answers = st1.answers ∧ (st1.dispatch c io b).heads = st1.heads) := by
    intro d1 s' wr h1 T hm'
    rcases pipeBatch_spec he hH (w := ⟨st.db, st.hp, wr⟩) T max vis j q (hq j (.head _)) (fun j hj => hq j (.tail _ hj)) with
      ⟨b1, b, q2, js', h2, h3, hB, hsplit, hno⟩ | ⟨⟨j', hj', hp⟩, -⟩
    swap
    · exact absurd hp (hpan j' hj')
    have hsplit' : appendJobs (.append j :: q) = (j :: js') ++ appendJobs q2 := by simp [appendJobs, hsplit]
    have hab : b.abort = none := by
      cases hx : b.abort with
      | none => rfl
      | some x =>
        obtain ⟨i, e⟩ := x
        obtain ⟨-, -, -, hF | ⟨-, j', hj, k, l, hkl⟩⟩ := hB.bad i e hx
        · exact hF.elim
        · rw [hcan j' (by rw [hsplit']; exact List.mem_append_left _ (List.mem_of_getElem? hj))] at hkl
          cases hkl
    refine ⟨b, q2, js', ⟨wr, b1, h1, h2, h3⟩, hsplit', ?_, hB.resp, (hB.good hab).2, fun hn hsz st1 => ?_⟩
    · unfold Pipe.batch
      simp only [h1, h2, h3]
    · obtain ⟨h, PE, PT, PK, PF, ix, F, L, S, PE', PT', PK', PF', ix', T'⟩ := (hB.good hab).1
      have hm2 := machine_appendAll (valid := Accepted c.g.pageSize) ((j :: js').map (·.req)) s' hm' fun r hr => by
        obtain ⟨j', hj', rfl⟩ := List.mem_map.mp hr
        refine hreq j' ?_
        rw [hsp, hsplit']
        exact List.mem_append_right _ (List.mem_append_right _ (List.mem_append_left _ hj'))
      obtain ⟨x, wr', hx⟩ := TxAt.prepares hg L S T' io.ordLaw hn hm2 hsz
      have hx : prepareCommit c io.ord b.w.hp b.w.wr = .ok (x, wr') := hx
      unfold Pipe.dispatch
      rw [hab]
      simp only
      rw [hx]
      exact ⟨_, rfl, rfl, rfl, rfl, rfl, rfl⟩
  rcases I with ⟨rfl, I⟩ | ⟨f, s', I, C⟩
  · obtain ⟨wr, h1, T⟩ := I.opens io.junk io.oldest
    obtain ⟨b, q', js', k1, k2, k3, k4, k5, k6⟩ := main _ s1 wr h1 T hm1
    refine ⟨b, q', j :: js', k1, k2, fun hn hsz => ?_⟩
    obtain ⟨f, m1, m2, m3, m4, m5, m6⟩ := k6 hn hsz st
    have e : st.finish c io b = st.dispatch c io b := by unfold Pipe.finish; rw [I.1]
    refine ⟨_, f, s1, hturn.trans k3, ?_, by rw [e, m6, I.1]; simp, by rw [e]; exact m1, by rw [m2, k4], ?_, by rw [m3]; exact k5⟩
    · rw [e, m5, due, I.1]; simp
    · rw [e, m4]; exact shows he hc hH I.live
  · obtain ⟨wr, h1, T⟩ := I.opens io
    have hm' : Machine s' := by
      rw [C.after]
      refine machine_appendAll _ _ hm1 fun r hr => ?_
      obtain ⟨j', hj', rfl⟩ := List.mem_map.mp hr
      exact hreq j' (by rw [hsp]; exact List.mem_append_right _ (List.mem_append_left _ hj'))
    obtain ⟨b, q', js', k1, k2, k3, k4, k5, k6⟩ := main _ s' wr h1 T hm'
    refine ⟨b, q', j :: js', k1, k2, fun hn hsz => ?_⟩
    obtain ⟨st1, l1, l2, -, l4, l5, -⟩ : ∃ st1, st.acknowledge c io f = (true, st1) ∧ IdleAt c hc env.H st1 s' ∧ st1.db = landed c io f.x st.db ∧
        st1.answers = st.answers ++ f.responders.zip f.results ∧ st1.heads = st.heads ++ [f.head] ∧ st1.panicked = st.panicked := by
      rcases I.acknowledge io with k | ⟨st1, e, k, -⟩
      · exact k
      · have := (acknowledge_fault c io f st).mpr hio
        rw [k] at this
        cases this
    obtain ⟨f', m1, m2, m3, m4, m5, m6⟩ := k6 hn hsz st1
    have e : st.finish c io b = st1.dispatch c io b := by
      unfold Pipe.finish
      rw [I.1]
      simp only [l1]
    refine ⟨_, f', s', hturn.trans k3, ?_, by rw [e, m6, l5, I.1]; rfl, by rw [e]; exact m1, by rw [m2, k4], ?_, by rw [m3]; exact k5⟩
    · rw [e, m5, l4, due, I.1]
    · rw [e, m4]; exact shows he hc hH l2.live

/-- C31: when no request comes and the disk does not fail, the batch in flight lands: its answers are sent, what it did is
visible, and its head is announced. -/
theorem C31_waits (hg : c.g.pageSize = defaultPageSize) {env : Env} (he : EnvOk env) (hc : ConfOk c kw)
    (hH : ∀ t, NormalizedTo kw (env.H t)) {d : PDb} {s : Spec.Db} (hd : (pageLawful hc hH).RepD d s) {max : Nat} {q0 q : List Msg}
    {st0 st : Pipe} (h0 : Pipe.start c d = .ok st0) (ha : AfterOkAll q0) (h : Turns c env max q0 st0 q st) {f : Flight}
    (hfly : st.fly = some f) (vis : Nat) {io : PipeIO} (hio : io.fault = none) :
    ∃ (st' : Pipe) (s1 : Spec.Db) (js : List Job), st.turn c env max true vis io q = .go q st' ∧ st'.fly = none ∧ f.responders = js.map (·.id) ∧
      st'.answers = st.answers ++ f.responders.zip f.results ∧ f.results.length = js.length ∧
      SaysAll f.results (appendAll (Accepted c.g.pageSize) s1 (js.map (·.req))).1 ∧
      Shows c env st.db s1 ∧ Shows c env st'.db (appendAll (Accepted c.g.pageSize) s1 (js.map (·.req))).2 ∧
      st'.heads = st.heads ++ [Spec.head (appendAll (Accepted c.g.pageSize) s1 (js.map (·.req))).2.log] := by
  obtain ⟨st1, i1, -, i2, -⟩ := start_spec hd
  rw [h0] at i1; cases i1
  obtain ⟨hq, -, fj, s1, -, I, -⟩ := turns_spec hg he hH i2 ha h
  rcases I with ⟨-, I⟩ | ⟨f', s', I, C⟩
  · rw [I.1] at hfly; cases hfly
  have hf := I.1
  rw [hfly] at hf; cases hf
  rcases I.acknowledge io with ⟨st1, l1, l2, -, l4, l5, -⟩ | ⟨st1, e, k, -⟩
  · refine ⟨st1, s1, fj, ?_, l2.1, C.resp, l4, C.len, C.told, shows he hc hH I.live, ?_, by rw [l5, C.head, C.after]⟩
    · unfold Pipe.turn
      rw [hfly]
      simp only [Pipe.wait, l1]
    · rw [← C.after]; exact shows he hc hH l2.live
  · have := (acknowledge_fault c io f st).mpr hio
    rw [k] at this
    cases this

/-- C32 (pipelined writer): the heads announced never decrease, and none exceeds the head of the committed database. -/
theorem C32_pipelined_heads (hg : c.g.pageSize = defaultPageSize) {env : Env} (he : EnvOk env) (hc : ConfOk c kw)
    (hH : ∀ t, NormalizedTo kw (env.H t)) {d : PDb} {s : Spec.Db} (hd : (pageLawful hc hH).RepD d s) (max : Nat) (idle : Nat → Bool)
    (vis : Nat → Nat) (io : Nat → PipeIO) (q : List Msg) (ha : AfterOkAll q) :
    ∃ r, pipeServe c env max idle vis io d q = .ok r ∧ (Db.head (pageBackend c) d :: r.heads).Pairwise headLe ∧
      ∀ h ∈ r.heads, headLe h (Db.head (pageBackend c) r.db) := by
  obtain ⟨r, js, rest, hs, s2, h1, -, h3, h4, h5, -⟩ := pipeServe_spec hg he hc hH hd max idle vis io q ha
  obtain ⟨-, k2, k3⟩ := served_heads h3.served
  refine ⟨r, h1, ?_, ?_⟩ <;> rw [h4]
  · refine List.pairwise_cons.mpr ⟨fun h hm => ?_, k3⟩
    rw [C11_head (pageLawful hc hH) hd]
    exact (k2 h hm).1
  · intro h hm
    rw [C11_head (pageLawful hc hH) h5]
    exact (k2 h hm).2

/-- C32 (pipelined writer): at any point of the work, the head announced last is that of the committed database, which is what
readers see and what is recovered after a crash. -/
theorem C32_pipelined_committed (hg : c.g.pageSize = defaultPageSize) {env : Env} (he : EnvOk env) (hc : ConfOk c kw)
    (hH : ∀ t, NormalizedTo kw (env.H t)) {d : PDb} {s : Spec.Db} (hd : (pageLawful hc hH).RepD d s) {max : Nat} {q0 q : List Msg}
    {st0 st : Pipe} (h0 : Pipe.start c d = .ok st0) (ha : AfterOkAll q0) (h : Turns c env max q0 st0 q st) :
    (st.heads.getLast?.getD (Db.head (pageBackend c) d)) = Db.head (pageBackend c) st.db := by
  obtain ⟨st1, i1, -, i2, -, i4, -⟩ := start_spec hd
  rw [h0] at i1; cases i1
  obtain ⟨-, js, fj, s1, -, I, ⟨as, hs, t1, -, t3⟩, -⟩ := turns_spec hg he hH i2 ha h
  rw [t3, i4, List.nil_append, C11_head (pageLawful hc hH) hd, C11_head (pageLawful hc hH) I.live]
  clear t3 I h i4 i2 h0 hd
  generalize clientReqs js = l at t1
  induction t1 with
  | done => rfl
  | @committed s js as js' as' hs s' _ _ _ ih =>
    rw [List.getLast?_cons, Option.getD_some]
    exact ih
  | failed _ _ _ ih => exact ih

/-! ## A concrete case -/

section Examples

def exPipeIO : PipeIO := ⟨exIO, emptyFile, false⟩

/-- As `exRun`, for the first batch of a pipelined writer on a new database: the writer when its pages are settled. -/
noncomputable def exFirst (d : PDb) (hp : HPage) (b b' : Nat → Option Node) : Option Writer :=
  match findReusable none { (findReusable none (exW b)).2 with base := exBase b' } with
  | (.ok (), wr) =>
    match stepJob (pageBackend exConf) exConstEnv (Batch.new ⟨d, hp, wr⟩) ⟨1, exReq, noCancel⟩ with
    | .error _ => none
    | .ok x =>
      match loopN unsettled (processOnce exIO.ord) 5 x.w.wr with
      | some (.ok (), w) => some w
      | _ => none
  | _ => none

/-- The pages fit. -/
def exFits (w : Writer) : Bool := w.dirty.all (fun x => decide (pageSizeOf 16 x.2 ≤ 4096)) && decide (w.nextPage < 2 ^ 64) &&
  decide (w.nextPos < 2 ^ 64) && decide (w.tsn < 2 ^ 64)

noncomputable def exPipeRun (d : PDb) (hp : HPage) (b b' : Nat → Option Node) : Bool :=
  match exFirst d hp b b' with
  | some w => exFits w
  | none => false

theorem exPipeRun_true (d : PDb) (hp : HPage) (b b' : Nat → Option Node) : exPipeRun d hp b b' = true := by
  run_tac do
    let g ← Lean.Elab.Tactic.getMainGoal
    let some (_, l, _) := (← g.getType).eq? | failure
    g.assign (← Lean.Meta.mkEqRefl l)

theorem exFits_spec {w : Writer} (h : exFits w = true) : (∀ y ∈ w.dirty, pageSizeOf 16 y.2 ≤ 4096) ∧ Counters w := by
  unfold exFits at h
  simp only [Bool.and_eq_true, decide_eq_true_eq, List.all_eq_true] at h
  exact ⟨h.1.1.1, h.1.1.2, h.1.2, h.2⟩

theorem exPipeRun_steps (d : PDb) (hp : HPage) (b b' : Nat → Option Node) : ∃ wr x w',
    findReusable none { (findReusable none (exW b)).2 with base := exBase b' } = (.ok (), wr) ∧
    stepJob (pageBackend exConf) exConstEnv (Batch.new ⟨d, hp, wr⟩) ⟨1, exReq, noCancel⟩ = .ok x ∧
    loopN unsettled (processOnce exIO.ord) 5 x.w.wr = some (.ok (), w') ∧
    (∀ y ∈ w'.dirty, pageSizeOf 16 y.2 ≤ 4096) ∧ Counters w' ∧ exFirst d hp b b' = some w' := by
  have hrun := exPipeRun_true d hp b b'
  unfold exPipeRun at hrun
  unfold exFirst at hrun ⊢
  generalize findReusable none { (findReusable none (exW b)).2 with base := exBase b' } = r0 at hrun ⊢
  match r0, hrun with
  | (.ok (), wr), hrun =>
    dsimp only at hrun
    generalize h1 : stepJob (pageBackend exConf) exConstEnv (Batch.new ⟨d, hp, wr⟩) ⟨1, exReq, noCancel⟩ = r at hrun
    cases r with
    | error e => cases hrun
    | ok x =>
      dsimp only at hrun
      generalize hl : loopN unsettled (processOnce exIO.ord) 5 x.w.wr = l at hrun
      match l, hrun with
      | some (.ok (), w'), hrun =>
        refine ⟨wr, x, w', rfl, h1, hl, (exFits_spec hrun).1, (exFits_spec hrun).2, ?_⟩
        dsimp only
        rw [h1]
        dsimp only
        rw [hl]

/-- A turn that builds a batch with nothing in flight. -/
theorem turn_builds {env : Env} {max vis : Nat} {idle : Bool} {io : PipeIO} {st : Pipe} {j : Job} {q q' : List Msg} {b : Batch PW}
    (hf : st.fly = none) (h : PipeBuilds c env max vis io st j q b q') :
    st.turn c env max idle vis io (.append j :: q) = .go q' (st.dispatch c io b) := by
  obtain ⟨wr, b1, h1, h2, h3⟩ := h
  unfold Pipe.turn Pipe.take Pipe.batch Pipe.finish
  rw [hf]
  simp only [h1, h2, h3]

/-- A turn that builds a batch on one in flight, which lands. -/
theorem turn_builds_on {env : Env} {max vis : Nat} {io : PipeIO} {st st' : Pipe} {j : Job} {q q' : List Msg} {b : Batch PW} {f : Flight}
    (hf : st.fly = some f) (ha : st.acknowledge c io f = (true, st')) (h : PipeBuilds c env max vis io st j q b q') :
    st.turn c env max false vis io (.append j :: q) = .go q' (st'.dispatch c io b) := by
  obtain ⟨wr, b1, h1, h2, h3⟩ := h
  unfold Pipe.turn Pipe.take Pipe.batch Pipe.finish
  rw [hf]
  simp only [h1, h2, h3, ha]

/-- A batch that is in flight after `dispatch` was prepared; the oldest reader did not matter. -/
theorem dispatch_fly {io : PipeIO} {b : Batch PW} {st : Pipe} {f : Flight} (hf : st.fly = none) (h : (st.dispatch c io b).fly = some f) :
    ∃ x wr, b.abort = none ∧ prepareCommit c io.ord b.w.hp b.w.wr = .ok (x, wr) ∧ ∀ io' : PipeIO, io'.ord = io.ord → st.dispatch c io' b =
      { st with wr := wr, hp := x.hp, wet := x.wet, fly := some ⟨x, b.responders, b.results, headOfNext wr.nextPos⟩ } := by
  unfold Pipe.dispatch at h ⊢
  cases ha : b.abort with
  | some x =>
    rw [ha] at h
    simp only [rollback_fly, hf] at h
    cases h
  | none =>
    rw [ha] at h
    simp only at h ⊢
    cases hp : prepareCommit c io.ord b.w.hp b.w.wr with
    | error e =>
      rw [hp] at h
      simp only [rollback_fly, hf] at h
      cases h
    | ok x =>
      obtain ⟨x, wr⟩ := x
      refine ⟨x, wr, trivial, rfl, fun io' ho => ?_⟩
      rw [ho, hp]

theorem prepareCommit_wet {ord : Writer → List Nat} {hp : HPage} {w w' wr : Writer} {x : Prepared} (h : prepareCommit c ord hp w = .ok (x, wr))
    (hw : processFreed ord w = (.ok (), w')) : wr = primed w' ∧ x.wet = w'.dirty ∧ serializeEach w'.kw w'.dirty = .ok x.pages := by
  unfold prepareCommit at h
  simp only [hw] at h
  split at h
  · cases h
  split at h
  · cases h
  split at h
  · cases h
  split at h
  · cases h
  next hs =>
  cases h
  exact ⟨rfl, rfl, hs⟩

/-- A new database and the request `exReq` (two events with a tag, condition and tracking), followed by others: it is put in
flight, with nothing answered and nothing visible yet. -/
theorem exInFlightThen (q : List Msg) (haq : AfterOkAll q) (hmq : ∀ j ∈ appendJobs q, MachineReq j.req)
    (hcq : ∀ j ∈ appendJobs q, ∀ k l, j.cancel k l = false) (hpq : ∀ j ∈ appendJobs q, ¬ MayPanic j) :
    ∃ (m : Opened) (f0 : File) (d : PDb) (st0 st1 : Pipe) (f : Flight),
    create exConf.g exConf.zeroFill emptyFile = (.ok m, f0) ∧ d = .fresh f0 m f0 [] none ∧
    st0.turn exConf exConstEnv 2048 false 0 exPipeIO (.append ⟨1, exReq, noCancel⟩ :: q) = .go q st1 ∧ (pageLawful exConf_ok exConstEnv_width).RepD d Spec.Db.empty ∧
    Pipe.start exConf d = .ok st0 ∧ AfterOkAll (.append ⟨1, exReq, noCancel⟩ :: q) ∧
    (∀ j ∈ appendJobs (.append ⟨1, exReq, noCancel⟩ :: q), MachineReq j.req) ∧
    Turns exConf exConstEnv 2048 (.append ⟨1, exReq, noCancel⟩ :: q) st0 q st1 ∧ st1.fly = some f ∧ f.responders = [1] ∧ f.results = [.ok 2] ∧
    st1.answers = [] ∧ st1.heads = [] ∧ Shows exConf exConstEnv st1.db Spec.Db.empty ∧
    FlyAt exConf exConf_ok exConstEnv.H st1 f Spec.Db.empty exAfter ∧ f.head = some 2 ∧ st1.db = d ∧
    d.base exConf = exBase (d.base exConf) ∧
    ∃ w, exFirst d ⟨0, .header initialHeader⟩ (d.base exConf) (d.base exConf) = some w ∧ st1.wr = primed w ∧ st1.wet = w.dirty := by
  obtain ⟨m, f, hcr, h2, -, -, h5⟩ := Props.C47_create (g := exConf.g) ⟨by decide, by decide⟩ false
  have hL := live_initial exConf_ok exConstEnv.H h2 h5 f [] none
  obtain ⟨m', f', hcr', hl⟩ := create_live exConf_ok exConstEnv.H
  rw [show create exConf.g exConf.zeroFill emptyFile = (.ok m, f) from hcr] at hcr'
  cases hcr'
  have hd : (pageLawful exConf_ok exConstEnv_width).RepD (.fresh f m f [] none) Spec.Db.empty := hl none
  obtain ⟨w, hb, -, -⟩ := hL.begin
  have ha : AfterOkAll (.append ⟨1, exReq, noCancel⟩ :: q) := by
    intro j hj
    simp only [appendJobs, List.mem_cons] at hj
    rcases hj with rfl | hj
    swap
    · exact haq j hj
    rintro cc hcc a ha'
    have hcc : exReq.condition = some cc := hcc
    simp only [exReq, Option.some.injEq] at hcc; subst hcc; cases ha'; decide
  have hmr : ∀ j' ∈ appendJobs (.append ⟨1, exReq, noCancel⟩ :: q), MachineReq j'.req := by
    intro j hj
    simp only [appendJobs, List.mem_cons] at hj
    rcases hj with rfl | hj
    swap
    · exact hmq j hj
    refine ⟨?_, ?_⟩
    · have : ∀ e ∈ exReq.events, e.data.length < 2 ^ 64 := by decide
      exact this
    · intro t ht
      have : t = ⟨"up", 9⟩ := (Option.some.inj ht).symm
      subst this; decide
  have he : EnvOk exConstEnv := ⟨fun l => List.Perm.refl l⟩
  have hbase : (PDb.fresh f m f [] none).base exConf = exBase ((PDb.fresh f m f [] none).base exConf) := by
    funext p
    have hs := hL.sees
    unfold exBase
    split
    · exact hs 2 _ (by simp)
    · exact hs 3 _ (by simp)
    · exact hs 4 _ (by simp)
    · rfl
  have hnew : newWriter exConf (.fresh f m f [] none) initialHeader = exW ((PDb.fresh f m f [] none).base exConf) := by
    unfold newWriter exW
    have hkw : (PDb.fresh f m f [] none).m.kw = 16 := hL.width
    rw [hkw, ← hbase]
    rfl
  have hw : w = (findReusable none (exW ((PDb.fresh f m f [] none).base exConf))).2 := by
    have := writer_eq hL.latest rfl hb
    rw [hnew] at this
    exact this
  have h0 : Pipe.start exConf (.fresh f m f [] none) = .ok ⟨.fresh f m f [] none, ⟨0, .header initialHeader⟩, w, [], none, [], [], false⟩ := by
    unfold Pipe.start
    rw [hb]
  obtain ⟨wr, b, w', r0, r1, r2, r3, r4, r5⟩ := exPipeRun_steps (.fresh f m f [] none) ⟨0, .header initialHeader⟩
    ((PDb.fresh f m f [] none).base exConf) ((PDb.fresh f m f [] none).base exConf)
  obtain ⟨b', q', js, hB, k3, k4⟩ := C31_progress rfl he exConf_ok exConstEnv_width hd
    ⟨fun r hr => (by cases hr), fun s p hp => (by cases hp)⟩ h0 ha hmr (.start : Turns exConf exConstEnv 2048 _ _ _ _)
    (by
      intro j hj k l
      simp only [appendJobs, List.mem_cons] at hj
      rcases hj with rfl | hj
      · rfl
      · exact hcq j hj k l)
    (by
      intro j hj
      simp only [appendJobs, List.mem_cons] at hj
      rcases hj with rfl | hj
      · exact fun h => absurd h.1 (by simp [exReq])
      · exact hpq j hj) 0 (io := exPipeIO) rfl
  have hgo := turn_builds (idle := false) rfl hB
  obtain ⟨wr', b1, k0, k1, k2⟩ := hB
  have hwr : wr' = wr := by
    have : findReusable none { (findReusable none (exW ((PDb.fresh f m f [] none).base exConf))).2 with
        base := exBase ((PDb.fresh f m f [] none).base exConf) } = (.ok (), wr') := by
      rw [← hw, ← hbase]; exact k0
    rw [r0] at this
    exact (Prod.mk.inj this).2.symm
  subst hwr
  rw [r1] at k1
  cases k1
  have hb' : b' = b ∧ q = q' := by
    unfold Db.drain at k2
    have := Except.ok.inj k2
    exact ⟨(Prod.mk.inj this).1.symm, (Prod.mk.inj this).2⟩
  obtain ⟨rfl, rfl⟩ := hb'
  have hjs : js = [⟨1, exReq, noCancel⟩] := by
    refine (List.append_cancel_right (bs := appendJobs q) ?_).symm
    exact k3
  subst hjs
  have hset : settled exPipeIO.toIO b'.w = w' := by
    unfold settled
    rw [show processFreed exPipeIO.toIO.ord b'.w.wr = (.ok (), w') from whileW_eq r2]
  obtain ⟨st', f', s1, l1, l2, l7, l3, l4, l5, l6⟩ := k4 (by rw [hset]; exact r4) (by rw [hset]; exact fun x hx _ => r3 x hx)
  have hT : Turns exConf exConstEnv 2048 (.append ⟨1, exReq, noCancel⟩ :: q) _ q st' := .turn false 0 exPipeIO .start l1
  obtain ⟨st1, i1, -, i2, -⟩ := start_spec (hc := exConf_ok) (H := exConstEnv.H) hd
  rw [h0] at i1; cases i1
  obtain ⟨-, js', fj, s2, u1, I, ⟨as, hs, t1, t2, -⟩, -⟩ := turns_spec rfl he exConstEnv_width i2 ha hT
  have has : as = [] := by
    have : st'.answers = [] := l2
    rw [t2] at this
    exact this
  subst has
  have hjs : js' = [] := by
    have := (exact_kept t1).1
    rw [clientReqs_fst] at this
    simpa using this.symm
  subst hjs
  have hs2 : s2 = Spec.Db.empty := (exact_kept t1).2.2
  subst hs2
  have hfj : fj = [⟨1, exReq, noCancel⟩] := by
    refine (List.append_cancel_right (bs := appendJobs q) ?_).symm
    exact u1
  subst hfj
  rcases I with ⟨h, -⟩ | ⟨f'', s', I, C⟩
  · cases h
  have hf := I.1
  rw [l3] at hf; cases hf
  have hres : f'.results = [.ok 2] := by
    have j4 := C.told
    have hr : (appendAll (Accepted exConf.g.pageSize) Spec.Db.empty ([(⟨1, exReq, noCancel⟩ : Job)].map (·.req))).1 = [.ok 2] := by
      simp only [List.map_cons, List.map_nil, appendAll, exAppended]
    rw [hr] at j4
    match hb : f'.results, j4 with
    | [.ok p], j4 => have hp : p = 2 := j4.1; rw [hp]
    | [.error e], j4 => exact absurd j4.1 (by cases e <;> simp [Says])
    | _ :: _ :: _, j4 => exact j4.2.elim
  have hs' : s' = exAfter := by
    rw [C.after]
    simp only [List.map_cons, List.map_nil, appendAll, exAppended]
  obtain ⟨x, wr, e1, e2⟩ : ∃ x wr, prepareCommit exConf exPipeIO.ord b'.w.hp b'.w.wr = .ok (x, wr) ∧
      st' = ⟨.fresh f m f [] none, x.hp, wr, x.wet, some ⟨x, b'.responders, b'.results, headOfNext wr.nextPos⟩, [], [], false⟩ := by
    rw [l1] at hgo
    injection hgo with _ hgo
    obtain ⟨x, wr, -, e1, e2⟩ := dispatch_fly (st := ⟨.fresh f m f [] none, ⟨0, .header initialHeader⟩, w, [], none, [], [], false⟩) rfl
      (by rw [← hgo]; exact l3)
    refine ⟨x, wr, e1, ?_⟩
    rw [hgo, e2 exPipeIO rfl]
  obtain ⟨e3, e4, -⟩ := prepareCommit_wet e1 (whileW_eq r2)
  refine ⟨m, f, _, _, st', f', hcr, rfl, l1, hd, h0, ha, hmr, hT, l3, l4, hres, l2, l7, shows he exConf_ok exConstEnv_width I.live, hs' ▸ I, ?_,
    by rw [e2], hbase, w', r5, by rw [e2]; exact e3, by rw [e2]; exact e4⟩
  rw [C.head, hs']
  rfl

theorem exInFlight : ∃ (m : Opened) (f0 : File) (d : PDb) (st0 st1 : Pipe) (f : Flight),
    create exConf.g exConf.zeroFill emptyFile = (.ok m, f0) ∧ d = .fresh f0 m f0 [] none ∧
    st0.turn exConf exConstEnv 2048 false 0 exPipeIO [.append ⟨1, exReq, noCancel⟩] = .go [] st1 ∧ (pageLawful exConf_ok exConstEnv_width).RepD d Spec.Db.empty ∧
    Pipe.start exConf d = .ok st0 ∧ AfterOkAll [.append ⟨1, exReq, noCancel⟩] ∧
    Turns exConf exConstEnv 2048 [.append ⟨1, exReq, noCancel⟩] st0 [] st1 ∧ st1.fly = some f ∧ f.responders = [1] ∧ f.results = [.ok 2] ∧
    st1.answers = [] ∧ st1.heads = [] ∧ Shows exConf exConstEnv st1.db Spec.Db.empty ∧
    FlyAt exConf exConf_ok exConstEnv.H st1 f Spec.Db.empty exAfter ∧ f.head = some 2 := by
  obtain ⟨m, f0, d, st0, st1, f, h1, h2, h3, h4, h5, h6, -, h7, h8, h9, h10, h11, h12, h13, h14, h15, -⟩ :=
    exInFlightThen [] (fun j hj => by cases hj) (fun j hj => by cases hj) (fun j hj => by cases hj) (fun j hj => by cases hj)
  exact ⟨m, f0, d, st0, st1, f, h1, h2, h3, h4, h5, h6, h7, h8, h9, h10, h11, h12, h13, h14, h15⟩


/-- It then lands, is answered with position 2, and is visible. -/
example : ∃ (d : PDb) (st0 st2 : Pipe), (pageLawful exConf_ok exConstEnv_width).RepD d Spec.Db.empty ∧
    Pipe.start exConf d = .ok st0 ∧ Turns exConf exConstEnv 2048 [.append ⟨1, exReq, noCancel⟩] st0 [] st2 ∧
    st2.answers = [(1, .ok 2)] ∧ st2.heads = [some 2] ∧ Shows exConf exConstEnv st2.db exAfter := by
  obtain ⟨-, -, d, st0, st1, f, -, -, -, hd, h0, ha, h1, h2, h3, h4, h5, h6, -, I, h7⟩ := exInFlight
  have he : EnvOk exConstEnv := ⟨fun l => List.Perm.refl l⟩
  rcases I.acknowledge exPipeIO with ⟨st2, k1, k2, -, k4, k5, -⟩ | ⟨st2, e, k, -⟩
  · refine ⟨d, st0, st2, hd, h0, .turn true 0 exPipeIO h1 ?_, ?_, ?_, shows he exConf_ok exConstEnv_width k2.live⟩
    · unfold Pipe.turn
      rw [h2]
      simp only [Pipe.wait, k1]
    · rw [k4, h5, h3, h4]; rfl
    · rw [k5, h6, h7]; rfl
  · have := (acknowledge_fault exConf exPipeIO f st1).mpr rfl
    rw [k] at this
    cases this

/-- If the disk fails instead, a failure is reported and nothing is visible. -/
example : ∃ (d : PDb) (st0 st2 : Pipe) (a : Except Err Nat), (pageLawful exConf_ok exConstEnv_width).RepD d Spec.Db.empty ∧
    Pipe.start exConf d = .ok st0 ∧ Turns exConf exConstEnv 2048 [.append ⟨1, exReq, noCancel⟩] st0 [] st2 ∧
    st2.answers = [(1, a)] ∧ Failure a ∧ st2.heads = [] ∧ Shows exConf exConstEnv st2.db Spec.Db.empty := by
  obtain ⟨-, -, d, st0, st1, f, -, -, -, hd, h0, ha, h1, h2, h3, h4, h5, h6, -, I, h7⟩ := exInFlight
  have he : EnvOk exConstEnv := ⟨fun l => List.Perm.refl l⟩
  obtain ⟨io, hio⟩ : ∃ io : PipeIO, io = { exPipeIO with fault := some (.data emptyFile) } := ⟨_, rfl⟩
  rcases I.acknowledge io with ⟨st2, k1, -⟩ | ⟨st2, e, k1, k2, k3, k4, k5, k6, -⟩
  · have := (acknowledge_fault exConf io f st1).mp (by rw [k1])
    rw [hio] at this
    cases this
  · obtain ⟨r1, r2, r3, r4, -⟩ := rollback_spec (c := exConf) k3 k4 io.oldest
    refine ⟨d, st0, _, .error e, hd, h0, .turn true 0 io h1 ?_, ?_, failure_of_fatal k2, ?_, shows he exConf_ok exConstEnv_width r1.live⟩
    · unfold Pipe.turn
      rw [h2]
      simp only [Pipe.wait, k1]
    · rw [r3, k5, h5, h3]; rfl
    · rw [r4, k6, h6]

/-- A crash that loses everything while the batch is in flight. -/
example : ∃ (d : PDb) (st0 st1 : Pipe) (f : File), (pageLawful exConf_ok exConstEnv_width).RepD d Spec.Db.empty ∧
    Pipe.start exConf d = .ok st0 ∧ Turns exConf exConstEnv 2048 [.append ⟨1, exReq, noCancel⟩] st0 [] st1 ∧ PipeCrash exConf st1 f := by
  obtain ⟨-, -, d, st0, st1, fl, -, -, -, hd, h0, ha, h1, h2, -, -, -, -, -, I, -⟩ := exInFlight
  obtain ⟨-, hp, h, PE, PT, PK, PF, ix, F, o, w, PE', PT', PK', PF', ix', N, L, S, -⟩ := I
  exact ⟨d, st0, st1, st1.db.disk, hd, h0, h1, .data fl h2 ⟨.refl S.zeroed, fun k _ => .inr ⟨_, by simp, fun _ => rfl⟩⟩⟩

/-- The blocking writer on one request. -/
theorem serve_one {d d' : PDb} {j : Job} {b : Batch PW} {env : Env} {max vis : Nat} {io : Page.IO}
    (hb : Builds (pageBackend c) env max vis d j [] b []) (ha : b.abort = none) (hcom : PW.commit c io b.w = (.ok (), d')) :
    ∃ h, serve (pageBackend c) env max (fun _ => vis) (fun _ => io) d [.append j] = ⟨d', b.responders.zip b.results, [h], false⟩ := by
  obtain ⟨w, b1, h1, h2, h3⟩ := hb
  have hcom : (pageBackend c).commit io b.w = (.ok (), d') := hcom
  refine ⟨headOfNext ((pageBackend c).nextPos b.w), ?_⟩
  unfold serve writerThread
  simp only [h1, h2]
  split
  · next heq => rw [h3] at heq; cases heq
  next heq =>
  rw [h3] at heq
  cases heq
  simp only [finishBatch, ha, hcom]
  unfold writerThread
  rfl

/-- The hypotheses of `C31_same`: on a new database both writers answer `exReq` with position 2. -/
example : ∃ (d : PDb) (r : Pipe), (pageLawful exConf_ok exConstEnv_width).RepD d Spec.Db.empty ∧
    AfterOkAll [.append ⟨1, exReq, noCancel⟩] ∧
    pipeServe exConf exConstEnv 2048 (fun n => n != 0) (fun _ => 0) (fun _ => exPipeIO) d [.append ⟨1, exReq, noCancel⟩] = .ok r ∧
    r.answers = [(1, .ok 2)] ∧ r.panicked = false ∧
    (serve (pageBackend exConf) exConstEnv 2048 (fun _ => 9) (fun _ => exIO) d [.append ⟨1, exReq, noCancel⟩]).answers = [(1, .ok 2)] ∧
    (serve (pageBackend exConf) exConstEnv 2048 (fun _ => 9) (fun _ => exIO) d [.append ⟨1, exReq, noCancel⟩]).panicked = false := by
  obtain ⟨m, f0, d, st0, st1, f, hcr, rfl, h8, hd, h0, ha, h1, h2, h3, h4, h5, h6, -, I, h7⟩ := exInFlight
  obtain ⟨m', f0', d', d2, b, hcr', rfl, -, -, -, k1, k2, k3, -, -, k4, -⟩ := exCommittedAt none
  rw [hcr] at hcr'
  cases hcr'
  have hresp : b.responders = [1] := by
    obtain ⟨js, j1, j2, -⟩ := k1.binv ⟨fun l => List.Perm.refl l⟩ (pageLawful exConf_ok exConstEnv_width) hd ha
    have : js = [⟨1, exReq, noCancel⟩] := by simpa [appendJobs] using j1.symm
    rw [j2, this]; rfl
  obtain ⟨h, hs⟩ := serve_one k1 k2 k4
  have hs : serve (pageBackend exConf) exConstEnv 2048 (fun _ => 9) (fun _ => exIO) (.fresh f0 m f0 [] none) [.append ⟨1, exReq, noCancel⟩] =
    ⟨d2, b.responders.zip b.results, [h], false⟩ := hs
  rcases I.acknowledge exPipeIO with ⟨st2, l1, l2, -, l4, l5, l6⟩ | ⟨st2, e, k, -⟩
  · have hw : st1.turn exConf exConstEnv 2048 true 0 exPipeIO [] = .go [] st2 := by
      unfold Pipe.turn
      rw [h2]
      simp only [Pipe.wait, l1]
    have hst : st2.turn exConf exConstEnv 2048 true 0 exPipeIO [] = .stop st2 := by
      unfold Pipe.turn
      rw [l2.1]
      rfl
    have hreap : st2.reap exConf exPipeIO = st2 := by
      unfold Pipe.reap
      rw [l2.1]
      split <;> rfl
    have step : ∀ {n q q' st st'}, st.turn exConf exConstEnv 2048 (n != 0) 0 exPipeIO q = .go q' st' →
        pipeThread exConf exConstEnv 2048 (fun n => n != 0) (fun _ => 0) (fun _ => exPipeIO) n q st =
        pipeThread exConf exConstEnv 2048 (fun n => n != 0) (fun _ => 0) (fun _ => exPipeIO) (n + 1) q' st' := by
      intro n q q' st st' h
      rw [pipeThread]
      split
      · next heq => rw [h] at heq; cases heq
      · next heq => rw [h] at heq; cases heq; rfl
    have stop : ∀ {n q st st'}, st.turn exConf exConstEnv 2048 (n != 0) 0 exPipeIO q = .stop st' →
        pipeThread exConf exConstEnv 2048 (fun n => n != 0) (fun _ => 0) (fun _ => exPipeIO) n q st = st'.reap exConf exPipeIO := by
      intro n q st st' h
      rw [pipeThread]
      split
      · next heq => rw [h] at heq; cases heq; rfl
      · next heq => rw [h] at heq; cases heq
    have hrun : pipeServe exConf exConstEnv 2048 (fun n => n != 0) (fun _ => 0) (fun _ => exPipeIO) (.fresh f0 m f0 [] none)
        [.append ⟨1, exReq, noCancel⟩] = .ok st2 := by
      unfold pipeServe
      rw [h0]
      simp only
      rw [step (n := 0) h8, step (n := 1) hw, stop (n := 2) hst, hreap]
    obtain ⟨r, js, rest, g1, g2, g3, g4, g5, g6, g7⟩ := C31_answers rfl ⟨fun l => List.Perm.refl l⟩ exConf_ok exConstEnv_width hd 2048
      (fun n => n != 0) (fun _ => 0) (fun _ => exPipeIO) _ ha
    rw [hrun] at g1
    cases g1
    have hans : st2.answers = [(1, .ok 2)] := by rw [l4, h5, h3, h4]; rfl
    refine ⟨_, st2, hd, ha, hrun, hans, ?_, by rw [hs, hresp, k3]; rfl, by rw [hs]⟩
    cases hp : st2.panicked with
    | false => rfl
    | true =>
      obtain ⟨j, hj, hm⟩ := g7 hp
      have : j ∈ appendJobs [.append ⟨1, exReq, noCancel⟩] := by rw [g2]; exact List.mem_append_right _ hj
      simp only [appendJobs, List.mem_singleton] at this
      subst this
      exact absurd hm.1 (by simp [exReq])
  · have := (acknowledge_fault exConf exPipeIO f st1).mpr rfl
    rw [k] at this
    cases this

end Examples

end Uma.Props
