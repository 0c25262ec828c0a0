import Verif.Props.PipelineReaders

/-!
# A header that could not be written, and the next batch: C52

`C52_failed_header_partial` (Crash.lean) is about a crash after a failed attempt to write a header and before the next batch is
written.  Here: what a crash while the next batch is written can do.
-/

namespace Uma.Props
open Uma.Spec Uma.Db Uma.Page Uma.Mvcc Uma.Codec

/-- A batch of one request, from a writer as it is when it starts: the writer when its pages are settled. -/
noncomputable def exStep (w0 : Writer) (d : PDb) (hp : HPage) (j : Job) : Option Writer :=
  match findReusable none w0 with
  | (.ok (), wr) =>
    match stepJob (pageBackend exConf) exConstEnv (Batch.new ⟨d, hp, wr⟩) j with
    | .error _ => none
    | .ok x =>
      match loopN unsettled (processOnce exIO.ord) 9 x.w.wr with
      | some (.ok (), w) => some w
      | _ => none
  | _ => none

theorem exStep_parts {w0 w : Writer} {d : PDb} {hp : HPage} {j : Job} (h : exStep w0 d hp j = some w) : ∃ wr x,
    findReusable none w0 = (.ok (), wr) ∧ stepJob (pageBackend exConf) exConstEnv (Batch.new ⟨d, hp, wr⟩) j = .ok x ∧
    processFreed exIO.ord x.w.wr = (.ok (), w) := by
  unfold exStep at h
  split at h
  · next wr h0 =>
    split at h
    · cases h
    · next x h1 =>
      split at h
      · next w' h2 => cases h; exact ⟨wr, x, h0, h1, whileW_eq h2⟩
      · cases h
  · cases h

/-- The batch is one the writer thread builds. -/
theorem exStep_builds {d : PDb} {hp : HPage} {h : Header} {j : Job} {w : Writer} (hl : latestPage d.m.h0 d.m.h1 = .ok hp)
    (hn : hp.node = .header h) (ho : d.oldest = none) (hs : exStep (newWriter exConf d h) d hp j = some w) :
    ∃ b, Builds (pageBackend exConf) exConstEnv 2048 9 d j [] b [] ∧ b.w.hp = hp ∧ processFreed exIO.ord b.w.wr = (.ok (), w) := by
  obtain ⟨wr, x, h1, h2, h3⟩ := exStep_parts hs
  refine ⟨x, ⟨⟨d, hp, wr⟩, x, ?_, h2, by unfold Db.drain; rfl⟩, ?_, h3⟩
  · show PDb.writer exConf d = _
    unfold PDb.writer
    rw [hl]
    simp only [bind, Except.bind, hn, asHeader, ho, h1]
  · have K : Keeps (pageBackend exConf) fun w : PW => w.hp = hp := ⟨fun _ h => h, fun _ _ _ h => h, fun _ _ _ _ h => h, fun _ _ _ h => h⟩
    exact K.stepJob h2 rfl

open Classical in
/-- If its pages fit it can be committed. -/
theorem exStep_commits {d : PDb} {hp : HPage} {h : Header} {j : Job} {w : Writer} {s : Spec.Db}
    (hd : (pageLawful exConf_ok exConstEnv_width).RepD d s) (hm : Machine s) (hl : latestPage d.m.h0 d.m.h1 = .ok hp)
    (hn : hp.node = .header h) (ho : d.oldest = none) (hs : exStep (newWriter exConf d h) d hp j = some w) (hfit : exFits w = true)
    (ha : AfterOkAll [.append j]) (hreq : MachineReq j.req) (hcan : ∀ k l, j.cancel k l = false) :
    ∃ b d', Builds (pageBackend exConf) exConstEnv 2048 9 d j [] b [] ∧ b.w.db = d ∧ b.w.hp = hp ∧
      processFreed exIO.ord b.w.wr = (.ok (), w) ∧ b.abort = none ∧
      SaysAll b.results [(Spec.append (Accepted exConf.g.pageSize) s j.req).1] ∧ PW.commit exConf exIO b.w = (.ok (), d') ∧
      (pageLawful exConf_ok exConstEnv_width).RepD d' (Spec.append (Accepted exConf.g.pageSize) s j.req).2 ∧ d'.doubt = false ∧
      Tx exConf exConf_ok exConstEnv.H b.w s (Abs.of exConstEnv.H (Spec.append (Accepted exConf.g.pageSize) s j.req).2) := by
  obtain ⟨b, hB, hhp, hrun⟩ := exStep_builds hl hn ho hs
  have he : EnvOk exConstEnv := ⟨fun l => List.Perm.refl l⟩
  have hset : settled exIO b.w = w := by unfold settled; rw [hrun]
  obtain ⟨hsz, hct⟩ := exFits_spec hfit
  obtain ⟨js, j1, hab, j3, j4, hcom⟩ := C26_stored_partial he exConf_ok exConstEnv_width hd (by decide) hm ha (by simpa [appendJobs] using hreq)
    (by simpa [appendJobs] using hcan) hB (io := exIO) rfl (by rw [hset]; exact hct)
  have hjs : js = [j] := by simpa [appendJobs] using j1.symm
  subst hjs
  obtain ⟨d', hd', -⟩ := hcom (by rw [hset]; exact fun x hx _ => hsz x hx)
  obtain ⟨js', k1, -, hBI⟩ := hB.binv he (pageLawful exConf_ok exConstEnv_width) hd ha
  have hjs' : js' = [j] := by simpa [appendJobs] using k1.symm
  subst hjs'
  have hT : Tx exConf exConf_ok exConstEnv.H b.w s (Abs.of exConstEnv.H (Spec.append (Accepted exConf.g.pageSize) s j.req).2) :=
    (hBI.good hab).1
  refine ⟨b, d', hB, hB.db, hhp, hrun, hab, j4, hd', ?_⟩
  have hT' := hT
  obtain ⟨h, PE, PT, PK, PF, ix, F, L, S, PE', PT', PK', PF', ix', T⟩ := hT
  rcases commit_spec L S T exIO with ⟨d'', hp', h', PF'', F', k1, k2, k3, k4, -⟩ | ⟨e, d'', k1, -⟩
  · rw [show (⟨b.w.db, b.w.hp, b.w.wr⟩ : PW) = b.w from rfl, hd'] at k1
    cases k1
    exact ⟨⟨_, _, _, _, _, _, _, _, k2, k3⟩, k4, hT'⟩
  · rw [show (⟨b.w.db, b.w.hp, b.w.wr⟩ : PW) = b.w from rfl, hd'] at k1
    cases k1

/-- The writer that starts after `w` was committed. -/
def exNext (w : Writer) (b : Nat → Option Node) : Writer :=
  ⟨over w.dirty b, 16, 4096, w.tsn + 1, w.nextPage, w.freeRoot, w.eventsRoot, w.tagsRoot, w.trackRoot, w.nextPos, [], [], [], fun _ => none, []⟩

/-- An event and a tracking position. -/
def exJobB : Job := ⟨2, ⟨[exEv 3], none, some ⟨"up", 10⟩⟩, noCancel⟩

/-- Is the page at the root of the tracking tree of `w2` overwritten with something else by `w3`? -/
def exSpoilt (w2 w3 : Writer) : Bool :=
  match w3.dirty.get w2.trackRoot with
  | some n => !isTrackingPage n && decide (w2.trackRoot ≠ 0)
  | none => false

noncomputable def exThree (d1 d2 d3 : PDb) (hp1 hp2 hp3 : HPage) (b1 b2 b3 : Nat → Option Node) : Bool :=
  match exStep (exW b1) d1 hp1 ⟨1, exReq, noCancel⟩ with
  | none => false
  | some w1 =>
    match exStep (exNext w1 b2) d2 hp2 exJobB, exStep (exNext w1 b3) d3 hp3 exJob2 with
    | some w2, some w3 => exFits w1 && exFits w2 && exFits w3 && exSpoilt w2 w3 && decide (w1.tsn = 1) && decide (w2.tsn = 2) &&
        w1.dirty.all (fun x => decide (2 ≤ x.1)) && w1.dirty.all (fun x => (w2.dirty.get x.1).isNone)
    | _, _ => false

theorem exThree_true (d1 d2 d3 : PDb) (hp1 hp2 hp3 : HPage) (b1 b2 b3 : Nat → Option Node) :
    exThree d1 d2 d3 hp1 hp2 hp3 b1 b2 b3 = true := by
  run_tac do
    let g ← Lean.Elab.Tactic.getMainGoal
    let some (_, l, _) := (← g.getType).eq? | failure
    g.assign (← Lean.Meta.mkEqRefl l)

/-- What `exThree` checks. -/
theorem exThree_steps (d1 : PDb) (hp1 : HPage) (b1 : Nat → Option Node) : ∃ w1, exStep (exW b1) d1 hp1 ⟨1, exReq, noCancel⟩ = some w1 ∧
    exFits w1 = true ∧ w1.tsn = 1 ∧ (∀ x ∈ w1.dirty, 2 ≤ x.1) ∧ ∀ d2 hp2 b2, ∃ w2, exStep (exNext w1 b2) d2 hp2 exJobB = some w2 ∧
    exFits w2 = true ∧ w2.tsn = 2 ∧ (∀ x ∈ w1.dirty, w2.dirty.get x.1 = none) ∧ ∀ d3 hp3 b3, ∃ w3, exStep (exNext w1 b3) d3 hp3 exJob2 = some w3 ∧
    exFits w3 = true ∧ exSpoilt w2 w3 = true := by
  have key : ∀ d2 d3 hp2 hp3 b2 b3, exThree d1 d2 d3 hp1 hp2 hp3 b1 b2 b3 = true := fun d2 d3 hp2 hp3 b2 b3 =>
    exThree_true d1 d2 d3 hp1 hp2 hp3 b1 b2 b3
  unfold exThree at key
  cases h1 : exStep (exW b1) d1 hp1 ⟨1, exReq, noCancel⟩ with
  | none =>
    have := key d1 d1 hp1 hp1 b1 b1
    rw [h1] at this; cases this
  | some w1 =>
  simp only [h1] at key
  have key2 : ∀ d2 d3 hp2 hp3 b2 b3, ∃ w2 w3, exStep (exNext w1 b2) d2 hp2 exJobB = some w2 ∧ exStep (exNext w1 b3) d3 hp3 exJob2 = some w3 ∧
      exFits w1 = true ∧ exFits w2 = true ∧ exFits w3 = true ∧ exSpoilt w2 w3 = true ∧ w1.tsn = 1 ∧ w2.tsn = 2 ∧
      (∀ x ∈ w1.dirty, 2 ≤ x.1) ∧ ∀ x ∈ w1.dirty, w2.dirty.get x.1 = none := by
    intro d2 d3 hp2 hp3 b2 b3
    have h := key d2 d3 hp2 hp3 b2 b3
    split at h
    · next w2 w3 e2 e3 =>
      simp only [Bool.and_eq_true, decide_eq_true_eq, List.all_eq_true, Option.isNone_iff_eq_none] at h
      obtain ⟨⟨⟨⟨⟨⟨⟨k1, k2⟩, k3⟩, k4⟩, k5⟩, k6⟩, k7⟩, k8⟩ := h
      exact ⟨w2, w3, e2, e3, k1, k2, k3, k4, k5, k6, k7, k8⟩
    · cases h
  obtain ⟨w2, w3, -, -, k1, -, -, -, k5, -, k7, -⟩ := key2 d1 d1 hp1 hp1 b1 b1
  refine ⟨w1, rfl, k1, k5, k7, fun d2 hp2 b2 => ?_⟩
  obtain ⟨w2, w3, e2, -, -, k2, -, -, -, k6, -, k8⟩ := key2 d2 d2 hp2 hp2 b2 b2
  refine ⟨w2, e2, k2, k6, k8, fun d3 hp3 b3 => ?_⟩
  obtain ⟨w2', w3, e2', e3, -, -, k3, k4, -⟩ := key2 d2 d3 hp2 hp3 b2 b3
  rw [e2] at e2'; cases e2'
  exact ⟨w3, e3, k3, k4⟩

theorem base_over {d : PDb} {w : Writer} (h2 : ∀ x ∈ w.dirty, 2 ≤ x.1) (hc : ∀ p n, w.dirty.get p = some n → d.cache p = some n) :
    d.base exConf = over w.dirty (d.base exConf) := by
  funext p
  unfold over
  cases hg : w.dirty.get p with
  | none => rfl
  | some n =>
    have hp : p ∈ w.dirty.ids := Pages.mem_ids.mpr ⟨n, hg⟩
    obtain ⟨x, hx, rfl⟩ := List.mem_map.mp (show p ∈ w.dirty.map (·.1) from hp)
    have := h2 x hx
    unfold PDb.base PDb.read
    rw [if_neg (by omega), hc _ _ hg]
    rfl

theorem newWriter_next {d : PDb} {w : Writer} (hkw : d.m.kw = 16) (hb : d.base exConf = over w.dirty (d.base exConf)) :
    newWriter exConf d (newHeader w 1) = exNext w (d.base exConf) := by
  unfold newWriter exNext
  rw [hkw, ← hb]
  rfl

/-- What the commit of a batch does to the file and the pinned headers. -/
theorem exCommit_shape {d dA : PDb} {hp : HPage} {h : Header} {b : Batch PW} {w : Writer} {s s' : Spec.Db}
    (hT : Tx exConf exConf_ok exConstEnv.H b.w s (Abs.of exConstEnv.H s')) (hdb : b.w.db = d) (hhp : b.w.hp = hp)
    (hl : latestPage d.m.h0 d.m.h1 = .ok hp) (hn : hp.node = .header h) (hsch : h.schema = 1)
    (hrun : processFreed exIO.ord b.w.wr = (.ok (), w)) (hcom : PW.commit exConf exIO b.w = (.ok (), dA)) :
    ∃ f1, (∃ n, writePages exConf.g w.kw exConf.zeroFill w.dirty d.file = (.ok n, f1)) ∧
      Touched exConf.g.pageSize w.dirty.ids d.file f1 ∧ (∀ p n, w.dirty.get p = some n → readPage exConf.g 16 p f1 = .ok n) ∧
      (∀ p ∈ w.dirty.ids, 2 ≤ p) ∧ Touched exConf.g.pageSize [1 - hp.id] f1 dA.file ∧
      (∀ k, readPage exConf.g k (1 - hp.id) dA.file = .ok (.header (newHeader w 1))) ∧
      latestPage dA.m.h0 dA.m.h1 = .ok ⟨1 - hp.id, .header (newHeader w 1)⟩ ∧ dA.m.kw = 16 ∧
      dA.cache = cacheAfter exIO.keep w.dirty d.cache ∧ dA.oldest = none ∧
      cowHeader hp w.roots = .ok ⟨1 - hp.id, .header (newHeader w 1)⟩ ∧
      ∀ junk, PW.commit exConf { exIO with fault := some (.header junk) } b.w =
        (.error (.io "header"), headerFailed exConf exIO (1 - hp.id) junk w f1 { d with oldest := none }) := by
  obtain ⟨n, f1, p, hw, hfit, hcow, hfit2, hone, hm, hcache, hold, hfail⟩ := commit_parts rfl hrun hcom
  obtain ⟨h0, PE, PT, PK, PF, ix, F, L, S, PE', PT', PK', PF', ix', T⟩ := hT
  obtain ⟨u, w', hrun', PF'', N, R⟩ := T.ready exIO.ordLaw
  rw [hrun] at hrun'; cases hrun'
  have hh : h0 = h := by
    have := L.node
    rw [hhp, hn] at this; cases this; rfl
  subst hh
  subst hdb
  subst hhp
  have hslot := L.slot
  have hcow' : cowHeader b.w.hp w.roots = .ok ⟨1 - b.w.hp.id, .header (newHeader w 1)⟩ := by
    have : (if b.w.hp.id = 0 then 1 else 0) = 1 - b.w.hp.id := by split <;> omega
    unfold cowHeader
    rw [L.node, this, ← hsch]; rfl
  rw [hcow] at hcow'
  cases hcow'
  have hkw : w.kw = 16 := R.width
  obtain ⟨ht, hr⟩ := R.written L (by rw [← R.width]; exact hfit) hw
  have h1 : Touched exConf.g.pageSize [1 - b.w.hp.id] f1 dA.file ∧ readPage exConf.g w.kw (1 - b.w.hp.id) dA.file = .ok (.header (newHeader w 1)) := by
    rcases writeOnePage_result (g := exConf.g) (by decide) (by decide) (kw := w.kw) (by omega)
      (buf := (List.range exConf.g.pageSize).map exIO.buf) (by simp) exConf.zeroFill (1 - b.w.hp.id) hfit2 ht.zeroed with
      ⟨f', k1, k2, k3⟩ | ⟨e, k1, -⟩
    · rw [show writeOnePage exConf.g w.kw ((List.range exConf.g.pageSize).map exIO.buf) exConf.zeroFill (1 - b.w.hp.id)
        (.header (newHeader w 1)) f1 = (.ok (), dA.file) from hone] at k1
      cases k1; exact ⟨k2, k3⟩
    · rw [show writeOnePage exConf.g w.kw ((List.range exConf.g.pageSize).map exIO.buf) exConf.zeroFill (1 - b.w.hp.id)
        (.header (newHeader w 1)) f1 = (.ok (), dA.file) from hone] at k1
      cases k1
  refine ⟨f1, ⟨n, hw⟩, ht, hr, fun p hp => (R.own.lt (R.own.dirtyIn p hp)).1, h1.1, readPage_header_width h1.2, ?_, ?_, hcache, hold, hcow, hfail⟩
  · rw [hm]
    exact latestPage_pin L.latest L.node rfl (by have := R.tsn; simp only [newHeader]; omega)
  · rw [hm]
    unfold pinHeader
    split <;> exact L.width

theorem exReq2_ok (j : Job) (h : j.req.condition = none) : AfterOkAll [.append j] := by
  intro j' hj
  simp only [appendJobs, List.mem_singleton] at hj
  subst hj
  intro cc hcc
  rw [h] at hcc; cases hcc

theorem exReq_after : AfterOkAll [.append ⟨1, exReq, noCancel⟩] := by
  intro j hj
  simp only [appendJobs, List.mem_singleton] at hj
  subst hj
  rintro cc hcc a ha'
  have hcc : exReq.condition = some cc := hcc
  simp only [exReq, Option.some.injEq] at hcc; subst hcc; cases ha'; decide

theorem exReq_machine : MachineReq exReq := by
  refine ⟨?_, ?_⟩
  · have : ∀ e ∈ exReq.events, e.data.length < 2 ^ 64 := by decide
    exact this
  · intro t ht
    have : t = ⟨"up", 9⟩ := (Option.some.inj ht).symm
    subst this; decide

open Classical in
theorem exAfter_machine : Machine exAfter := by
  have := machine_appendAll (valid := Accepted exConf.g.pageSize) [exReq] Spec.Db.empty
    ⟨fun r hr => (by cases hr), fun s p hp => (by cases hp)⟩ (by simpa using exReq_machine)
  simpa only [appendAll, exAppended] using this

theorem exFailed : ∃ (d dA dF : PDb) (b1 b2 b3 : Batch PW) (io : Page.IO) (f : File),
    (pageLawful exConf_ok exConstEnv_width).RepD d Spec.Db.empty ∧
    Builds (pageBackend exConf) exConstEnv 2048 9 d ⟨1, exReq, noCancel⟩ [] b1 [] ∧ b1.results = [.ok 2] ∧
    (pageBackend exConf).commit exIO b1.w = (.ok (), dA) ∧ Shows exConf exConstEnv dA exAfter ∧ dA.doubt = false ∧
    Builds (pageBackend exConf) exConstEnv 2048 9 dA exJobB [] b2 [] ∧ b2.abort = none ∧
    (pageBackend exConf).commit io b2.w = (.error (.io "header"), dF) ∧ HeaderLeft exConf io b2.w dF ∧ Shows exConf exConstEnv dF exAfter ∧
    Builds (pageBackend exConf) exConstEnv 2048 9 dF exJob2 [] b3 [] ∧ b3.abort = none ∧ CommitCrash exConf exIO b3.w f ∧
    (∀ kw0 ≤ 16, ∃ e, reopen exConf kw0 f = .error e) ∧
    (pageLawful exConf_ok exConstEnv_width).RepD dA exAfter ∧ dF.doubt = true ∧ Crash exConf dF dF.file := by
  have he : EnvOk exConstEnv := ⟨fun l => List.Perm.refl l⟩
  obtain ⟨m, f, hcr, h2, -, -, h5⟩ := Props.C47_create (g := exConf.g) ⟨by decide, by decide⟩ false
  have hd0 : (pageLawful exConf_ok exConstEnv_width).RepD (.fresh f m f [] none) Spec.Db.empty := by
    obtain ⟨m', f', hcr', hl⟩ := create_live exConf_ok exConstEnv.H
    rw [show create exConf.g exConf.zeroFill emptyFile = (.ok m, f) from hcr] at hcr'
    cases hcr'
    exact hl none
  have hL := live_initial exConf_ok exConstEnv.H h2 h5 f [] none
  obtain ⟨d, hd⟩ : ∃ d, d = PDb.fresh f m f [] none := ⟨_, rfl⟩
  rw [← hd] at hd0 hL
  have hold : d.oldest = none := by rw [hd]; rfl
  have hbase : d.base exConf = exBase (d.base exConf) := by
    funext p
    have hs := hL.sees
    unfold exBase
    split
    · exact hs 2 _ (by simp)
    · exact hs 3 _ (by simp)
    · exact hs 4 _ (by simp)
    · rfl
  have hnew : newWriter exConf d initialHeader = exW (d.base exConf) := by
    unfold newWriter exW
    rw [hL.width, ← hbase]
    rfl
  obtain ⟨w1, e1, fit1, tsn1, two1, rest⟩ := exThree_steps d ⟨0, .header initialHeader⟩ (d.base exConf)
  rw [← hnew] at e1
  obtain ⟨b1, dA, hB1, hdb1, hhp1, hrun1, hab1, hsays1, hcom1, hA, hAd, hT1⟩ := exStep_commits hd0
    ⟨fun r hr => (by cases hr), fun s p hp => (by cases hp)⟩ hL.latest rfl hold e1 fit1 exReq_after exReq_machine (fun _ _ => rfl)
  rw [exAppended] at hA hsays1
  have hsays1 : SaysAll b1.results [.ok 2] := hsays1
  obtain ⟨g1, -, hg1, -, -, -, -, hlA, hkwA, hcacheA, holdA, -, -⟩ := exCommit_shape hT1 hdb1 hhp1 hL.latest rfl rfl hrun1 hcom1
  have hlA : latestPage dA.m.h0 dA.m.h1 = .ok ⟨1, .header (newHeader w1 1)⟩ := hlA
  have hcache1 : ∀ p n, w1.dirty.get p = some n → dA.cache p = some n := by
    intro p n hp
    rw [hcacheA, cacheAfter, if_pos (show exIO.keep p = true from rfl), hp]
  have hnewA := newWriter_next hkwA (base_over two1 hcache1)
  obtain ⟨w2, e2, fit2, tsn2, apart, rest⟩ := rest dA ⟨1, .header (newHeader w1 1)⟩ (dA.base exConf)
  rw [← hnewA] at e2
  obtain ⟨b2, dB, hB2, hdb2, hhp2, hrun2, hab2, hsays2, hcom2, hB, hBd, hT2⟩ := exStep_commits hA exAfter_machine hlA rfl holdA e2 fit2
    (exReq2_ok _ rfl) ⟨by decide, fun t ht => by cases ht; decide⟩ (fun _ _ => rfl)
  obtain ⟨g2, -, hg2, hr2, two2, ht2, hhead2, -, -, hcacheB, -, hcow2, hfail⟩ := exCommit_shape hT2 hdb2 hhp2 hlA rfl rfl hrun2 hcom2
  have hfail := hfail dB.file
  obtain ⟨dF, hdF⟩ : ∃ dF, dF = headerFailed exConf exIO 0 dB.file w2 g2 { dA with oldest := none } := ⟨_, rfl⟩
  have hfail : PW.commit exConf { exIO with fault := some (.header dB.file) } b2.w = (.error (.io "header"), dF) := by rw [hdF]; exact hfail
  have hfile : dF.file = dB.file := by rw [hdF]; exact scramble_later ht2 hg2.zeroed
  -- the database is still the one before the second batch
  obtain ⟨PE, PT, PK, PF, ix, F, LF, SF⟩ : ∃ PE PT PK PF ix F, LiveAt exConf exConf_ok exConstEnv.H dF ⟨1, .header (newHeader w1 1)⟩ (newHeader w1 1)
      PE PT PK PF ix F exAfter ∧ SafeAt exConf 16 dF ⟨1, .header (newHeader w1 1)⟩ (newHeader w1 1) (PF + (PE + PT + PK)) := by
    obtain ⟨h, PE, PT, PK, PF, ix, F, L, S, PE', PT', PK', PF', ix', T⟩ := hT2
    rcases commit_spec L S T { exIO with fault := some (.header dB.file) } with ⟨d'', hp', h', PF'', F', k1, -⟩ | ⟨e, d'', k1, -, k2, k3, -⟩
    · rw [show (⟨b2.w.db, b2.w.hp, b2.w.wr⟩ : PW) = b2.w from rfl, hfail] at k1
      cases k1
    · rw [show (⟨b2.w.db, b2.w.hp, b2.w.wr⟩ : PW) = b2.w from rfl, hfail] at k1
      cases k1
      rw [hhp2] at k2 k3
      have : h = newHeader w1 1 := by have := k2.node; cases this; rfl
      subst this
      exact ⟨PE, PT, PK, PF, ix, F, k2, k3⟩
  have hF : (pageLawful exConf_ok exConstEnv_width).RepD dF exAfter := ⟨_, _, _, _, _, _, _, _, LF, SF⟩
  have hcacheF : ∀ p n, w1.dirty.get p = some n → dF.cache p = some n := by
    intro p n hp
    have hmem : p ∈ w1.dirty.map (·.1) := Pages.mem_ids.mpr ⟨n, hp⟩
    obtain ⟨x, hx, rfl⟩ := List.mem_map.mp hmem
    have : dF.cache = cacheAfter exIO.keep w2.dirty dA.cache := by rw [hdF]; rfl
    rw [this, cacheAfter, if_pos (show exIO.keep x.1 = true from rfl), apart x hx]
    exact hcache1 _ _ hp
  have hnewF := newWriter_next LF.width (base_over two1 hcacheF)
  obtain ⟨w3, e3, fit3, spoilt⟩ := rest dF ⟨1, .header (newHeader w1 1)⟩ (dF.base exConf)
  rw [← hnewF] at e3
  obtain ⟨b3, dC, hB3, hdb3, hhp3, hrun3, hab3, hsays3, hcom3, hC, hCd, hT3⟩ := exStep_commits hF exAfter_machine LF.latest rfl
    (by rw [hdF]; rfl) e3 fit3 (exReq2_ok _ rfl) ⟨by decide, fun t ht => by cases ht⟩ (fun _ _ => rfl)
  obtain ⟨g3, -, hg3, hr3, two3, -⟩ := exCommit_shape hT3 hdb3 hhp3 LF.latest rfl rfl hrun3 hcom3
  have hlen : 2 * exConf.g.pageSize ≤ dF.file.len := Nat.le_trans SF.len SF.touched.len
  have hsame : ∀ k, k = 0 ∨ k = 1 → ∀ kw, readPage exConf.g kw k g3 = readPage exConf.g kw k dF.file := fun k hk =>
    hg3.same (fun hm => by have := two3 k hm; omega) (slot_len hk hlen)
  have hzero : ∀ kw, readPage exConf.g kw 0 g3 = .ok (.header (newHeader w2 1)) := fun kw => by
    rw [hsame 0 (.inl rfl), hfile]; exact hhead2 kw
  have hone : ∀ kw, readPage exConf.g kw 1 g3 = .ok (.header (newHeader w1 1)) := fun kw => by
    rw [hsame 1 (.inr rfl)]
    exact SF.touched.read (fun hm => (SF.apart 1 hm).2 rfl) (SF.head kw)
  have hres1 : b1.results = [.ok 2] := by
    match b1.results, hsays1 with
    | [.ok p], j4 => have hp : p = 2 := j4.1; rw [hp]
    | [.error e], j4 => exact absurd (show Says (.error e) (.ok 2) from j4.1) (by cases e <;> simp [Says])
    | _ :: _ :: _, j4 => exact j4.2.elim
  refine ⟨d, dA, dF, b1, b2, b3, _, g3, hd0, hB1, hres1, hcom1, shows he exConf_ok exConstEnv_width hA, hAd, hB2, hab2, hfail, ?_,
    shows he exConf_ok exConstEnv_width hF, hB3, hab3, ?_, ?_, hA, by rw [hdF]; rfl,
    SF.touched, fun k hk => .inr ⟨dF.file, by simp, fun _ => rfl⟩⟩
  · intro wr p hwr hcow
    rw [show processFreed exIO.ord b2.w.wr = (.ok (), wr) from hwr] at hrun2
    cases hrun2
    rw [hhp2, hcow2] at hcow
    cases hcow
    exact .inr (.inr fun kw => by rw [hfile]; exact hhead2 kw)
  · refine .data w3 hrun3 ⟨?_, fun k hk => .inr ⟨dF.file, ?_, hsame k hk⟩⟩
    · rw [hdb3]
      exact (SF.touched.mono fun p hp => List.mem_append_left _ hp).trans (hg3.mono fun p hp => List.mem_append_right _ hp)
    · rw [hdb3]; simp
  · intro kw0 hk0
    obtain ⟨-, -, k3⟩ := C22_newest exConf.g kw0 exConf.zeroFill g3 hg3.zeroed (hzero kw0) (hone kw0)
    rw [if_neg (by simp only [newHeader]; omega)] at k3
    have hno : ¬ ∃ m, (openExisting exConf.g kw0 exConf.zeroFill g3).1 = .ok m := by
      rw [k3]
      rintro ⟨kw, hu⟩
      have hkw : kw = 16 := by have := hu.schema; simp only [newHeader] at this; omega
      subst hkw
      unfold exSpoilt at spoilt
      split at spoilt
      · next n hn =>
        simp only [Bool.and_eq_true, Bool.not_eq_true', decide_eq_true_eq] at spoilt
        rcases hu.tracking with h0 | ⟨-, n', k4, k5⟩
        · exact spoilt.2 h0
        · rw [show readPage exConf.g 16 (newHeader w2 1).trackRoot g3 = .ok n from hr3 _ _ hn] at k4
          cases k4
          have k5 := spoilt.1
          rcases ‹(∃ k v, n = _) ∨ _› with ⟨k, v, rfl⟩ | ⟨k, v, rfl⟩ <;> cases k5
      · cases spoilt
    unfold reopen
    cases ho : openExisting exConf.g kw0 exConf.zeroFill g3 with
    | mk r f' =>
    cases r with
    | error e => exact ⟨e, rfl⟩
    | ok m => exact absurd ⟨m, by rw [ho]⟩ hno

/-- C52 fails for a crash while the next batch is written.  On a new database the batch with `exReq` is answered
`Ok 2`.  The header of the second batch reaches the disk, but the system reports a failure; the batch is refused.  The third
batch takes the same pages, as it should, and the machine stops while they are written.  The file cannot be opened again: the
header of the second batch is the newest, and its pages hold parts of the third.  The acknowledged events are not accessible. -/
theorem C52_retry_false : ∃ (d dA dF : PDb) (b1 b2 b3 : Batch PW) (io : Page.IO) (f : File),
    (pageLawful exConf_ok exConstEnv_width).RepD d Spec.Db.empty ∧
    Builds (pageBackend exConf) exConstEnv 2048 9 d ⟨1, exReq, noCancel⟩ [] b1 [] ∧ b1.results = [.ok 2] ∧
    (pageBackend exConf).commit exIO b1.w = (.ok (), dA) ∧ Shows exConf exConstEnv dA exAfter ∧ dA.doubt = false ∧
    Builds (pageBackend exConf) exConstEnv 2048 9 dA exJobB [] b2 [] ∧ b2.abort = none ∧
    (pageBackend exConf).commit io b2.w = (.error (.io "header"), dF) ∧ HeaderLeft exConf io b2.w dF ∧ Shows exConf exConstEnv dF exAfter ∧
    Builds (pageBackend exConf) exConstEnv 2048 9 dF exJob2 [] b3 [] ∧ b3.abort = none ∧ CommitCrash exConf exIO b3.w f ∧
    ∀ kw0 ≤ 16, ∃ e, reopen exConf kw0 f = .error e := by
  obtain ⟨d, dA, dF, b1, b2, b3, io, f, h1, h2, h3, h4, h5, h6, h7, h8, h9, h10, h11, h12, h13, h14, h15, -⟩ := exFailed
  exact ⟨d, dA, dF, b1, b2, b3, io, f, h1, h2, h3, h4, h5, h6, h7, h8, h9, h10, h11, h12, h13, h14, h15⟩

/-- The hypotheses of `C52_failed_header_partial`: the header of the second batch reaches the disk although a failure is reported, and
the machine stops before anything else is written. -/
example : ∃ (d d1 : PDb) (b : Batch PW) (io : Page.IO) (e : Err) (f : File), (pageLawful exConf_ok exConstEnv_width).RepD d exAfter ∧
    d.doubt = false ∧ AfterOkAll [.append exJobB] ∧ Builds (pageBackend exConf) exConstEnv 2048 9 d exJobB [] b [] ∧ b.abort = none ∧
    (pageBackend exConf).commit io b.w = (.error e, d1) ∧ d1.doubt = true ∧ HeaderLeft exConf io b.w d1 ∧ Crash exConf d1 f := by
  obtain ⟨d, dA, dF, b1, b2, b3, io, f, -, -, -, -, -, h6, h7, h8, h9, h10, -, -, -, -, -, h16, h17, h18⟩ := exFailed
  exact ⟨dA, dF, b2, io, _, dF.file, h16, h6, exReq2_ok _ rfl, h7, h8, h9, h17, h10, h18⟩

end Uma.Props
