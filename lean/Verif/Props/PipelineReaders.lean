import Verif.Page.PipelineReaders

/-!
# Snapshot isolation beside the pipelined writer: C51

For every execution of readers, the pipelined writer, its I/O thread and crashes (`Verif/Page/PipelineReaders.lean`).
-/

namespace Uma.Props
open Uma.Spec Uma.Db Uma.Page Uma.Mvcc

variable {c : Conf} {kw : Nat}

/-- No reader looks at the headers for the second time while a batch is built on one in flight that found no reader. -/
def Careful (σ : PSys) : Prop := ¬ σ.Exposed

/-- A reader that is open confirmed its header at some moment of the execution: the database was `d0` then. -/
theorem plive_since {env : Env} {guard : PSys → Prop} {σ0 σ : PSys} (hr : PRuns c env guard σ0 σ) (h0 : σ0.rd = []) {h : Codec.Header} {d0 : PDb}
    (hl : (∃ pend, Phase.live h d0 pend ∈ σ.rd) ∨ ∃ a, Phase.re0 h a d0 ∈ σ.rd) :
    ∃ τ, PRuns c env guard σ0 τ ∧ PRuns c env guard τ σ ∧ τ.st.db = d0 ∧ Phase.registered h ∈ τ.rd := by
  induction hr with
  | refl => rw [h0] at hl; rcases hl with ⟨_, hl⟩ | ⟨_, hl⟩ <;> cases hl
  | @tail τ σ hr hs ih =>
    have same : ((∃ pend, Phase.live h d0 pend ∈ τ.rd) ∨ ∃ a, Phase.re0 h a d0 ∈ τ.rd) →
        ∃ τ, PRuns c env guard σ0 τ ∧ PRuns c env guard τ σ ∧ τ.st.db = d0 ∧ Phase.registered h ∈ τ.rd := fun hl => by
      obtain ⟨τ', k1, k2, k3⟩ := ih hl
      exact ⟨τ', k1, k2.tail hs, k3⟩
    have hs' := hs
    cases hs with
    | arrive =>
      refine same ?_
      rcases hl with ⟨q, hl⟩ | ⟨q, hl⟩ <;> simp at hl
      · exact .inl ⟨q, hl⟩
      · exact .inr ⟨q, hl⟩
    | @reader st r rd rd' ph d' r' ph' bld hr' hx =>
      by_cases hph : (∃ pend, Phase.live h d0 pend = ph') ∨ ∃ a, Phase.re0 h a d0 = ph'
      · have here : ((∃ pend, Phase.live h d0 pend = ph) ∨ ∃ a, Phase.re0 h a d0 = ph) → ∃ τ', PRuns c env guard σ0 τ' ∧
            PRuns c env guard τ' ⟨{ st with db := d' }, r', rd ++ ph' :: rd', bld⟩ ∧ τ'.st.db = d0 ∧ Phase.registered h ∈ τ'.rd := by
          rintro (⟨q, rfl⟩ | ⟨q, rfl⟩)
          · exact same (.inl ⟨q, by simp⟩)
          · exact same (.inr ⟨q, by simp⟩)
        cases hr' with
        | load0 => rcases hph with ⟨_, e⟩ | ⟨_, e⟩ <;> cases e
        | load1 => rcases hph with ⟨_, e⟩ | ⟨_, e⟩ <;> cases e
        | register => rcases hph with ⟨_, e⟩ | ⟨_, e⟩ <;> cases e
        | reload0 =>
          rcases hph with ⟨_, e⟩ | ⟨_, e⟩ <;> cases e
          exact ⟨_, hr, .single hs', rfl, by simp⟩
        | confirm =>
          rcases hph with ⟨_, e⟩ | ⟨_, e⟩ <;> cases e
          exact here (.inr ⟨_, rfl⟩)
        | outdated => rcases hph with ⟨_, e⟩ | ⟨_, e⟩ <;> cases e
        | retry => rcases hph with ⟨_, e⟩ | ⟨_, e⟩ <;> cases e
        | fetch =>
          rcases hph with ⟨_, e⟩ | ⟨_, e⟩ <;> cases e
          exact here (.inl ⟨_, rfl⟩)
        | fill =>
          rcases hph with ⟨_, e⟩ | ⟨_, e⟩ <;> cases e
          exact here (.inl ⟨_, rfl⟩)
        | close => rcases hph with ⟨_, e⟩ | ⟨_, e⟩ <;> cases e
      · refine same ?_
        rcases hl with ⟨q, hl⟩ | ⟨q, hl⟩
        · refine .inl ⟨q, ?_⟩
          simp only [List.mem_append, List.mem_cons] at hl ⊢
          rcases hl with hl | hl | hl
          · exact .inl hl
          · exact absurd (.inl ⟨q, hl⟩) hph
          · exact .inr (.inr hl)
        · refine .inr ⟨q, ?_⟩
          simp only [List.mem_append, List.mem_cons] at hl ⊢
          rcases hl with hl | hl | hl
          · exact .inl hl
          · exact absurd (.inr ⟨q, hl⟩) hph
          · exact .inr (.inr hl)
    | evict => exact same hl
    | load => exact same hl
    | build => exact same hl
    | scribble => exact same hl
    | land => exact same hl
    | fail => exact same hl
    | dispatch => exact same hl
    | crash => rcases hl with ⟨_, hl⟩ | ⟨_, hl⟩ <;> cases hl

/-- C51, for executions in which no reader is opened at the wrong moment (see `C51_snapshot_false`): beside the pipelined
writer, as beside the blocking one (C17), an open reader sees what was committed at a moment while `reader` was running. -/
theorem C51_snapshot_partial (hg : c.g.pageSize = defaultPageSize) {env : Env} (he : EnvOk env) (hc : ConfOk c kw)
    (hH : ∀ t, Codec.NormalizedTo kw (env.H t)) {d : PDb} {s : Spec.Db} (hd : LiveS c hc env.H d s) {st : Pipe} (hst : Pipe.start c d = .ok st)
    {σ : PSys} (hr : PRuns c env Careful (.init st) σ) {h : Codec.Header} {d0 : PDb} {pend : List (Nat × Codec.Node)}
    (hl : .live h d0 pend ∈ σ.rd) :
    ∃ τ s0, PRuns c env Careful (.init st) τ ∧ PRuns c env Careful τ σ ∧ τ.st.db = d0 ∧ Phase.registered h ∈ τ.rd ∧
      d0.header = .ok h ∧ Shows c env d0 s0 ∧
      (∀ p ∈ usedPages c d0 h, σ.st.db.base c p = d0.base c p ∧ (d0.base c p).isSome) ∧
      ∀ v : Nat → Option Codec.Node, (∀ p ∈ usedPages c d0 h, ∃ σ' pend', PRuns c env Careful (.init st) σ' ∧
        .live h d0 pend' ∈ σ'.rd ∧ v p = σ'.st.db.base c p) → ShowsAt c env v h s0 := by
  obtain ⟨τ, t1, t2, t3, t4⟩ := plive_since hr rfl (.inl ⟨pend, hl⟩)
  have key : ∀ {σ' : PSys} {pend'}, PRuns c env Careful (.init st) σ' → .live h d0 pend' ∈ σ'.rd → ∃ hp PE PT PK PF ix F0 s0,
      LiveAt c hc env.H d0 hp h PE PT PK PF ix F0 s0 ∧ Page.Sees (σ'.st.db.base c) (PF + (PE + PT + PK)) := by
    intro σ' pend' hr' hl'
    obtain ⟨s1, hp, h1, PE, PT, PK, PF, ix, F, I⟩ := (PSysInv.opened hd hst).runs hg he hH hr'
    obtain ⟨K, -, hrd⟩ := I.stage
    obtain ⟨-, hp0, PE0, PT0, PK0, PF0, ix0, F0, s0, L0, hk, -⟩ := hrd _ hl'
    refine ⟨hp0, PE0, PT0, PK0, PF0, ix0, F0, s0, L0, fun p n hpn => ?_⟩
    have hb := L0.body (mem_ids_of hpn)
    obtain ⟨hr1, hr2⟩ := (hk _ hpn).1
    unfold PDb.base PDb.read
    rw [if_neg (by omega)]
    cases hcp : σ'.st.db.cache p with
    | some m => simp only [hr2 m hcp]; rfl
    | none => rw [I.live.width, hr1]; rfl
  obtain ⟨hp, PE, PT, PK, PF, ix, F0, s0, L0, hs0⟩ := key hr hl
  have hused := L0.used_eq
  have hd0 : Live c hc env.H d0 s0 := by
    obtain ⟨s1, hp1, h1, PE1, PT1, PK1, PF1, ix1, F1, I⟩ := (PSysInv.opened hd hst).runs hg he hH t1
    have L1 := I.live
    have S1 := I.safe
    rw [t3] at L1 S1
    obtain ⟨e1, e2, e3, e4⟩ := L0.unique L1
    subst e1 e2 e3
    refine ⟨_, _, _, _, _, _, _, _, L0, S1.1, S1.2, fun p hp => ?_, S1.4, S1.5, S1.6, fun p n hpn => S1.7 p n ((e4 _).mpr hpn), S1.8⟩
    obtain ⟨k1, k2⟩ := S1.3 p hp
    refine ⟨fun hin => k1 ?_, k2⟩
    obtain ⟨n, hn⟩ := mem_ids.mp hin
    exact mem_ids_of ((e4 _).mpr hn)
  refine ⟨τ, s0, t1, t2, t3, t4, L0.header_eq, shows he hc hH hd0, fun p hp => ?_, fun v hv => ?_⟩
  · have hp : p ∈ ids (PF + (PE + PT + PK)) := by rw [← hused]; exact hp
    obtain ⟨n, hn⟩ := mem_ids.mp hp
    rw [hs0 p n hn, L0.sees p n hn]; exact ⟨rfl, rfl⟩
  · refine LiveAt.showsAt he L0 fun p n hpn => ?_
    have hp : p ∈ usedPages c d0 h := by
      have := mem_ids_of hpn
      rw [← hused] at this
      exact this
    obtain ⟨σ', pend', k1, k2, k3⟩ := hv p hp
    obtain ⟨hp1, PE1, PT1, PK1, PF1, ix1, F1, s1, L1, hs1⟩ := key k1 k2
    rw [k3, hs1 p n (((L0.unique L1).2.2.2 _).mpr hpn)]

/-- C51, for the same executions: none of the pages of the batch in flight is in the snapshot of an open reader, in the
committed database, or in the database recovered after a crash at this time. -/
theorem C51_pages_partial (hg : c.g.pageSize = defaultPageSize) {env : Env} (he : EnvOk env) (hc : ConfOk c kw)
    (hH : ∀ t, Codec.NormalizedTo kw (env.H t)) {d : PDb} {s : Spec.Db} (hd : LiveS c hc env.H d s) {st : Pipe} (hst : Pipe.start c d = .ok st)
    {σ : PSys} (hr : PRuns c env Careful (.init st) σ) {f : Flight} (hf : σ.st.fly = some f) :
    (∀ h d0 pend, .live h d0 pend ∈ σ.rd → ∀ p ∈ usedPages c d0 h, 2 ≤ p ∧ p ∉ f.x.pages.map (·.1)) ∧
    (∀ h, σ.st.db.header = .ok h → ∀ p ∈ usedPages c σ.st.db h, 2 ≤ p ∧ p ∉ f.x.pages.map (·.1)) ∧
    (σ.st.db.doubt = false → ∀ g kw0, Survives c σ.st.db.disk (σ.st.db.loose ++ f.x.pages.map (·.1)) [σ.st.db.file] g → kw0 ≤ 16 →
      ∃ d' h', reopen c kw0 g = .ok d' ∧ d'.header = .ok h' ∧ σ.st.db.header = .ok h' ∧
        ∀ p ∈ usedPages c d' h', 2 ≤ p ∧ p ∉ f.x.pages.map (·.1)) ∧
    ∀ io : PipeIO, Touched c.g.pageSize (f.x.hp.id :: f.x.pages.map (·.1)) σ.st.db.file (ioCommit c io f.x σ.st.db).2.file ∧
      ∃ hp, latestPage σ.st.db.m.h0 σ.st.db.m.h1 = .ok hp ∧ f.x.hp.id ≠ hp.id := by
  obtain ⟨s1, hp, h, PE, PT, PK, PF, ix, F, I⟩ := (PSysInv.opened hd hst).runs hg he hH hr
  obtain ⟨K, S, hrd⟩ := I.stage
  obtain ⟨o, w, PE', PT', PK', PF', ix', N, s', D, -, hK⟩ := S.flying hf
  have hown := D.ready.own
  have hdirty2 : ∀ p ∈ w.dirty.ids, 2 ≤ p := fun p hp => (hown.lt (hown.dirtyIn p hp)).1
  have hslot := I.live.slot
  rw [D.prep.ids]
  refine ⟨fun b d0 pend hl p hp => ?_, fun h' hh p hp => ?_, fun hdb g kw0 V hk => ?_, fun io => ⟨?_, hp, I.live.latest, ?_⟩⟩
  · obtain ⟨-, hp0, PE0, PT0, PK0, PF0, ix0, F0, s0, L0, hk, -⟩ := hrd _ hl
    have hp : p ∈ ids (PF0 + (PE0 + PT0 + PK0)) := by rw [← L0.used_eq]; exact hp
    obtain ⟨n, hn⟩ := mem_ids.mp hp
    exact D.spares I.live (hK _ _ (hk _ hn).2)
  · rw [I.live.header_eq] at hh; cases hh
    have hp : p ∈ ids (PF + (PE + PT + PK)) := by rw [← I.live.used_eq]; exact hp
    exact ⟨(I.live.body hp).1, fun hd => D.ready.not_dirty I.live p hd hp⟩
  · obtain ⟨d', i', h1, h2, h3, h4, h5⟩ := recover I.live (V.image I.live.slot I.safe.schema I.safe.len I.safe.head I.safe.pages
      (fun p hp => (List.mem_append.mp hp).elim (I.safe.apart p) fun hm => ⟨D.ready.not_dirty I.live p hm, by have := hdirty2 p hm; omega⟩)
      (by obtain ⟨h1, h2⟩ := I.safe.other hdb; simp [h1, h2])) hk
    refine ⟨d', h, h1, h2.header_eq, I.live.header_eq, fun p hp => ?_⟩
    have hp : p ∈ ids (PF + (PE + PT + PK)) := by rw [← h2.used_eq]; exact hp
    exact ⟨(I.live.body hp).1, fun hd => D.ready.not_dirty I.live p hd hp⟩
  · exact (ioCommit_frame D.prep io I.live.zeroed).1
  · rw [D.prep.hp]
    simp only
    omega

/-- C51: the turns of the writer thread (`Pipe.turn`, for which C31 and C32 are proved) are steps of the system, whatever
readers do between them. -/
theorem C51_turns {env : Env} {hc : ConfOk c kw} {s : Spec.Db} {fj : List Job} {st st' : Pipe} (I : PipeAt c hc env.H st fj s)
    {guard : PSys → Prop} {max vis : Nat} {idle : Bool} {io : PipeIO} {q q' : List Msg} (ha : AfterOkAll q)
    (h : st.turn c env max idle vis io q = .go q' st') {r : Registry} (hio : io.oldest = r.min) (rd : List Phase) :
    PRuns c env guard ⟨st, r, rd, none⟩ ⟨st', r, rd, none⟩ := by
  have hopen : ∃ wr, findReusable io.oldest { st.wr with base := wetBase c (st.seen c io.junk) st.wet } = (.ok (), wr) := by
    rcases I with ⟨-, I⟩ | ⟨f, s', I, -⟩
    · obtain ⟨wr, h1, -⟩ := I.opens io.junk io.oldest
      exact ⟨wr, h1⟩
    · obtain ⟨wr, h1, -⟩ := I.opens io
      exact ⟨wr, h1⟩
  have fail : ∀ {f : Flight} {st1 : Pipe} {bld}, st.fly = some f → st.acknowledge c io f = (false, st1) →
      PRuns c env guard ⟨st, r, rd, bld⟩
        ⟨{ st1.rollback c io.oldest with answers := (st1.rollback c io.oldest).answers ++ dropped bld }, r, rd, none⟩ := by
    intro f st1 bld hf hk
    rw [hio]
    exact .single (.fail hf hk)
  have wait : ∀ {f : Flight}, st.fly = some f → st.wait c io q f = .go q' st' → PRuns c env guard ⟨st, r, rd, none⟩ ⟨st', r, rd, none⟩ := by
    intro f hf hw
    unfold Pipe.wait at hw
    cases hk : st.acknowledge c io f with
    | mk ok st1 =>
      rw [hk] at hw
      cases ok <;> simp only at hw <;> cases hw
      · have := fail (bld := none) hf hk
        simpa [dropped] using this
      · exact .single (.land hf hk)
  have batch : ∀ {j : Job} {q1 : List Msg}, q = .append j :: q1 → st.batch c env max vis io j q1 = .go q' st' →
      PRuns c env guard ⟨st, r, rd, none⟩ ⟨st', r, rd, none⟩ := by
    intro j q1 hq hb
    obtain ⟨wr, hwr⟩ := hopen
    unfold Pipe.batch at hb
    simp only [hwr] at hb
    split at hb
    · cases hb
    next b1 hb1 =>
    split at hb
    · cases hb
    next b q2 hdr =>
    cases hb
    have s1 : PRuns c env guard ⟨st, r, rd, none⟩ ⟨st, r, rd, some (b, r.min)⟩ :=
      .single (.build hio (hq ▸ ha) ⟨wr, b1, hwr, hb1, hdr⟩)
    refine s1.trans ?_
    unfold Pipe.finish
    cases hf : st.fly with
    | none => exact .single (.dispatch hf hio)
    | some f =>
      simp only
      cases hk : st.acknowledge c io f with
      | mk ok st1 =>
        cases ok with
        | false => exact fail (bld := some (b, r.min)) hf hk
        | true =>
          have hfly : st1.fly = none := by
            have := acknowledge_fly c io f st
            rw [hk] at this; exact this
          exact (Relation.ReflTransGen.single (.land hf hk)).tail (.dispatch hfly hio)
  have take : ∀ st0 : Pipe, st0 = st → st0.take c env max vis io q = .go q' st' → PRuns c env guard ⟨st, r, rd, none⟩ ⟨st', r, rd, none⟩ := by
    rintro _ rfl ht
    cases q with
    | nil => cases ht
    | cons m q1 =>
      cases m with
      | shutdown => cases ht
      | append j => exact batch rfl ht
  unfold Pipe.turn at h
  cases hf : st.fly with
  | none =>
    rw [hf] at h
    exact take st rfl h
  | some f =>
    rw [hf] at h
    cases idle with
    | true => exact wait hf h
    | false => exact take st rfl h

/-! ## A reader opened at the wrong moment -/

section Wrong

/-- One more event. -/
def exJob2 : Job := ⟨2, ⟨[exEv 3], none, none⟩, noCancel⟩

/-- Pages over others. -/
def over (dirty : Pages) (b : Nat → Option Codec.Node) (p : Nat) : Option Codec.Node :=
  match dirty.get p with
  | some n => some n
  | none => b p

/-- The second batch, built on that of `exFirst` when there is no reader: the writer when its pages are settled. -/
noncomputable def exSecond (d : PDb) (hp hp2 : HPage) (b b' b2 : Nat → Option Codec.Node) : Option Writer :=
  match exFirst d hp b b' with
  | none => none
  | some w =>
    match findReusable none { primed w with base := over w.dirty (exBase b2) } with
    | (.ok (), wr) =>
      match stepJob (pageBackend exConf) exConstEnv (Batch.new ⟨d, hp2, wr⟩) exJob2 with
      | .error _ => none
      | .ok x =>
        match loopN unsettled (processOnce exIO.ord) 9 x.w.wr with
        | some (.ok (), w) => some w
        | _ => none
    | _ => none

/-- The positions of all events read below the roots of the empty database. -/
def exSeen (v : Nat → Option Codec.Node) : Option (List Nat) :=
  match readConditional exConstEnv.H exConstEnv.ord (snapOf exConf v (turns exConf initialHeader.nextPosition initialHeader.nextPage)
    initialHeader.eventsRoot initialHeader.tagsRoot) ⟨[]⟩ none false none false Cancel.never with
  | .ok l => some (l.map (·.position))
  | .error _ => none

noncomputable def exClobber (d : PDb) (hp hp2 : HPage) (b b' b2 v : Nat → Option Codec.Node) : Bool :=
  match exSecond d hp hp2 b b' b2 with
  | some w => exFits w && decide (exSeen (over w.dirty v) = some [1, 2, 3]) && w.dirty.all (fun x => decide (2 ≤ x.1))
  | none => false

theorem exClobber_true (d : PDb) (hp hp2 : HPage) (b b' b2 v : Nat → Option Codec.Node) : exClobber d hp hp2 b b' b2 v = true := by
  run_tac do
    let g ← Lean.Elab.Tactic.getMainGoal
    let some (_, l, _) := (← g.getType).eq? | failure
    g.assign (← Lean.Meta.mkEqRefl l)

theorem exClobber_steps {d : PDb} {hp hp2 : HPage} {b b' b2 : Nat → Option Codec.Node} {w : Writer} (hw : exFirst d hp b b' = some w) :
    ∃ wr x w2, findReusable none { primed w with base := over w.dirty (exBase b2) } = (.ok (), wr) ∧
    stepJob (pageBackend exConf) exConstEnv (Batch.new ⟨d, hp2, wr⟩) exJob2 = .ok x ∧
    loopN unsettled (processOnce exIO.ord) 9 x.w.wr = some (.ok (), w2) ∧
    (∀ y ∈ w2.dirty, Codec.pageSizeOf 16 y.2 ≤ 4096) ∧ Counters w2 ∧ (∀ y ∈ w2.dirty, 2 ≤ y.1) ∧ ∀ v, exSeen (over w2.dirty v) = some [1, 2, 3] := by
  have hrun := exClobber_true d hp hp2 b b' b2
  unfold exClobber exSecond at hrun
  simp only [hw] at hrun
  generalize findReusable none { primed w with base := over w.dirty (exBase b2) } = r0 at hrun ⊢
  match r0, hrun with
  | (.error e, wr), hrun => cases hrun fun _ => none
  | (.ok (), wr), hrun =>
    dsimp only at hrun
    generalize h1 : stepJob (pageBackend exConf) exConstEnv (Batch.new ⟨d, hp2, wr⟩) exJob2 = r at hrun
    cases r with
    | error e => cases hrun fun _ => none
    | ok x =>
      dsimp only at hrun
      generalize hl : loopN unsettled (processOnce exIO.ord) 9 x.w.wr = l at hrun
      match l, hrun with
      | none, hrun => cases hrun fun _ => none
      | some (.error e, w'), hrun => cases hrun fun _ => none
      | some (.ok (), w'), hrun =>
        dsimp only at hrun
        simp only [Bool.and_eq_true, decide_eq_true_eq, List.all_eq_true] at hrun
        have h0 := hrun fun _ => none
        exact ⟨wr, x, w', rfl, h1, hl, (exFits_spec h0.1.1).1, (exFits_spec h0.1.1).2, h0.2, fun v => (hrun v).1.2⟩

theorem go_inj {q q' : List Msg} {st st' : Pipe} (h : Turn.go q st = Turn.go q' st') : st = st' := (Turn.go.inj h).2

theorem scramble_self (ps : Nat) (l : List Nat) (f : File) : scramble ps l f f = f := by
  unfold scramble
  simp only [max_self, ite_self]

/-- Writing succeeds if the disk does. -/
theorem acknowledge_ok {io : PipeIO} (hio : io.fault = none) (f : Flight) (st : Pipe) : ∃ st', st.acknowledge c io f = (true, st') ∧
    st'.fly = none ∧ st'.db.cache = cacheAfter io.keep f.x.wet st.db.cache := by
  unfold Pipe.acknowledge ioCommit
  rw [hio]
  exact ⟨_, rfl, rfl, rfl⟩

/-- The states of an execution in which a batch is built on one in flight, with no reader at that time: the first batch has two events, the
second one; both land. -/
structure ExposedRun (d : PDb) (st0 st1 st2 st3 st4 : Pipe) (f f2 : Flight) (x : Batch PW) (io2 : PipeIO) : Prop where
  live : LiveS exConf exConf_ok exConstEnv.H d Spec.Db.empty
  start : Pipe.start exConf d = .ok st0
  first : st0.turn exConf exConstEnv 2048 false 0 exPipeIO [.append ⟨1, exReq, noCancel⟩, .append exJob2] = .go [.append exJob2] st1
  after : AfterOkAll [.append ⟨1, exReq, noCancel⟩, .append exJob2]
  idle : IdleAt exConf exConf_ok exConstEnv.H st0 Spec.Db.empty
  db : st1.db = d
  fly : st1.fly = some f
  nobody : io2.oldest = none
  build : PipeBuilds exConf exConstEnv 2048 0 io2 st1 exJob2 [] x []
  header : d.header = .ok initialHeader
  slots : observe st1.db.m.h0 st1.db.m.h1 = .ok initialHeader
  lands : st1.acknowledge exConf io2 f = (true, st2)
  free : st2.fly = none
  sent : st2.dispatch exConf { io2 with oldest := some 0 } x = st3
  fly2 : st3.fly = some f2
  lands2 : st3.acknowledge exConf exPipeIO f2 = (true, st4)
  shows : Shows exConf exConstEnv st1.db Spec.Db.empty
  seen : exSeen (st4.db.base exConf) = some [1, 2, 3]

theorem exExposed : ∃ d st0 st1 st2 st3 st4 f f2 x io2, ExposedRun d st0 st1 st2 st3 st4 f f2 x io2 := by
  have he : EnvOk exConstEnv := ⟨fun l => List.Perm.refl l⟩
  have job : ∀ {P : Job → Prop}, P exJob2 → ∀ j ∈ appendJobs [.append exJob2], P j := by
    intro P hP j hj
    simp only [appendJobs, List.mem_singleton] at hj
    rw [hj]; exact hP
  obtain ⟨m, f0, d, st0, st1, f, hcr, hd0, hgo, hd, hst, ha, hmr, hT, hf, -, -, -, -, hsh, I, -, hdb, hbase, w, hw, hwr, hwet⟩ :=
    exInFlightThen [.append exJob2] (job fun cc hcc => by cases hcc)
      (job ⟨by have : ∀ e ∈ exJob2.req.events, e.data.length < 2 ^ 64 := by decide
               exact this, fun t ht => by cases ht⟩)
      (job fun _ _ => rfl) (job fun h => absurd h.1 (by simp [exJob2]))
  -- the second batch
  obtain ⟨io2, hio2⟩ : ∃ io2 : PipeIO, io2 = { exPipeIO with junk := st1.db.file } := ⟨_, rfl⟩
  have hord : io2.ord = exIO.ord := by rw [hio2]; rfl
  have hold : io2.oldest = none := by rw [hio2]; rfl
  obtain ⟨b2, q', js, hB, -, hprog⟩ := C31_progress rfl he exConf_ok exConstEnv_width hd ⟨fun r hr => (by cases hr), fun s p hp => (by cases hp)⟩
    hst ha hmr hT (job fun _ _ => rfl) (job fun h => absurd h.1 (by simp [exJob2])) 0 (io := io2) (by rw [hio2]; rfl)
  have hB' := hB
  obtain ⟨wr', x', k0, k1, k2⟩ := hB'
  obtain ⟨wr, x, w2, r0, r1, r2, r3, r4, r5, r6⟩ := exClobber_steps (hp2 := st1.hp) (b2 := d.base exConf) hw
  have hseen : wetBase exConf (st1.seen exConf io2.junk) st1.wet = over w.dirty (exBase (d.base exConf)) := by
    rw [← hbase]
    unfold Pipe.seen
    rw [hf, hio2]
    simp only [scramble_self]
    funext p
    unfold wetBase over
    rw [hwet]
    cases w.dirty.get p with
    | some n => rfl
    | none => exact congrArg (fun d => PDb.base exConf d p) hdb
  rw [hseen, hold, hwr, r0] at k0
  obtain rfl : wr = wr' := (Prod.mk.inj k0).2
  rw [hdb, r1] at k1
  obtain rfl : x = x' := Except.ok.inj k1
  obtain ⟨rfl, rfl⟩ : x = b2 ∧ [] = q' := by
    unfold Db.drain at k2
    have := Except.ok.inj k2
    exact ⟨(Prod.mk.inj this).1, (Prod.mk.inj this).2⟩
  have hpf : processFreed io2.ord x.w.wr = (.ok (), w2) := by rw [hord]; exact whileW_eq r2
  have hset : settled io2.toIO x.w = w2 := by
    unfold settled
    rw [hpf]
  obtain ⟨st3, f2, -, l1, -, -, l2, -⟩ := hprog (by rw [hset]; exact r4) (by rw [hset]; exact fun x hx _ => r3 x hx)
  -- the first lands, the second is sent, and lands
  obtain ⟨st2, a1, a2, -⟩ := acknowledge_ok (c := exConf) (io := io2) (by rw [hio2]; rfl) f st1
  have hst3 : st3 = st2.dispatch exConf io2 x := by
    exact (go_inj ((turn_builds_on hf a1 hB).symm.trans l1)).symm
  obtain ⟨x2, wr2, -, p1, p2⟩ := dispatch_fly a2 (by rw [← hst3]; exact l2)
  obtain ⟨-, p3, -⟩ := prepareCommit_wet p1 hpf
  have hf2 : f2.x = x2 := by
    rw [hst3, p2 io2 rfl] at l2
    rw [← Option.some.inj l2]
  obtain ⟨st4, c1, -, c3⟩ := acknowledge_ok (c := exConf) (io := exPipeIO) rfl f2 st3
  have hover : over w2.dirty (st4.db.base exConf) = st4.db.base exConf := by
    funext p
    unfold over
    cases hg : w2.dirty.get p with
    | none => rfl
    | some n =>
      have h2 : 2 ≤ p := by
        obtain ⟨y, hy, hyp⟩ := List.mem_map.mp (Pages.mem_ids.mpr ⟨n, hg⟩)
        have := r5 y hy
        omega
      unfold PDb.base PDb.read
      rw [if_neg (by omega), c3, hf2, p3]
      unfold cacheAfter
      rw [hg]
      rfl
  -- the reader
  obtain ⟨m', f', hcr', hS⟩ := create_liveS exConf_ok exConstEnv.H
  rw [hcr] at hcr'
  cases hcr'
  have hm : m = ⟨⟨0, .header initialHeader⟩, ⟨1, .header initialHeader⟩, tagHashLen⟩ := by
    unfold create at hcr
    split at hcr
    · cases hcr
    split at hcr
    · cases hcr
    · cases hcr; rfl
  have ho : observe st1.db.m.h0 st1.db.m.h1 = .ok initialHeader := by
    rw [hdb, hd0]
    show observe m.h0 m.h1 = _
    rw [hm]; rfl
  have hh : d.header = .ok initialHeader := by
    rw [hd0]
    unfold PDb.header
    show (do let p ← latestPage m.h0 m.h1; asHeader p.node) = _
    rw [hm]; rfl
  rw [← hd0] at hS
  obtain ⟨hp, h, PE, PT, PK, PF, ix, F, L, S, hS'⟩ := hS
  have hS : LiveS exConf exConf_ok exConstEnv.H d Spec.Db.empty := ⟨hp, h, PE, PT, PK, PF, ix, F, L, S, hS'⟩
  obtain ⟨st1', i1, -, i2, -⟩ := start_spec (hc := exConf_ok) (H := exConstEnv.H) hd
  rw [hst] at i1; cases i1
  have hread := r6 (st4.db.base exConf)
  rw [hover] at hread
  have hsent : st2.dispatch exConf { io2 with oldest := some 0 } x = st3 := by
    rw [p2 { io2 with oldest := some 0 } rfl, ← p2 io2 rfl, ← hst3]
  exact ⟨d, st0, st1, st2, st3, st4, f, f2, x, io2, hS, hst, hgo, ha, i2, hdb, hf, hold, hB, hh, ho, a1, a2, hsent, l2, c1, hsh, hread⟩

/-- C51 fails without the restriction.  While the first batch (two events) on an empty database is in flight, the second (one
event) is built: there is no reader, so it takes the pages the first will free.  Then a reader is opened; the first has not
landed, so it is one of the empty database.  When both have landed the reader finds all three events under its root. -/
theorem C51_snapshot_false : ∃ (d d0 : PDb) (st : Pipe) (σ : PSys) (h : Codec.Header), LiveS exConf exConf_ok exConstEnv.H d Spec.Db.empty ∧
    Pipe.start exConf d = .ok st ∧ PRuns exConf exConstEnv (fun _ => True) (.init st) σ ∧ σ.rd = [.live h d0 []] ∧ d0.header = .ok h ∧
    Shows exConf exConstEnv d0 Spec.Db.empty ∧ ShowsAt exConf exConstEnv (d0.base exConf) h Spec.Db.empty ∧
    (∃ p ∈ usedPages exConf d0 h, σ.st.db.base exConf p ≠ d0.base exConf p) ∧
    ∃ l, readConditional exConstEnv.H exConstEnv.ord (snapOf exConf (σ.st.db.base exConf) (turns exConf h.nextPosition h.nextPage)
      h.eventsRoot h.tagsRoot) ⟨[]⟩ none false none false Cancel.never = .ok l ∧ l.map (·.position) = [1, 2, 3] := by
  have he : EnvOk exConstEnv := ⟨fun l => List.Perm.refl l⟩
  obtain ⟨d, st0, st1, st2, st3, st4, f, f2, x, io2, E⟩ := exExposed
  have hdb := E.db
  have ho := E.slots
  obtain ⟨hp, h, PE, PT, PK, PF, ix, F, L, S, hS'⟩ := E.live
  have := L.header_eq
  rw [E.header] at this
  cases this
  have s0 : PRuns exConf exConstEnv (fun _ => True) (.init st0) ⟨st1, [], [], none⟩ := C51_turns (.inl ⟨rfl, E.idle⟩) E.after E.first rfl []
  have s1 : PRuns exConf exConstEnv (fun _ => True) (.init st0) ⟨st1, [], [], some (x, none)⟩ :=
    s0.tail (.build (io := io2) E.nobody (fun j hj => E.after j (.tail _ hj)) E.build)
  have step : ∀ {r r' : Registry} {ph ph' : Phase}, PRuns exConf exConstEnv (fun _ => True) (.init st0) ⟨st1, r, [ph], some (x, none)⟩ →
      RStep exConf st1.db r ph st1.db r' ph' → PRuns exConf exConstEnv (fun _ => True) (.init st0) ⟨st1, r', [ph'], some (x, none)⟩ := by
    intro r r' ph ph' h1 h2
    exact h1.tail (.reader (rd := []) (rd' := []) h2 fun _ => trivial)
  have s2 := step (step (step (step (step (s1.tail (.arrive _)) (.load0 _ _)) (.load1 ho)) (.register _ _ _)) (.reload0 _ _ _)) (.confirm ho rfl)
  have s3 := s2.tail (.land E.fly E.lands)
  have s4 := s3.tail (.dispatch (io := { io2 with oldest := some 0 }) E.free
    (show some 0 = (Registry.register 0 []).min by decide))
  rw [E.sent] at s4
  have s5 := s4.tail (.land E.fly2 E.lands2)
  have hread := E.seen
  refine ⟨d, d, st0, _, initialHeader, E.live, E.start, s5, by rw [hdb], E.header, hdb ▸ E.shows, LiveAt.showsAt he L L.sees, ?_, ?_⟩
  · by_contra hno
    have hno : ∀ p ∈ usedPages exConf d initialHeader, st4.db.base exConf p = d.base exConf p := by
      intro p hp
      by_contra hne
      exact hno ⟨p, hp, hne⟩
    have hs : ShowsAt exConf exConstEnv (st4.db.base exConf) initialHeader Spec.Db.empty := by
      refine LiveAt.showsAt he L fun p n hpn => ?_
      rw [hno p ?_]
      · exact L.sees p n hpn
      · have := mem_ids_of hpn
        rw [← L.used_eq] at this
        exact this
    unfold exSeen at hread
    rw [hs.reads ⟨[]⟩ none false none] at hread
    exact absurd hread (by decide)
  · unfold exSeen at hread
    split at hread
    · next l hl => exact ⟨l, hl, Option.some.inj hread⟩
    · cases hread

end Wrong

/-! ## A concrete case -/

/-- A reader opened while the first batch is in flight, with none built on it.  The batch lands and is answered, a new reader
sees the two events, and the first reader still sees nothing. -/
theorem exLanded : ∃ (d d0 : PDb) (st0 st1 st2 : Pipe) (f : Flight) (r : Registry) (h : Codec.Header),
    LiveS exConf exConf_ok exConstEnv.H d Spec.Db.empty ∧
    Pipe.start exConf d = .ok st0 ∧ PRuns exConf exConstEnv Careful (.init st0) ⟨st1, r, [.live h d0 []], none⟩ ∧ st1.fly = some f ∧
    PRuns exConf exConstEnv Careful (.init st0) ⟨st2, r, [.live h d0 []], none⟩ ∧ (1, .ok 2) ∈ st2.answers ∧ some 2 ∈ st2.heads ∧
    Live exConf exConf_ok exConstEnv.H st2.db exAfter ∧ Shows exConf exConstEnv st2.db exAfter ∧
    ShowsAt exConf exConstEnv (st2.db.base exConf) h Spec.Db.empty := by
  have he : EnvOk exConstEnv := ⟨fun l => List.Perm.refl l⟩
  obtain ⟨m, f0, d, st0, st1, f, hcr, hd0, hgo, hd, hst, ha, -, hT, hf, hresp, hres, -, -, hsh, I, hhead, hdb, -⟩ :=
    exInFlightThen [] (fun j hj => by cases hj) (fun j hj => by cases hj) (fun j hj => by cases hj) (fun j hj => by cases hj)
  obtain ⟨m', f', hcr', hS⟩ := create_liveS exConf_ok exConstEnv.H
  rw [hcr] at hcr'
  cases hcr'
  rw [← hd0] at hS
  have hm : m = ⟨⟨0, .header initialHeader⟩, ⟨1, .header initialHeader⟩, tagHashLen⟩ := by
    unfold create at hcr
    split at hcr
    · cases hcr
    split at hcr
    · cases hcr
    · cases hcr; rfl
  have ho : observe st1.db.m.h0 st1.db.m.h1 = .ok initialHeader := by
    rw [hdb, hd0]
    show observe m.h0 m.h1 = _
    rw [hm]; rfl
  obtain ⟨st1', i1, -, i2, -⟩ := start_spec (hc := exConf_ok) (H := exConstEnv.H) hd
  rw [hst] at i1; cases i1
  have s0 : PRuns exConf exConstEnv Careful (.init st0) ⟨st1, [], [], none⟩ := C51_turns (.inl ⟨rfl, i2⟩) ha hgo rfl []
  have step : ∀ {r r' : Registry} {ph ph' : Phase}, PRuns exConf exConstEnv Careful (.init st0) ⟨st1, r, [ph], none⟩ →
      RStep exConf st1.db r ph st1.db r' ph' → PRuns exConf exConstEnv Careful (.init st0) ⟨st1, r', [ph'], none⟩ := by
    intro r r' ph ph' h1 h2
    refine h1.tail (.reader (rd := []) (rd' := []) h2 ?_)
    rintro - ⟨-, b, hb⟩
    cases hb
  have s1 := step (step (step (step (step (s0.tail (.arrive _)) (.load0 _ _)) (.load1 ho)) (.register _ _ _)) (.reload0 _ _ _)) (.confirm ho rfl)
  rcases I.acknowledge exPipeIO with ⟨st2, k1, k2, -, k4, k5, -⟩ | ⟨st2, e, k, -⟩
  swap
  · have := (acknowledge_fault exConf exPipeIO f st1).mpr rfl
    rw [k] at this
    cases this
  have s2 := s1.tail (.land hf k1)
  obtain ⟨τ, s0, -, -, -, -, -, hs, -, hv⟩ := C51_snapshot_partial rfl he exConf_ok exConstEnv_width hS hst s2 (h := initialHeader)
    (d0 := st1.db) (pend := []) (by simp)
  have hs0 : s0 = Spec.Db.empty := by
    have h1 := hs.head.symm.trans hsh.head
    have h2 : s0.track = Spec.Db.empty.track := funext fun src => Except.ok.inj ((hs.track src).symm.trans (hsh.track src))
    obtain ⟨log, track⟩ := s0
    cases log with
    | nil => simp only at h2; rw [h2]; rfl
    | cons a l => simp [Spec.head, Spec.Db.empty] at h1
  refine ⟨d, st1.db, st0, st1, st2, f, _, initialHeader, hS, hst, s1, hf, s2, by rw [k4, hresp, hres]; simp,
    by rw [k5, hhead]; simp, k2.live, shows he exConf_ok exConstEnv_width k2.live, ?_⟩
  rw [← hs0]
  exact hv _ fun p _ => ⟨_, [], s2, by simp, rfl⟩

/-- The hypotheses of `C51_snapshot_partial` and `C51_pages_partial` hold in it. -/
example : ∃ (d d0 : PDb) (st0 st1 st2 : Pipe) (f : Flight) (r : Registry) (h : Codec.Header), LiveS exConf exConf_ok exConstEnv.H d Spec.Db.empty ∧
    Pipe.start exConf d = .ok st0 ∧ PRuns exConf exConstEnv Careful (.init st0) ⟨st1, r, [.live h d0 []], none⟩ ∧ st1.fly = some f ∧
    PRuns exConf exConstEnv Careful (.init st0) ⟨st2, r, [.live h d0 []], none⟩ ∧ Shows exConf exConstEnv st2.db exAfter ∧
    ShowsAt exConf exConstEnv (st2.db.base exConf) h Spec.Db.empty := by
  obtain ⟨d, d0, st0, st1, st2, f, r, h, h1, h2, h3, h4, h5, -, -, -, h6, h7⟩ := exLanded
  exact ⟨d, d0, st0, st1, st2, f, r, h, h1, h2, h3, h4, h5, h6, h7⟩

end Uma.Props
