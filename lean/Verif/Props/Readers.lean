import Verif.Page.Readers

/-!
# Snapshot isolation and page protection: C17, C18

For every execution of readers, the writer and crashes (`Verif/Page/Readers.lean`).
-/

namespace Uma.Props
open Uma.Spec Uma.Db Uma.Page Uma.Mvcc

variable {c : Conf} {kw : Nat}

/-- What reads through the header `h` give, when the pages are found to be `v`, is `s`: `read` (db.rs 151-197), `head`
(199-212) and `get_tracking_info` (45-77) on a `Reader`. -/
structure ShowsAt (c : Conf) (env : Env) (v : Nat → Option Codec.Node) (h : Codec.Header) (s : Spec.Db) : Prop where
  reads : ∀ query start backwards limit,
    readConditional env.H env.ord (snapOf c v (turns c h.nextPosition h.nextPage) h.eventsRoot h.tagsRoot) query start
      backwards limit false Cancel.never = .ok (Spec.read s.log query start backwards limit)
  head : headOfNext h.nextPosition = Spec.head s.log
  track : ∀ src, trackLookup v (turns c h.nextPosition h.nextPage) h.trackRoot src = .ok (s.track src)

/-- A database with an open file: what `Mvcc::new` returns, and what recovery returns. -/
theorem create_liveS (hc : ConfOk c 16) (H : String → TagHash) :
    ∃ m f, create c.g c.zeroFill emptyFile = (.ok m, f) ∧ LiveS c hc H (.fresh f m f [] none) Spec.Db.empty := by
  obtain ⟨m, f, h1, h2⟩ := create_live hc H
  obtain ⟨hp, h, PE, PT, PK, PF, ix, F, L, S⟩ := h2 none
  refine ⟨m, f, h1, hp, h, PE, PT, PK, PF, ix, F, L, S, ?_⟩
  have hm : m = ⟨⟨0, .header initialHeader⟩, ⟨1, .header initialHeader⟩, tagHashLen⟩ := by
    unfold create at h1
    split at h1
    · cases h1
    split at h1
    · cases h1
    · cases h1; rfl
  have hl := L.latest
  subst hm
  have hh : hp = ⟨0, .header initialHeader⟩ := Except.ok.inj (hl.symm.trans rfl)
  subst hh
  have hn : h = initialHeader := by have := L.node; cases this; rfl
  subst hn
  intro b hb _
  rcases hb with hb | hb <;> cases hb <;> rfl

/-- A reader that is open confirmed its header at some moment of the execution: the database was `d0` then. -/
theorem live_since {env : Env} {σ0 σ : Sys} (hr : Runs c env σ0 σ) (h0 : σ0.rd = []) {h : Codec.Header} {d0 : PDb}
    (hl : (∃ pend, Phase.live h d0 pend ∈ σ.rd) ∨ ∃ a, Phase.re0 h a d0 ∈ σ.rd) :
    ∃ τ, Runs c env σ0 τ ∧ Runs c env τ σ ∧ τ.d = d0 ∧ Phase.registered h ∈ τ.rd := by
  induction hr with
  | refl => rw [h0] at hl; rcases hl with ⟨_, hl⟩ | ⟨_, hl⟩ <;> cases hl
  | @tail τ σ hr hs ih =>
    have same : ((∃ pend, Phase.live h d0 pend ∈ τ.rd) ∨ ∃ a, Phase.re0 h a d0 ∈ τ.rd) →
        ∃ τ, Runs c env σ0 τ ∧ Runs c env τ σ ∧ τ.d = d0 ∧ Phase.registered h ∈ τ.rd := fun hl => by
      obtain ⟨τ', k1, k2, k3⟩ := ih hl
      exact ⟨τ', k1, k2.tail hs, k3⟩
    have hs' := hs
    cases hs with
    | arrive =>
      refine same ?_
      rcases hl with ⟨q, hl⟩ | ⟨q, hl⟩ <;> simp at hl
      · exact .inl ⟨q, hl⟩
      · exact .inr ⟨q, hl⟩
    | @reader d r rd rd' ph d' r' ph' tx hr' =>
      by_cases hph : (∃ pend, Phase.live h d0 pend = ph') ∨ ∃ a, Phase.re0 h a d0 = ph'
      · have here : ((∃ pend, Phase.live h d0 pend = ph) ∨ ∃ a, Phase.re0 h a d0 = ph) → ∃ τ', Runs c env σ0 τ' ∧
            Runs c env τ' ⟨d', r', rd ++ ph' :: rd', tx⟩ ∧ τ'.d = d0 ∧ Phase.registered h ∈ τ'.rd := by
          rintro (⟨q, rfl⟩ | ⟨q, rfl⟩)
          · exact same (.inl ⟨q, by simp⟩)
          · exact same (.inr ⟨q, by simp⟩)
        cases hr' with
        | load0 => rcases hph with ⟨_, e⟩ | ⟨_, e⟩ <;> cases e
        | load1 => rcases hph with ⟨_, e⟩ | ⟨_, e⟩ <;> cases e
        | register => rcases hph with ⟨_, e⟩ | ⟨_, e⟩ <;> cases e
        | reload0 =>
          rcases hph with ⟨_, e⟩ | ⟨_, e⟩ <;> cases e
          exact ⟨_, hr, .single hs', rfl, by simp⟩
        | confirm =>
          rcases hph with ⟨_, e⟩ | ⟨_, e⟩ <;> cases e
          exact here (.inr ⟨_, rfl⟩)
        | outdated => rcases hph with ⟨_, e⟩ | ⟨_, e⟩ <;> cases e
        | retry => rcases hph with ⟨_, e⟩ | ⟨_, e⟩ <;> cases e
        | fetch =>
          rcases hph with ⟨_, e⟩ | ⟨_, e⟩ <;> cases e
          exact here (.inl ⟨_, rfl⟩)
        | fill =>
          rcases hph with ⟨_, e⟩ | ⟨_, e⟩ <;> cases e
          exact here (.inl ⟨_, rfl⟩)
        | close => rcases hph with ⟨_, e⟩ | ⟨_, e⟩ <;> cases e
      · refine same ?_
        rcases hl with ⟨q, hl⟩ | ⟨q, hl⟩
        · refine .inl ⟨q, ?_⟩
          simp only [List.mem_append, List.mem_cons] at hl ⊢
          rcases hl with hl | hl | hl
          · exact .inl hl
          · exact absurd (.inl ⟨q, hl⟩) hph
          · exact .inr (.inr hl)
        · refine .inr ⟨q, ?_⟩
          simp only [List.mem_append, List.mem_cons] at hl ⊢
          rcases hl with hl | hl | hl
          · exact .inl hl
          · exact absurd (.inr ⟨q, hl⟩) hph
          · exact .inr (.inr hl)
    | evict => exact same hl
    | load => exact same hl
    | batch => exact same hl
    | append => exact same hl
    | settle => exact same hl
    | scribble => exact same hl
    | finish => exact same hl
    | crash => rcases hl with ⟨_, hl⟩ | ⟨_, hl⟩ <;> cases hl
    | commitCrash => rcases hl with ⟨_, hl⟩ | ⟨_, hl⟩ <;> cases hl

theorem LiveAt.showsAt {env : Env} (he : EnvOk env) {hc : ConfOk c kw} {d : PDb} {hp : HPage} {h : Codec.Header}
    {PE PT PK PF : Multiset (Nat × Codec.Node)} {ix : Nat → List Nat} {F : Multiset (Nat × Nat)} {s : Spec.Db}
    (L : LiveAt c hc env.H d hp h PE PT PK PF ix F s) {v : Nat → Option Codec.Node} (hv : Page.Sees v (PF + (PE + PT + PK))) :
    ShowsAt c env v h s := by
  have hcard := L.card
  refine ⟨fun query start backwards limit => ?_, ?_, fun src => ?_⟩
  · have hr : Refines env.H (snapOf c v (turns c h.nextPosition h.nextPage) h.eventsRoot h.tagsRoot) s.log :=
      L.trees.refines rfl hc.bs L.index (hv.sub (Multiset.le_add_left _ _)) (by omega)
        (fun p hp => by
          have := L.body (p := p) (by simp only [ids_add, Multiset.mem_add]; tauto)
          omega) (by rw [L.next]; omega)
    rcases readConditional_correct env.H env.ord he.ord _ _ hr query start backwards limit
      false Cancel.never with h | ⟨_, j, hj⟩
    · exact h
    · simp [Cancel.never] at hj
  · rw [L.next]; exact headOfNext_eq _
  · have := turns_ge (c := c) (nextPos := h.nextPosition) (nextPage := h.nextPage)
    exact trackLookup_spec L.trees.track (hv.sub (le_of_eq_add (PF + (PE + PT)) (by abel)))
      (fun p hp => by
        have := L.body (p := p) (by simp only [ids_add, Multiset.mem_add]; tauto)
        omega) (by omega) src

/-- C17: a reader with header `h` is open.  At a moment `τ` while `reader` was running, `h` was the newest committed header
and a new reader would have seen `s0`.  From then on and as long as the reader is open, every page of the snapshot reads as
it did then; so reads find `s0`, even when each page is read at a different moment. -/
theorem C17_snapshot_isolation {env : Env} (he : EnvOk env) (hc : ConfOk c kw) (hH : ∀ t, Codec.NormalizedTo kw (env.H t)) {d : PDb}
    {s : Spec.Db} (hd : LiveS c hc env.H d s) {σ : Sys} (hr : Runs c env (.init d) σ) {h : Codec.Header} {d0 : PDb}
    {pend : List (Nat × Codec.Node)} (hl : .live h d0 pend ∈ σ.rd) :
    ∃ τ s0, Runs c env (.init d) τ ∧ Runs c env τ σ ∧ τ.d = d0 ∧ Phase.registered h ∈ τ.rd ∧
      d0.header = .ok h ∧ Shows c env d0 s0 ∧
      (∀ p ∈ usedPages c d0 h, σ.d.base c p = d0.base c p ∧ (d0.base c p).isSome) ∧
      ∀ v : Nat → Option Codec.Node, (∀ p ∈ usedPages c d0 h, ∃ σ' pend', Runs c env (.init d) σ' ∧
        .live h d0 pend' ∈ σ'.rd ∧ v p = σ'.d.base c p) → ShowsAt c env v h s0 := by
  obtain ⟨τ, t1, t2, t3, t4⟩ := live_since hr rfl (.inl ⟨pend, hl⟩)
  have key : ∀ {σ' : Sys} {pend'}, Runs c env (.init d) σ' → .live h d0 pend' ∈ σ'.rd → ∃ hp PE PT PK PF ix F0 s0,
      LiveAt c hc env.H d0 hp h PE PT PK PF ix F0 s0 ∧ Page.Sees (σ'.d.base c) (PF + (PE + PT + PK)) := by
    intro σ' pend' hr' hl'
    obtain ⟨s1, hp, h1, PE, PT, PK, PF, ix, F, I⟩ := (SysInv.crashed hd).runs he hH hr'
    obtain ⟨-, hp0, PE0, PT0, PK0, PF0, ix0, F0, s0, L0, hk, -⟩ := I.rd _ hl'
    refine ⟨hp0, PE0, PT0, PK0, PF0, ix0, F0, s0, L0, fun p n hpn => ?_⟩
    have hb := L0.body (mem_ids_of hpn)
    obtain ⟨hr1, hr2⟩ := (hk _ hpn).1
    unfold PDb.base PDb.read
    rw [if_neg (by omega)]
    cases hcp : σ'.d.cache p with
    | some m => simp only [hr2 m hcp]; rfl
    | none => rw [I.live.width, hr1]; rfl
  obtain ⟨hp, PE, PT, PK, PF, ix, F0, s0, L0, hs0⟩ := key hr hl
  have hused := L0.used_eq
  have hd0 : Live c hc env.H d0 s0 := by
    obtain ⟨s1, hp1, h1, PE1, PT1, PK1, PF1, ix1, F1, I⟩ := (SysInv.crashed hd).runs he hH t1
    have L1 := I.live
    have S1 := I.safe
    rw [t3] at L1 S1
    obtain ⟨e1, e2, e3, e4⟩ := L0.unique L1
    subst e1 e2 e3
    refine ⟨_, _, _, _, _, _, _, _, L0, S1.1, S1.2, fun p hp => ?_, S1.4, S1.5, S1.6, fun p n hpn => S1.7 p n ((e4 _).mpr hpn), S1.8⟩
    obtain ⟨k1, k2⟩ := S1.3 p hp
    refine ⟨fun hin => k1 ?_, k2⟩
    obtain ⟨n, hn⟩ := mem_ids.mp hin
    exact mem_ids_of ((e4 _).mpr hn)
  refine ⟨τ, s0, t1, t2, t3, t4, L0.header_eq, shows he hc hH hd0, fun p hp => ?_, fun v hv => ?_⟩
  · have hp : p ∈ ids (PF + (PE + PT + PK)) := by rw [← hused]; exact hp
    obtain ⟨n, hn⟩ := mem_ids.mp hp
    rw [hs0 p n hn, L0.sees p n hn]; exact ⟨rfl, rfl⟩
  · refine LiveAt.showsAt he L0 fun p n hpn => ?_
    have hp : p ∈ usedPages c d0 h := by
      have := mem_ids_of hpn
      rw [← hused] at this
      exact this
    obtain ⟨σ', pend', k1, k2, k3⟩ := hv p hp
    obtain ⟨hp1, PE1, PT1, PK1, PF1, ix1, F1, s1, L1, hs1⟩ := key k1 k2
    rw [k3, hs1 p n (((L0.unique L1).2.2.2 _).mpr hpn)]

/-- C18: while a commit writes the pages of `wr`, none of them is in the snapshot of an open reader, and none can be
reached from the header that recovery finds after a crash at this time, whichever of the writes since the last `fsync`
reached the disk.  Whether it succeeds or not, the commit changes nothing but these pages and one header slot, the one that
does not hold the committed header. -/
theorem C18_pages_in_use {env : Env} (he : EnvOk env) (hc : ConfOk c kw) (hH : ∀ t, Codec.NormalizedTo kw (env.H t)) {d : PDb}
    {s : Spec.Db} (hd : LiveS c hc env.H d s) {σ : Sys} (hr : Runs c env (.init d) σ) {w : PW} {io : Page.IO} {wr : Writer}
    (htx : σ.tx = some (.writing w io wr)) :
    (∀ h d0 pend, .live h d0 pend ∈ σ.rd → ∀ p ∈ usedPages c d0 h, 2 ≤ p ∧ p ∉ wr.dirty.ids) ∧
    (∀ h, σ.d.header = .ok h → ∀ p ∈ usedPages c σ.d h, 2 ≤ p ∧ p ∉ wr.dirty.ids) ∧
    (σ.d.doubt = false → ∀ f kw0, Survives c σ.d.disk (σ.d.loose ++ wr.dirty.ids) [σ.d.file] f → kw0 ≤ 16 →
      ∃ d' h', reopen c kw0 f = .ok d' ∧ d'.header = .ok h' ∧ σ.d.header = .ok h' ∧ ∀ p ∈ usedPages c d' h', 2 ≤ p ∧ p ∉ wr.dirty.ids) ∧
    (∀ res d', commitPages c io w.hp wr σ.d = (res, d') →
      Touched c.g.pageSize ((if w.hp.id = 0 then 1 else 0) :: wr.dirty.ids) σ.d.file d'.file) ∧
    latestPage σ.d.m.h0 σ.d.m.h1 = .ok w.hp := by
  obtain ⟨d1, r, rd, tx⟩ := σ
  simp only at htx
  subst htx
  obtain ⟨s1, hp, h, PE, PT, PK, PF, ix, F, I⟩ := (SysInv.crashed hd).runs he hH hr
  obtain ⟨e, PE', PT', PK', PF', ix', N, s', R, -⟩ := I.tx_ready
  have hown := R.own
  have hdirty2 : ∀ p ∈ wr.dirty.ids, 2 ≤ p := fun p hp => (hown.lt (hown.dirtyIn p hp)).1
  have hslot := I.live.slot
  refine ⟨fun b d0 pend hl p hp => ?_, fun h' hh p hp => ?_, fun hdb f kw0 V hk => ?_, fun res d' hcm => ?_, ?_⟩
  · obtain ⟨-, hp0, PE0, PT0, PK0, PF0, ix0, F0, s0, L0, hk, -⟩ := I.rd _ hl
    have hp : p ∈ ids (PF0 + (PE0 + PT0 + PK0)) := by rw [← L0.used_eq]; exact hp
    obtain ⟨n, hn⟩ := mem_ids.mp hp
    obtain ⟨k1, k2⟩ := I.live.kept_not_may (hk _ hn).2
    exact ⟨k1, fun hd => k2 (hown.mayDirty _ hd)⟩
  · have hh : d1.header = .ok h' := hh
    rw [I.live.header_eq] at hh; cases hh
    have hp : p ∈ ids (PF + (PE + PT + PK)) := by rw [← I.live.used_eq]; exact hp
    exact ⟨(I.live.body hp).1, fun hd => R.not_dirty I.live p hd hp⟩
  · obtain ⟨d', i', h1, h2, h3, h4, h5⟩ := recover I.live (V.image I.live.slot I.safe.schema I.safe.len I.safe.head I.safe.pages
      (fun p hp => (List.mem_append.mp hp).elim (I.safe.apart p) fun hm => ⟨R.not_dirty I.live p hm, by have := hdirty2 p hm; omega⟩)
      (by obtain ⟨h1, h2⟩ := I.safe.other hdb; simp only at h1 h2; simp [h1, h2])) hk
    refine ⟨d', h, h1, h2.header_eq, I.live.header_eq, fun p hp => ?_⟩
    have hp : p ∈ ids (PF + (PE + PT + PK)) := by rw [← h2.used_eq]; exact hp
    exact ⟨(I.live.body hp).1, fun hd => R.not_dirty I.live p hd hp⟩
  · exact (commitPages_frame hc R.width R.own.dirtyNodup I.live.zeroed hcm).1
  · rw [e]; exact I.live.latest

/-! ## Example: a reader open across a commit -/

section Examples

/-- A new database, a reader, and a batch with `exReq` computed, written and committed while the reader is open. -/
theorem exBeside : ∃ (d d' : PDb) (b : Batch PW) (wr : Writer) (r : Registry) (h : Codec.Header),
    LiveS exConf exConf_ok exConstEnv.H d Spec.Db.empty ∧ r.min = some 0 ∧
    Runs exConf exConstEnv (.init d) ⟨d, r, [.live h d []], none⟩ ∧ AfterOkAll [.append ⟨1, exReq, noCancel⟩] ∧
    Builds (pageBackend exConf) exConstEnv 2048 9 { d with oldest := r.min } ⟨1, exReq, noCancel⟩ [] b [] ∧ b.abort = none ∧
    b.results = [.ok 2] ∧ processFreed exIO.ord b.w.wr = (.ok (), wr) ∧
    commitPages exConf { exIO with oldest := some 0 } b.w.hp wr { d with oldest := r.min } = (.ok (), d') ∧
    Live exConf exConf_ok exConstEnv.H d' exAfter ∧ ShowsAt exConf exConstEnv (d'.base exConf) h Spec.Db.empty := by
  obtain ⟨m, f, hcr, hS⟩ := create_liveS exConf_ok exConstEnv.H
  obtain ⟨m', f', d1, d', b, hcr', hd1, hd, ha, -, hB, hab, hres, -, -, hcom, hd', -⟩ := exCommittedAt (some 0)
  rw [hcr'] at hcr
  cases hcr
  have hm : m = ⟨⟨0, .header initialHeader⟩, ⟨1, .header initialHeader⟩, tagHashLen⟩ := by
    unfold create at hcr'
    split at hcr'
    · cases hcr'
    split at hcr'
    · cases hcr'
    · cases hcr'; rfl
  have he : EnvOk exConstEnv := ⟨fun l => List.Perm.refl l⟩
  set d := PDb.fresh f m f [] none with hdd
  have ho : observe d.m.h0 d.m.h1 = .ok initialHeader := by
    show observe m.h0 m.h1 = _
    rw [hm]; rfl
  have hdo : d1 = { d with oldest := some 0 } := hd1
  let r : Registry := Registry.register 0 []
  have hmin : r.min = some 0 := by decide
  have step : ∀ {σ : Sys} {d2 : PDb} {r r' : Registry} {ph ph' : Phase}, Runs exConf exConstEnv (.init d) ⟨d2, r, [ph], none⟩ →
      RStep exConf d2 r ph d2 r' ph' → Runs exConf exConstEnv (.init d) ⟨d2, r', [ph'], none⟩ := by
    intro σ d2 r r' ph ph' h1 h2
    exact h1.tail (.reader (rd := []) (rd' := []) h2)
  have s0 : Runs exConf exConstEnv (.init d) ⟨d, [], [.start], none⟩ := .single (.arrive _)
  have s1 := step (σ := .init d) s0 (.load0 _ _)
  have s2 := step (σ := .init d) s1 (.load1 ho)
  have s3 := step (σ := .init d) s2 (.register _ _ _)
  have s4 := step (σ := .init d) s3 (.reload0 _ _ _)
  have s5 := step (σ := .init d) s4 (.confirm ho rfl)
  have s6 : Runs exConf exConstEnv (.init d) ⟨{ d with oldest := some 0 }, r, [.live initialHeader d []], some (.built b.w)⟩ := by
    refine s5.tail ?_
    have := SStep.batch (c := exConf) (env := exConstEnv) (d := d) (r := r) (rd := [.live initialHeader d []]) (max := 2048) (vis := 9)
      (j := ⟨1, exReq, noCancel⟩) (q := []) (b := b) (q' := []) ha (by rw [hmin, ← hdo]; exact hB) hab
    rw [hmin] at this
    exact this
  obtain ⟨wr, hrun⟩ : ∃ wr, processFreed exIO.ord b.w.wr = (.ok (), wr) := by
    unfold PW.commit at hcom
    generalize processFreed exIO.ord b.w.wr = x at hcom ⊢
    match x, hcom with
    | (.ok (), wr), _ => exact ⟨wr, rfl⟩
    | (.error e, wr), hcom => cases hcom
  have s7 := s6.tail (.settle (io := { exIO with oldest := some 0 }) hrun)
  have hfin : commitPages exConf { exIO with oldest := some 0 } b.w.hp wr { d with oldest := some 0 } = (.ok (), d') := by
    unfold PW.commit at hcom
    rw [hrun, hB.db, hdo] at hcom
    exact hcom
  have s8 := s7.tail (.finish hfin)
  obtain ⟨τ, s0, -, -, -, -, -, hsh, -, hv⟩ := C17_snapshot_isolation he exConf_ok exConstEnv_width hS s8 (h := initialHeader) (d0 := d)
    (pend := []) (by simp)
  have hs0 : s0 = Spec.Db.empty := by
    have h1 := hsh.head.symm.trans (shows he exConf_ok exConstEnv_width hS.live).head
    have h2 : s0.track = Spec.Db.empty.track := funext fun src =>
      Except.ok.inj ((hsh.track src).symm.trans ((shows he exConf_ok exConstEnv_width hS.live).track src))
    obtain ⟨log, track⟩ := s0
    cases log with
    | nil => simp only at h2; rw [h2]; rfl
    | cons a l => simp [Spec.head, Spec.Db.empty] at h1
  refine ⟨d, d', b, wr, r, initialHeader, hS, hmin, s5, ha, by rw [hmin, ← hdo]; exact hB, hab, hres, hrun, by rw [hmin]; exact hfin, hd', ?_⟩
  rw [← hs0]
  exact hv _ fun p _ => ⟨_, [], s8, by simp, rfl⟩

/-- The hypotheses of C17 and C18 hold, a new reader sees the two events, and the first reader still sees nothing. -/
example : ∃ (d d' d0 : PDb) (w : PW) (wr : Writer) (r : Registry) (h : Codec.Header), LiveS exConf exConf_ok exConstEnv.H d Spec.Db.empty ∧
    Runs exConf exConstEnv (.init d) ⟨{ d with oldest := some 0 }, r, [.live h d0 []], some (.writing w { exIO with oldest := some 0 } wr)⟩ ∧
    Runs exConf exConstEnv (.init d) ⟨d', r, [.live h d0 []], none⟩ ∧ Shows exConf exConstEnv d' exAfter ∧
    ShowsAt exConf exConstEnv (d'.base exConf) h Spec.Db.empty := by
  obtain ⟨d, d', b, wr, r, h, hS, hmin, h1, ha, hB, hab, -, hrun, hfin, hd', hsh⟩ := exBeside
  have h2 := (h1.tail (.batch ha hB hab)).tail (.settle (io := { exIO with oldest := some 0 }) hrun)
  have h3 := h2.tail (.finish hfin)
  rw [hmin] at h2
  exact ⟨d, d', d, b.w, wr, r, h, hS, h2, h3, shows ⟨fun l => List.Perm.refl l⟩ exConf_ok exConstEnv_width hd', hsh⟩

end Examples

end Uma.Props
