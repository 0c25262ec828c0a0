import Verif.Page.Sizes
import Verif.Props.Crash

/-!
# Sizes of pages and storing accepted events: C26, C27
-/

namespace Uma.Page
open Uma.Codec Uma.Mvcc Uma.Spec

variable {kw : Nat} {c : Conf} {hc : ConfOk c kw} {H : String → Db.TagHash} {d : PDb} {hp : HPage} {h : Header} {o : Option Nat}
  {PE PT PK PF PE' PT' PK' PF' : Multiset (Nat × Node)} {ix ix' : Nat → List Nat} {F : Multiset (Nat × Nat)} {N : Multiset Nat}
  {s s' : Spec.Db} {w : Writer}

/-- A page that was serialized fits (for an event leaf the computed size can exceed the bytes written). -/
theorem serializePage_fits {kw : Nat} (hk : kw ≤ 16) {buf : Bytes} {zero : Bool} {n : Node} (hs : ShapeOk n)
    (hb : splitByCount n = true) {b : Bytes} (h : serializePage kw buf zero n = .ok b) : pageSizeOf kw n ≤ buf.length := by
  have hl := encode_length hk hs
  unfold serializePage at h
  split at h
  · cases h
  next h9 =>
  unfold serializeNode at h
  simp only at h
  split at h
  · cases h
  next body hb' =>
  split at hb'
  · cases hb'
  split at hb'
  · cases hb'
  next hlen =>
  have h0 : slack n = 0 := by cases n <;> first | rfl | cases hb
  have : pageHeaderSize ≤ buf.length := by omega
  simp only [pageSizeOf]
  omega

/-- If a commit succeeds, every page handed to the disk fits. -/
theorem commitPages_fits (hc : ConfOk c kw) (hw : w.kw = kw) {io : IO} {d' : PDb} (h : commitPages c io hp w d = (.ok (), d')) :
    ∀ x ∈ w.dirty, splitByCount x.2 = true → pageSizeOf kw x.2 ≤ c.g.pageSize := by
  unfold commitPages at h
  split at h
  · cases h
  next hfit =>
  have hfit : ∀ x ∈ w.dirty, NodeFits kw x.2 := by rw [hw] at hfit; exact not_not.mp hfit
  split at h
  · cases h
  have hperm : (sortBy byId w.dirty).Perm w.dirty := sortBy_perm _ _
  have hflat := chunkBy_flatten adjacent (sortBy byId w.dirty)
  rcases writeChunks_result (g := c.g) (by have := hc.ps; omega) (kw := w.kw) (zero := c.zeroFill)
    (chunkBy adjacent (sortBy byId w.dirty)) 0 d.file with ⟨m, -, h2⟩ | ⟨e, h1, -⟩
  · intro x hx hx2
    rw [hflat] at h2
    obtain ⟨b, hb⟩ := h2 x (hperm.mem_iff.mpr hx)
    rw [hw] at hb
    simpa using serializePage_fits hc.kw (shapeOk_of_fits (hfit x hx)) hx2 hb
  · have : (writePages c.g w.kw c.zeroFill w.dirty d.file).1 = .error e := h1
    split at h
    · cases h
    · next heq => rw [heq] at this; cases this

/-- The writer after `process_freed_page_ids`: what is in `dirty` is written. -/
noncomputable def settled (io : IO) (w : PW) : Writer := (processFreed io.ord w.wr).2

end Uma.Page

namespace Uma.Props
open Uma.Spec Uma.Db Uma.Page Uma.Mvcc Uma.Codec

variable {c : Conf} {kw : Nat}

/-- Numbers in a request are machine numbers. -/
def MachineReq (req : Request) : Prop :=
  (∀ e ∈ req.events, e.data.length < 2 ^ 64) ∧ ∀ t ∈ req.tracking, t.position < 2 ^ 64

open Classical in
theorem machine_appendAll {valid : Record → Prop} : ∀ (reqs : List Request) (s : Spec.Db), Machine s → (∀ r ∈ reqs, MachineReq r) →
    Machine (appendAll valid s reqs).2
  | [], s, h, _ => h
  | r :: reqs, s, h, hr => by
    have h1 : Machine (Spec.append valid s r).2 := by
      have hcase := append_case (valid := valid) s r
      generalize Spec.append valid s r = x at hcase
      obtain ⟨m1, m2⟩ := hr r (by simp)
      cases hcase with
      | took _ _ _ =>
        refine ⟨fun x hx => ?_, fun src p hp => ?_⟩
        · rcases List.mem_append.mp hx with hx | hx
          · exact h.log x hx
          · obtain ⟨e, he, rfl⟩ := List.mem_map.mp hx
            exact ⟨m1 e he, m2⟩
        · simp only [effect] at hp
          cases ht : r.tracking with
          | none => rw [ht] at hp; exact h.track src p hp
          | some t =>
            rw [ht] at hp
            simp only [setTrack] at hp
            split at hp
            · cases hp; exact m2 t ht
            · exact h.track src p hp
      | _ => exact h
    exact machine_appendAll reqs _ h1 fun x hx => hr x (by simp [hx])

open Classical in
/-- C27, what holds: consider any batch on any database, and the pages its commit hands to the disk.  All pages of the events
tree, overflow chains, the trees of positions per tag, all of the free list, and the tag index fit the page, except leaf pages of the
tag index with exactly two tags, both with positions in the leaf; those are at most one position too large.  If they and the
tracking pages fit as well, the commit succeeds unless the disk fails; and if it succeeds they did.

Missing: leaf pages of the tag index and tracking pages are split in the middle by count and can be overfull afterwards, see
`C27_tags_leaf_false` and `C27_tracking_leaf_false`.  Counters are assumed not to be exhausted (2^64 pages, events,
transactions). -/
theorem C27_page_sizes_partial {env : Env} (he : EnvOk env) (hc : ConfOk c kw) (hH : ∀ t, Codec.NormalizedTo kw (env.H t)) {d : PDb}
    {s : Spec.Db} (hd : (pageLawful hc hH).RepD d s) (hbig : c.g.pageSize ≤ 65536) (hm : Machine s) {max vis : Nat} {j : Job}
    {q q' : List Msg} {b : Batch PW} (ha : AfterOkAll (.append j :: q)) (hreq : ∀ j' ∈ appendJobs (.append j :: q), MachineReq j'.req)
    (hb : Builds (pageBackend c) env max vis d j q b q') (hab : b.abort = none) {io : Page.IO}
    (hn : Counters (settled io b.w)) :
    (∀ x ∈ (settled io b.w).dirty, splitByCount x.2 = false → pageSizeOf kw x.2 ≤ c.g.pageSize) ∧
    (∀ x ∈ (settled io b.w).dirty, isTags x.2 = true → pageSizeOf kw x.2 ≤ c.g.pageSize + 8) ∧
    (io.fault = none → ((∃ d', PW.commit c io b.w = (.ok (), d')) ↔
      ∀ x ∈ (settled io b.w).dirty, splitByCount x.2 = true → pageSizeOf kw x.2 ≤ c.g.pageSize)) := by
  obtain ⟨js, h1, h2, hB⟩ := hb.binv he (pageLawful hc hH) hd ha
  have hm' := machine_appendAll (valid := Accepted c.g.pageSize) (js.map (·.req)) s hm fun r hr => by
    obtain ⟨j', hj', rfl⟩ := List.mem_map.mp hr
    exact hreq j' (by rw [h1]; exact List.mem_append_left _ hj')
  have hT : Tx c hc env.H b.w s _ := (hB.good hab).1
  obtain ⟨h, PE, PT, PK, PF, ix, F, L, S, PE', PT', PK', PF', ix', T⟩ := hT
  obtain ⟨u, w', hrun, PF'', N, R⟩ := T.ready io.ordLaw
  have hset : settled io b.w = w' := by unfold settled; rw [hrun]
  have hcom : PW.commit c io b.w = commitPages c io b.w.hp w' { b.w.db with oldest := io.oldest } := by
    unfold PW.commit
    simp only [hrun]
  rw [hset] at hn ⊢
  have hprop := R.proper L.freeLe hbig hn hm'
  refine ⟨fun x hx => (hprop x hx).2.1, fun x hx => (hprop x hx).2.2, fun hio => ⟨?_, fun hsz => ?_⟩⟩
  · rintro ⟨d', hd'⟩
    rw [hcom] at hd'
    exact commitPages_fits hc R.width hd'
  · rw [hcom]
    have L' : LiveAt c hc env.H { b.w.db with oldest := io.oldest } b.w.hp h PE PT PK PF ix F s := L.recache (fun _ _ h => .inl h) _
    have S' : SafeAt c kw { b.w.db with oldest := io.oldest } b.w.hp h (PF + (PE + PT + PK)) := ⟨S.1, S.2, S.3, S.4, S.5, S.6, S.7, S.8⟩
    exact (R.again io.oldest).commits L' S' hbig hn hm' hsz hio

open Classical in
/-- C26, what holds: serving a batch, no request fails for reasons of size.  With no cancellation the batch is never
abandoned; each request is answered as the specification says, in which a request is refused as an invalid argument if one of
its records is not acceptable (`Accepted`, a condition on sizes alone), or its tracking source is too long, and then has no
effect; the other requests are served as if it had not been there.  The commit can then fail only if the disk fails, or a tracking
page or a leaf page of the tag index with two tags is overfull.

Missing: those last cases do occur, see `C27_tracking_leaf_false` and `C27_tags_leaf_false`. -/
theorem C26_stored_partial {env : Env} (he : EnvOk env) (hc : ConfOk c kw) (hH : ∀ t, Codec.NormalizedTo kw (env.H t)) {d : PDb}
    {s : Spec.Db} (hd : (pageLawful hc hH).RepD d s) (hbig : c.g.pageSize ≤ 65536) (hm : Machine s) {max vis : Nat} {j : Job}
    {q q' : List Msg} {b : Batch PW} (ha : AfterOkAll (.append j :: q)) (hreq : ∀ j' ∈ appendJobs (.append j :: q), MachineReq j'.req)
    (hcan : ∀ j' ∈ appendJobs (.append j :: q), ∀ k l, j'.cancel k l = false)
    (hb : Builds (pageBackend c) env max vis d j q b q') {io : Page.IO} (hio : io.fault = none) (hn : Counters (settled io b.w)) :
    ∃ js, appendJobs (.append j :: q) = js ++ appendJobs q' ∧ b.abort = none ∧ b.responders = js.map (·.id) ∧
      SaysAll b.results (appendAll (Accepted c.g.pageSize) s (js.map (·.req))).1 ∧
      ((∀ x ∈ (settled io b.w).dirty, splitByCount x.2 = true → pageSizeOf kw x.2 ≤ c.g.pageSize) →
        ∃ d', PW.commit c io b.w = (.ok (), d') ∧ Shows c env d' (appendAll (Accepted c.g.pageSize) s (js.map (·.req))).2) := by
  obtain ⟨js, h1, h2, hB⟩ := hb.binv he (pageLawful hc hH) hd ha
  have hab : b.abort = none := by
    cases hx : b.abort with
    | none => rfl
    | some x =>
      obtain ⟨i, e⟩ := x
      obtain ⟨-, -, -, hF | ⟨-, j', hj, k, l, hkl⟩⟩ := hB.bad i e hx
      · exact hF.elim
      · rw [hcan j' (by rw [h1]; exact List.mem_append_left _ (List.mem_of_getElem? hj))] at hkl
        cases hkl
  refine ⟨js, h1, hab, h2, (hB.good hab).2, fun hsz => ?_⟩
  obtain ⟨d', hd'⟩ := ((C27_page_sizes_partial he hc hH hd hbig hm ha hreq hb hab hn).2.2 hio).mpr hsz
  refine ⟨d', hd', shows he hc hH ?_⟩
  have hT : Tx c hc env.H b.w s _ := (hB.good hab).1
  obtain ⟨h, PE, PT, PK, PF, ix, F, L, S, PE', PT', PK', PF', ix', T⟩ := hT
  rcases commit_spec L S T io with ⟨d'', hp', h', PF'', F', k1, k2, k3, -⟩ | ⟨e, d'', k1, -⟩
  · rw [show (⟨b.w.db, b.w.hp, b.w.wr⟩ : PW) = b.w from rfl, hd'] at k1
    cases k1
    exact ⟨_, _, _, _, _, _, _, _, k2, k3⟩
  · rw [show (⟨b.w.db, b.w.hp, b.w.wr⟩ : PW) = b.w from rfl, hd'] at k1
    cases k1

/-! ## A batch that is committed -/

section Examples

/-- The pages of a new database; others are irrelevant. -/
def exBase (b : Nat → Option Node) (p : Nat) : Option Node :=
  match p with
  | 2 => some (.freeLeaf [] [])
  | 3 => some (.eventLeaf [] [])
  | 4 => some (.tagsLeaf [] [])
  | _ => b p

/-- A transaction on a new database. -/
def exW (b : Nat → Option Node) : Writer := ⟨exBase b, 16, 4096, 1, 5, 2, 3, 4, 0, 1, [], [], [], fun _ => none, []⟩

/-- The root of the free list is a leaf with an entry whose pages are in the leaf. -/
def freeNow (w : Writer) : Bool :=
  match w.view w.freeRoot with
  | some (.freeLeaf _ (v :: _)) => v.root == 0
  | _ => false

/-- Serve `exReq` and settle the free list: do the pages fit? -/
noncomputable def exRun (d : PDb) (hp : HPage) (b : Nat → Option Node) : Bool :=
  match stepJob (pageBackend exConf) exConstEnv (Batch.new ⟨d, hp, (findReusable none (exW b)).2⟩) ⟨1, exReq, noCancel⟩ with
  | .error _ => false
  | .ok x =>
    match loopN unsettled (processOnce exIO.ord) 5 x.w.wr with
    | some (.ok (), w) => w.dirty.all (fun x => decide (pageSizeOf 16 x.2 ≤ 4096)) && decide (w.nextPage < 2 ^ 64) &&
        decide (w.nextPos < 2 ^ 64) && decide (w.tsn < 2 ^ 64) && (List.range' 5 (w.nextPage - 5)).all (fun p => w.dirty.ids.contains p) &&
        freeNow w
    | _ => false

/-- By evaluation (in the kernel, because of the variables). -/
theorem exRun_true (d : PDb) (hp : HPage) (b : Nat → Option Node) : exRun d hp b = true := by
  run_tac do
    let g ← Lean.Elab.Tactic.getMainGoal
    let some (_, l, _) := (← g.getType).eq? | failure
    g.assign (← Lean.Meta.mkEqRefl l)

/-- The database after `exReq`. -/
def exAfter : Spec.Db := effect Spec.Db.empty exReq

open Classical in
theorem exAppended : Spec.append (Accepted exConf.g.pageSize) Spec.Db.empty exReq = (.ok 2, exAfter) := by
  have hcase := append_case (valid := Accepted exConf.g.pageSize) Spec.Db.empty exReq
  have hv : ∀ c ∈ exReq.condition, violations Spec.Db.empty.log c = [] := by intro c _; rfl
  have hacc : ∀ r ∈ recordsOf exReq, Accepted exConf.g.pageSize r := by
    intro r hr
    have : r = ⟨exEv 1, exReq.tracking⟩ ∨ r = ⟨exEv 2, exReq.tracking⟩ := by simpa [recordsOf, exReq] using hr
    rcases this with rfl | rfl
    · exact ⟨by decide, ⟨by decide, by decide, by decide⟩, .inl (by decide +kernel)⟩
    · exact ⟨by decide, ⟨by decide, by decide, by decide⟩, .inl (by decide +kernel)⟩
  generalize Spec.append (Accepted exConf.g.pageSize) Spec.Db.empty exReq = x at hcase
  cases hcase with
  | took _ _ _ => rfl
  | repeated c h1 h2 => exact absurd (hv c h1) h2
  | conflict c h1 h2 => exact absurd (hv c h1) h2
  | invalid _ h => exact absurd hacc h
  | longSource t _ h1 h2 =>
    have : t = ⟨"up", 9⟩ := (Option.some.inj h1).symm
    subst this
    exact absurd h2 (by decide)
  | notIncreasing t p _ h1 h2 => cases h2

theorem writer_eq {d : PDb} {hp : HPage} {h : Codec.Header} {w : Writer} (hl : latestPage d.m.h0 d.m.h1 = .ok hp)
    (hn : hp.node = .header h) (hb : d.writer c = .ok ⟨d, hp, w⟩) : w = (findReusable d.oldest (newWriter c d h)).2 := by
  unfold PDb.writer at hb
  rw [hl] at hb
  simp only [bind, Except.bind, hn, asHeader] at hb
  split at hb
  · cases hb
  · next heq => cases hb; rw [heq]

/-- What `exRun` checks. -/
theorem exRun_steps (d : PDb) (hp : HPage) (b : Nat → Option Node) : ∃ x w',
    stepJob (pageBackend exConf) exConstEnv (Batch.new ⟨d, hp, (findReusable none (exW b)).2⟩) ⟨1, exReq, noCancel⟩ = .ok x ∧
    loopN unsettled (processOnce exIO.ord) 5 x.w.wr = some (.ok (), w') ∧
    (∀ y ∈ w'.dirty, pageSizeOf 16 y.2 ≤ 4096) ∧ Counters w' ∧ (∀ p, 5 ≤ p → p < w'.nextPage → p ∈ w'.dirty.ids) ∧ freeNow w' = true := by
  have hrun := exRun_true d hp b
  unfold exRun at hrun
  generalize stepJob (pageBackend exConf) exConstEnv (Batch.new ⟨d, hp, (findReusable none (exW b)).2⟩)
    ⟨1, exReq, noCancel⟩ = r at hrun ⊢
  cases r with
  | error e => cases hrun
  | ok x =>
    dsimp only at hrun
    generalize hl : loopN unsettled (processOnce exIO.ord) 5 x.w.wr = l at hrun
    match l, hrun with
    | some (.ok (), w'), hrun =>
      simp only [Bool.and_eq_true, decide_eq_true_eq, List.all_eq_true] at hrun
      refine ⟨x, w', rfl, hl, hrun.1.1.1.1.1, ⟨hrun.1.1.1.1.2, hrun.1.1.1.2, hrun.1.1.2⟩, fun p h1 h2 => ?_, hrun.2⟩
      simpa using hrun.1.2 p (by rw [List.mem_range'_1]; omega)

theorem exReusable (b : Nat → Option Node) (o : Option Nat) : findReusable o (exW b) = findReusable none (exW b) := rfl

open Classical in
/-- A new database with any oldest reader, a batch with the request `exReq` (two events with a tag, condition and
tracking): all hypotheses of C26 and C27 hold, every page fits, and the commit succeeds. -/
theorem exCommittedAt (o : Option Nat) : ∃ (m : Opened) (f : File) (d d' : PDb) (b : Batch PW),
    create exConf.g exConf.zeroFill emptyFile = (.ok m, f) ∧ d = .fresh f m f [] o ∧
    (pageLawful exConf_ok exConstEnv_width).RepD d Spec.Db.empty ∧
    AfterOkAll [.append ⟨1, exReq, noCancel⟩] ∧ (∀ j' ∈ appendJobs [.append ⟨1, exReq, noCancel⟩], MachineReq j'.req) ∧
    Builds (pageBackend exConf) exConstEnv 2048 9 d ⟨1, exReq, noCancel⟩ [] b [] ∧ b.abort = none ∧ b.results = [.ok 2] ∧
    Counters (settled { exIO with oldest := o } b.w) ∧ (∀ x ∈ (settled { exIO with oldest := o } b.w).dirty, pageSizeOf 16 x.2 ≤ exConf.g.pageSize) ∧
    PW.commit exConf { exIO with oldest := o } b.w = (.ok (), d') ∧ (pageLawful exConf_ok exConstEnv_width).RepD d' exAfter ∧ d'.doubt = false ∧
    (∀ p, 5 ≤ p → p < (settled { exIO with oldest := o } b.w).nextPage → p ∈ (settled { exIO with oldest := o } b.w).dirty.ids) ∧ freeNow (settled { exIO with oldest := o } b.w) = true := by
  obtain ⟨m, f, hcr, h2, -, -, h5⟩ := Props.C47_create (g := exConf.g) ⟨by decide, by decide⟩ false
  obtain ⟨m', f', hcr', hl⟩ := create_live exConf_ok exConstEnv.H
  rw [show create exConf.g exConf.zeroFill emptyFile = (.ok m, f) from hcr] at hcr'
  cases hcr'
  have hd : (pageLawful exConf_ok exConstEnv_width).RepD (.fresh f m f [] o) Spec.Db.empty := hl o
  have hL := live_initial exConf_ok exConstEnv.H h2 h5 f [] o
  obtain ⟨w, hb, hreused, T⟩ := hL.begin
  have ha : AfterOkAll [.append ⟨1, exReq, noCancel⟩] := by
    intro j hj
    simp only [appendJobs, List.mem_singleton] at hj
    subst hj
    rintro cc hcc a ha'
    have hcc : exReq.condition = some cc := hcc
    simp only [exReq, Option.some.injEq] at hcc; subst hcc; cases ha'; decide
  have hmr : ∀ j' ∈ appendJobs [.append ⟨1, exReq, noCancel⟩], MachineReq j'.req := by
    intro j hj
    simp only [appendJobs, List.mem_singleton] at hj
    subst hj
    refine ⟨?_, ?_⟩
    · have : ∀ e ∈ exReq.events, e.data.length < 2 ^ 64 := by decide
      exact this
    · intro t ht
      have : t = ⟨"up", 9⟩ := (Option.some.inj ht).symm
      subst this; decide
  have he : EnvOk exConstEnv := ⟨fun l => List.Perm.refl l⟩
  -- the transaction is that of `exW`
  have hbase : (PDb.fresh f m f [] o).base exConf = exBase ((PDb.fresh f m f [] o).base exConf) := by
    funext p
    have hs := hL.sees
    unfold exBase
    split
    · exact hs 2 _ (by simp)
    · exact hs 3 _ (by simp)
    · exact hs 4 _ (by simp)
    · rfl
  have hnew : newWriter exConf (.fresh f m f [] o) initialHeader = exW ((PDb.fresh f m f [] o).base exConf) := by
    unfold newWriter exW
    have hkw : (PDb.fresh f m f [] o).m.kw = 16 := hL.width
    rw [hkw, ← hbase]
    rfl
  have hw : w = (findReusable none (exW ((PDb.fresh f m f [] o).base exConf))).2 := by
    have := writer_eq hL.latest rfl hb
    rw [hnew] at this
    rw [this]
    exact congrArg Prod.snd (exReusable _ o)
  obtain ⟨b, w', h1, h3, r1, hct, hfresh⟩ := exRun_steps (.fresh f m f [] o) ⟨0, .header initialHeader⟩
    ((PDb.fresh f m f [] o).base exConf)
  rw [← hw] at h1
  have hset : processFreed exIO.ord b.w.wr = (.ok (), w') := whileW_eq h3
  have hsettled : settled { exIO with oldest := o } b.w = w' := by unfold settled; rw [hset]
  have hB : Builds (pageBackend exConf) exConstEnv 2048 9 (.fresh f m f [] o) ⟨1, exReq, noCancel⟩ [] b [] :=
    ⟨_, b, hb, h1, by unfold Db.drain; rfl⟩
  have hm : Machine Spec.Db.empty := ⟨fun r hr => (by cases hr), fun s p hp => (by cases hp)⟩
  obtain ⟨js, j1, hab, j3, j4, hcom⟩ := C26_stored_partial he exConf_ok exConstEnv_width hd (by decide) hm ha hmr (by
    intro j hj k l
    simp only [appendJobs, List.mem_singleton] at hj
    subst hj
    rfl) hB (io := { exIO with oldest := o }) rfl (by rw [hsettled]; exact hct)
  have hjs : js = [⟨1, exReq, noCancel⟩] := by simpa [appendJobs] using j1.symm
  subst hjs
  have hres : b.results = [.ok 2] := by
    have hr : (appendAll (Accepted exConf.g.pageSize) Spec.Db.empty ([(⟨1, exReq, noCancel⟩ : Job)].map (·.req))).1 = [.ok 2] := by
      simp only [List.map_cons, List.map_nil, appendAll, exAppended]
    rw [hr] at j4
    match hb : b.results, j4 with
    | [.ok p], j4 => have hp : p = 2 := j4.1; rw [hp]
    | [.error e], j4 => exact absurd j4.1 (by cases e <;> simp [Says])
    | _ :: _ :: _, j4 => exact j4.2.elim
  obtain ⟨d', hd', -⟩ := hcom (by rw [hsettled]; exact fun x hx _ => r1 x hx)
  obtain ⟨js', k1, -, hBI⟩ := hB.binv he (pageLawful exConf_ok exConstEnv_width) hd ha
  have hjs' : js' = [⟨1, exReq, noCancel⟩] := by simpa [appendJobs] using k1.symm
  subst hjs'
  have hT : Tx exConf exConf_ok exConstEnv.H b.w Spec.Db.empty _ := (hBI.good hab).1
  obtain ⟨h, PE, PT, PK, PF, ix, F, L, S, PE', PT', PK', PF', ix', T⟩ := hT
  have hafter : (appendAll (Accepted exConf.g.pageSize) Spec.Db.empty ([(⟨1, exReq, noCancel⟩ : Job)].map (·.req))).2 = exAfter := by
    simp only [List.map_cons, List.map_nil, appendAll, exAppended]
  rw [hafter] at T
  refine ⟨m, f, _, d', b, hcr, rfl, hd, ha, hmr, hB, hab, hres, by rw [hsettled]; exact hct, by rw [hsettled]; exact r1, hd', ?_⟩
  · rcases commit_spec L S T { exIO with oldest := o } with ⟨d'', hp', h', PF'', F', k1, k2, k3, k4, -⟩ | ⟨e, d'', k1, -⟩
    · rw [show (⟨b.w.db, b.w.hp, b.w.wr⟩ : PW) = b.w from rfl, hd'] at k1
      cases k1
      exact ⟨⟨_, _, _, _, _, _, _, _, k2, k3⟩, k4, by rw [hsettled]; exact hfresh⟩
    · rw [show (⟨b.w.db, b.w.hp, b.w.wr⟩ : PW) = b.w from rfl, hd'] at k1
      cases k1

theorem exCommitted : ∃ (d d' : PDb) (b : Batch PW), (pageLawful exConf_ok exConstEnv_width).RepD d Spec.Db.empty ∧
    AfterOkAll [.append ⟨1, exReq, noCancel⟩] ∧ (∀ j' ∈ appendJobs [.append ⟨1, exReq, noCancel⟩], MachineReq j'.req) ∧
    Builds (pageBackend exConf) exConstEnv 2048 9 d ⟨1, exReq, noCancel⟩ [] b [] ∧ b.abort = none ∧ b.results = [.ok 2] ∧
    Counters (settled exIO b.w) ∧ (∀ x ∈ (settled exIO b.w).dirty, pageSizeOf 16 x.2 ≤ exConf.g.pageSize) ∧
    PW.commit exConf exIO b.w = (.ok (), d') ∧ (pageLawful exConf_ok exConstEnv_width).RepD d' exAfter ∧ d'.doubt = false ∧
    (∀ p, 5 ≤ p → p < (settled exIO b.w).nextPage → p ∈ (settled exIO b.w).dirty.ids) ∧ freeNow (settled exIO b.w) = true := by
  obtain ⟨m, f, d, d', b, -, -, h⟩ := exCommittedAt none
  exact ⟨d, d', b, h⟩

end Examples

/-! ## A tracking page that is overfull -/

section Overfull

/-- Sources: 15 of one byte, then 16 of 250 bytes, in order. -/
def src31 (i : Nat) : String :=
  if i < 15 then String.ofList [Char.ofNat (97 + i)] else String.ofList (Char.ofNat (97 + i) :: List.replicate 249 'z')

theorem src31_size : ∀ i < 31, (src31 i).utf8ByteSize = if i < 15 then 1 else 250 := by decide +kernel

theorem src31_lt {i j : Nat} (h : i < 31) (hj : j < i) : src31 j < src31 i := by
  rw [String.lt_iff_toList_lt]
  have hv : ∀ i < 31, (Char.ofNat (97 + i)).toNat = 97 + i := by decide
  have h1 := hv i h
  have h2 := hv j (by omega)
  have hlt : Char.ofNat (97 + j) < Char.ofNat (97 + i) := by
    have : (Char.ofNat (97 + j)).toNat < (Char.ofNat (97 + i)).toNat := by omega
    exact this
  unfold src31
  split <;> split <;> simp only [String.toList_ofList, List.cons_lt_cons_iff, hlt, true_or]

/-- The root of the tracking tree is a dirty leaf with the sources `ks`. -/
def Grown31 (w : Writer) (ks : List String) : Prop :=
  ∃ A X Q, w.trackRoot ≠ 0 ∧ Own w A X ({(w.trackRoot, .trackLeaf ks (ks.map fun _ => 1))} + Q) ∧ IsDirty w w.trackRoot

theorem searchIdx_last {ks : List String} {src : String} (h : ∀ k ∈ ks, k < src) : searchIdx ks src = .error ks.length := by
  have hu : ub ks src = ks.length := List.countP_eq_length.mpr fun k hk => by simpa using le_of_lt (h k hk)
  unfold searchIdx
  rw [hu, if_neg]
  rintro ⟨h1, h2⟩
  exact lt_irrefl _ (h src (List.mem_of_getElem? h2))

theorem upsert_last {w : Writer} {ks : List String} {src : String} (h255 : src.utf8ByteSize ≤ 255) (hks : ∀ k ∈ ks, k < src)
    (h : Grown31 w ks) :
    (pageSizeOf w.kw (.trackLeaf (ks ++ [src]) ((ks ++ [src]).map fun _ => 1)) ≤ w.pageSize →
      Run (trackUpsert src 1) w fun _ w' => Grown31 w' (ks ++ [src]) ∧ w'.kw = w.kw ∧ w'.pageSize = w.pageSize) ∧
    (w.pageSize < pageSizeOf w.kw (.trackLeaf (ks ++ [src]) ((ks ++ [src]).map fun _ => 1)) → 1 ≤ ks.length →
      Run (trackUpsert src 1) w fun _ w' => ∃ p, w'.dirty.get p =
        some (.trackLeaf ((ks ++ [src]).drop ((ks.length + 1) / 2)) (((ks ++ [src]).map fun _ => 1).drop ((ks.length + 1) / 2)))) := by
  obtain ⟨A, X, Q, h0, hw, hd⟩ := h
  have hget := hw.dirty_eq (n := .trackLeaf ks (ks.map fun _ => 1)) (by simp) hd
  have hnf : w.freed.contains w.trackRoot = false := by simpa using hw.not_freed (p := w.trackRoot) (by simp)
  have hn : 0 < w.nextPage := by have := hw.limit; omega
  have hpage : getPage w.trackRoot w = (.ok (.trackLeaf ks (ks.map fun _ => 1)), w) := by unfold getPage; rw [hget]
  have hdesc : descend trOps (fun keys _ => ub keys src) w.nextPage w.trackRoot [] w = (.ok (w.trackRoot, []), w) := by
    obtain ⟨n, hn'⟩ : ∃ n, w.nextPage = n + 1 := ⟨w.nextPage - 1, by omega⟩
    rw [hn']
    unfold descend
    simp only [bind, hpage, trOps]
    rfl
  have hset : trackSet src 1 ks (ks.map fun _ => 1) = .ok (ks ++ [src], (ks ++ [src]).map fun _ => 1) := by
    unfold trackSet
    rw [searchIdx_last hks]
    simp only [List.length_map, Nat.le_refl, if_true, List.insertIdx_length_self]
    rw [show ks.length = (ks.map fun _ => 1).length by simp, List.insertIdx_length_self]
    simp
  -- everything before the change of the leaf
  have hpre : ∀ R : Unit → Writer → Prop,
      Run (do
        let s ← trackLeafPut w.trackRoot src 1
        let root ← finish trOps w.trackRoot [] w.trackRoot w.trackRoot s
        modW fun w => { w with trackRoot := root }) w R → Run (trackUpsert src 1) w R := by
    intro R hR
    refine Run.of_eq (m := trackInto src 1) (by unfold trackUpsert; rw [if_neg (by omega), if_neg h0]) ?_
    unfold trackInto
    refine .get ?_
    refine Run.bind ⟨_, w, hdesc, ?_⟩
    refine Run.bind ⟨_, w, hpage, ?_⟩
    refine Run.bind ⟨(), w, ?_, ?_⟩
    · unfold trackCheck trackGet
      simp only [searchIdx_last hks]
      rfl
    · refine Run.bind ⟨w.trackRoot, w, ?_, hR⟩
      unfold getDirty
      rw [hnf, hget]
      rfl
  refine ⟨fun hsz => hpre _ ?_, fun hsz hlen => hpre _ ?_⟩
  · have hput : trackPut src 1 w.kw w.pageSize (.trackLeaf ks (ks.map fun _ => 1)) =
        .ok (none, .trackLeaf (ks ++ [src]) ((ks ++ [src]).map fun _ => 1)) := by
      unfold trackPut
      simp only [hset]
      rw [if_neg (by omega)]
    refine Run.andThen (Q := fun s w' => s = none ∧ Own w' A X ({(w.trackRoot, .trackLeaf (ks ++ [src]) ((ks ++ [src]).map fun _ => 1))} + Q) ∧
      Keep Q w w' ∧ IsDirty w' w.trackRoot) ?_ ?_
    · unfold trackLeafPut
      refine .get ?_
      refine (modDirty_spec hw hd hput).andThen ?_
      rintro _ w' ⟨rfl, h1, h2, h3⟩
      exact .pure ⟨rfl, h1, h2, h3⟩
    · rintro _ w' ⟨rfl, h1, h2, h3⟩
      refine Run.bind ⟨w.trackRoot, w', ?_, .modW ⟨⟨A, X, Q, h0, h1.setRoots _ _ _, h3⟩, h2.step.kw, h2.step.pageSize⟩⟩
      simp [finish, walkUp, replInfo, fixRoot, bind, pure]
  · have hlen2 : 2 ≤ (ks ++ [src]).length := by simp; omega
    obtain ⟨k, right, hkr⟩ : ∃ k right, (ks ++ [src]).drop ((ks ++ [src]).length / 2) = k :: right := by
      cases h : (ks ++ [src]).drop ((ks ++ [src]).length / 2) with
      | nil => rw [List.drop_eq_nil_iff] at h; omega
      | cons k r => exact ⟨k, r, rfl⟩
    have hput : trackPut src 1 w.kw w.pageSize (.trackLeaf ks (ks.map fun _ => 1)) =
        .ok (some (k, k :: right, ((ks ++ [src]).map fun _ => 1).drop ((ks ++ [src]).length / 2)),
          .trackLeaf ((ks ++ [src]).take ((ks ++ [src]).length / 2)) (((ks ++ [src]).map fun _ => 1).take ((ks ++ [src]).length / 2))) := by
      unfold trackPut
      simp only [hset]
      rw [if_pos (by omega), if_neg (by omega), hkr]
    have hlen' : (ks ++ [src]).length = ks.length + 1 := by simp
    refine Run.andThen (Q := fun s w' => ∃ p, s = some (k, p) ∧ Own w' A X ({(p, .trackLeaf (k :: right)
        (((ks ++ [src]).map fun _ => 1).drop ((ks ++ [src]).length / 2)))} + ({(w.trackRoot, .trackLeaf ((ks ++ [src]).take ((ks ++ [src]).length / 2))
          (((ks ++ [src]).map fun _ => 1).take ((ks ++ [src]).length / 2)))} + Q)) ∧ IsDirty w' p) ?_ ?_
    · unfold trackLeafPut
      refine .get ?_
      refine (modDirty_spec hw hd hput).andThen ?_
      rintro _ w1 ⟨rfl, h1, h2, h3⟩
      refine (newPage_spec _ h1).andThen ?_
      rintro p w2 ⟨h4, h5, h6⟩
      exact .pure ⟨p, rfl, h4, h6⟩
    · rintro _ w' ⟨p, rfl, h1, h3⟩
      refine Run.andThen (Q := fun _ w3 => ∃ P, Own w3 A X P ∧ (p, .trackLeaf (k :: right)
        (((ks ++ [src]).map fun _ => 1).drop ((ks ++ [src]).length / 2))) ∈ P ∧ IsDirty w3 p) ?_ ?_
      · refine Run.of_eq (m := newPage (trOps.inner [k] [w.trackRoot, p])) ?_ ?_
        · simp [finish, walkUp, replInfo, fixRoot, bind, pure]
        · refine (newPage_spec _ h1).mono ?_
          rintro r w3 ⟨h4, h5, -⟩
          exact ⟨_, h4, by simp, h5.dirty p (by simp) h3⟩
      · rintro root w3 ⟨P, h4, h5, h6⟩
        refine .modW ⟨p, ?_⟩
        have := h4.dirty_eq h5 h6
        rw [← hkr, hlen'] at this
        exact this

/-- The request to record position 1 for the source number `i`. -/
def job31 (i : Nat) : Job := ⟨i, ⟨[], none, some ⟨src31 i, 1⟩⟩, noCancel⟩

theorem stepJob_31 {b : Batch PW} {i : Nat} {u : Unit} {w' : Writer} (h : Page.trackUpsert (src31 i) 1 b.w.wr = (.ok u, w')) :
    stepJob (pageBackend exConf) exConstEnv b (job31 i) = .ok ⟨{ b.w with wr := w' }, b.responders ++ [i], b.results ++ [.ok 0], b.abort, b.total⟩ := by
  have h1 : processAppend (pageBackend exConf) exConstEnv (job31 i).req (job31 i).cancel b.w = (.ok 0, { b.w with wr := w' }) := by
    unfold processAppend
    have : checkCondition exConstEnv ((pageBackend exConf).snap b.w) (job31 i).req (job31 i).cancel = none := rfl
    rw [this]
    simp only [job31, List.map_nil, validateAll, applyRequest, List.isEmpty_nil, if_true]
    simp only [pageBackend, PW.run, h]
  unfold stepJob
  simp only [h1]
  simp [job31]

theorem trackLeaf_size31 (kw n : Nat) (hn : n ≤ 31) (ks : List String) (hks : ks = (List.range n).map src31) :
    pageSizeOf kw (.trackLeaf ks (ks.map fun _ => 1)) = 12 + ((List.range n).map fun i => 1 + if i < 15 then 1 else 250).sum + 8 * n := by
  subst hks
  simp only [pageSizeOf, pageHeaderSize, nodeSize, List.map_map, List.length_map, List.length_range]
  have : (List.range n).map ((fun k => 1 + k.utf8ByteSize) ∘ src31) = (List.range n).map fun i => 1 + if i < 15 then 1 else 250 := by
    refine List.map_congr_left fun i hi => ?_
    rw [List.mem_range] at hi
    simp only [Function.comp, src31_size i (by omega)]
  rw [this]
  omega

theorem sum31_le : ∀ n ≤ 30, 12 + ((List.range n).map fun i => 1 + if i < 15 then 1 else 250).sum + 8 * n ≤ 4096 := by decide

/-- Thirty sources fit in the leaf at the root. -/
theorem grow31 : ∀ (n i : Nat) (b : Batch PW), i + n = 30 → 1 ≤ i → b.abort = none → b.total = 0 →
    Grown31 b.w.wr ((List.range i).map src31) → b.w.wr.kw = 16 → b.w.wr.pageSize = 4096 → (∀ r ∈ b.results, r = .ok 0) →
    ∃ b', drain (pageBackend exConf) exConstEnv 2048 (n + 1) (((List.range' i (n + 1)).map job31).map .append) b = .ok (b', []) ∧
      b'.abort = none ∧ (∀ r ∈ b'.results, r = .ok 0) ∧
      ∃ p, b'.w.wr.dirty.get p = some (.trackLeaf (((List.range 31).map src31).drop 15) ((((List.range 31).map src31).map fun _ => 1).drop 15))
  | 0, i, b, hi, h1, hab, htot, hg, hkw, hps, hres => by
    obtain rfl : i = 30 := by omega
    have hlt : ∀ k ∈ (List.range 30).map src31, k < src31 30 := by
      intro k hk
      obtain ⟨j, hj, rfl⟩ := List.mem_map.mp hk
      exact src31_lt (by omega) (List.mem_range.mp hj)
    have happ : (List.range 30).map src31 ++ [src31 30] = (List.range 31).map src31 := by
      rw [List.range_succ (n := 30), List.map_append]; rfl
    obtain ⟨u, w', hrun, p, hp⟩ := (upsert_last (by rw [src31_size 30 (by omega)]; decide) hlt hg).2 (by
      rw [happ, hps, trackLeaf_size31 _ 31 (by omega) _ rfl]; decide) (by simp)
    have hs := stepJob_31 hrun
    refine ⟨⟨{ b.w with wr := w' }, b.responders ++ [30], b.results ++ [.ok 0], b.abort, b.total⟩, ?_, ?_, ?_, ?_⟩
    · unfold drain
      simp only [List.range'_succ, List.map_cons]
      rw [if_neg (by omega), hab]
      simp only [Option.isSome_none, Bool.false_eq_true, if_false, hs]
      unfold drain
      rw [hab]
      rfl
    · exact hab
    · intro r hr
      rcases List.mem_append.mp hr with hr | hr
      · exact hres r hr
      · simpa using hr
    · refine ⟨p, ?_⟩
      rw [happ] at hp
      simpa using hp
  | n + 1, i, b, hi, h1, hab, htot, hg, hkw, hps, hres => by
    have hlt : ∀ k ∈ (List.range i).map src31, k < src31 i := by
      intro k hk
      obtain ⟨j, hj, rfl⟩ := List.mem_map.mp hk
      exact src31_lt (by omega) (List.mem_range.mp hj)
    have happ : (List.range i).map src31 ++ [src31 i] = (List.range (i + 1)).map src31 := by
      rw [List.range_succ, List.map_append]; rfl
    obtain ⟨u, w', hrun, hg', hkw', hps'⟩ := (upsert_last (by rw [src31_size i (by omega)]; split <;> omega) hlt hg).1 (by
      rw [happ, hps, trackLeaf_size31 _ (i + 1) (by omega) _ rfl]; exact sum31_le _ (by omega))
    have hs := stepJob_31 hrun
    rw [happ] at hg'
    obtain ⟨b', g1, g2, g3, g4⟩ := grow31 n (i + 1) ⟨{ b.w with wr := w' }, b.responders ++ [i], b.results ++ [.ok 0], b.abort, b.total⟩
      (by omega) (by omega) hab htot hg' (hkw'.trans hkw) (hps'.trans hps) (by
        intro r hr
        rcases List.mem_append.mp hr with hr | hr
        · exact hres r hr
        · simpa using hr)
    refine ⟨b', ?_, g2, g3, g4⟩
    unfold drain
    rw [List.range'_succ]
    simp only [List.map_cons]
    rw [if_neg (by omega), hab]
    simp only [Option.isSome_none, Bool.false_eq_true, if_false, hs]
    exact g1

theorem overfull31 : ¬ pageSizeOf 16 (.trackLeaf (((List.range 31).map src31).drop 15) ((((List.range 31).map src31).map fun _ => 1).drop 15)) ≤
    exConf.g.pageSize := by decide +kernel

/-- Pages of the free list are of its own kinds. -/
theorem free_kinds {kw ps : Nat} {hps : 1024 ≤ ps} {root : Nat} {P : Multiset (Nat × Node)} {es : List FreeEnt} (h : FreeTree kw ps hps root P es) :
    ∀ x ∈ P, splitByCount x.2 = false := by
  have htsn : ∀ {root P l}, TsnRep kw ps hps root P l → ∀ x ∈ P, splitByCount x.2 = false := by
    rintro root P l ⟨K, hK, rfl, rfl, -, -⟩
    refine tr_pages (G := fun n => splitByCount n = false) (I := fun _ => True) (J := fun _ => True) ?_ ?_ hK (fun _ _ => trivial) fun _ _ => trivial
    · intros; rfl
    · rintro k ⟨l, -, hk, -⟩ - - x hx
      have hpg : k.pg = {(k.id, .tsnLeaf l)} := by rw [hk]; rfl
      rw [hpg, Multiset.mem_singleton] at hx
      subst hx; rfl
  rcases h with ⟨K, hK, rfl, rfl, rfl, hst⟩ | ⟨rfl, rfl⟩
  · refine tr_pages (G := fun n => splitByCount n = false) (I := fun _ => True) (J := fun _ => True) ?_ ?_ hK (fun _ _ => trivial) fun _ _ => trivial
    · intros; rfl
    · rintro k ⟨es, -, hk, hok, hsz⟩ - - x hx
      have hpg : k.pg = {(k.id, frNode es)} + frPg es := by rw [hk]; rfl
      rw [hpg] at hx
      rcases Multiset.mem_add.mp hx with hx | hx
      · rw [Multiset.mem_singleton] at hx
        subst hx; rfl
      · obtain ⟨e, he, hx⟩ := mem_map_sum hx
        rcases hok e he with ⟨-, -, h2, -⟩ | ⟨-, -, h2⟩
        · rw [h2] at hx; simp at hx
        · exact htsn h2 x hx
  · intro x hx
    rw [Multiset.mem_singleton] at hx
    subst hx; rfl

open Classical in
/-- With an overfull page the commit fails, whatever the disk does. -/
theorem commit_overfull {env : Env} {s : Spec.Db} (hc : ConfOk c kw) (hH : ∀ t, Codec.NormalizedTo kw (env.H t)) (he : EnvOk env) {d : PDb}
    (hd : (pageLawful hc hH).RepD d s) {max vis : Nat} {j : Job} {q q' : List Msg} {b : Batch PW} (ha : AfterOkAll (.append j :: q))
    (hB : Builds (pageBackend c) env max vis d j q b q') (hab : b.abort = none) {p : Nat} {n : Node} (hnode : b.w.wr.dirty.get p = some n)
    (hsp : splitByCount n = true) (hover : c.g.pageSize < pageSizeOf kw n) (io : Page.IO) : ∃ e d', PW.commit c io b.w = (.error e, d') := by
  obtain ⟨js, -, -, hBI⟩ := hB.binv he (pageLawful hc hH) hd ha
  have hT : Tx c hc env.H b.w s _ := (hBI.good hab).1
  obtain ⟨h, PE, PT, PK, PF, ix, F, L, S, PE', PT', PK', PF', ix', T⟩ := hT
  obtain ⟨u, w', hrun, P', N, hS⟩ := processFreed_spec io.ordLaw T.inv
  have hown := hS.inv.own
  have hpd : p ∈ b.w.wr.dirty.ids := Pages.mem_ids.mpr ⟨n, hnode⟩
  obtain ⟨n', hn'⟩ := mem_ids.mp (T.inv.own.dirtyIn p hpd)
  have := T.inv.own.dirty_eq hn' ⟨n, hnode⟩
  rw [hnode] at this
  cases this
  have hin : (p, n) ∈ PE' + PT' + PK' := by
    rcases Multiset.mem_add.mp hn' with h | h
    · obtain ⟨es, hes, -⟩ := T.inv.rep
      have := free_kinds hes _ h
      rw [hsp] at this
      cases this
    · exact h
  have hd' : p ∈ w'.dirty.ids := by
    rcases hown.clean p (mem_ids_of (Multiset.mem_add.mpr (.inr hin))) with h | h
    · exact h
    · exact absurd (T.inv.own.mayDirty p hpd) h
  have hget := hown.dirty_eq (Multiset.mem_add.mpr (.inr hin)) (Pages.mem_ids.mp hd')
  have hcom : PW.commit c io b.w = commitPages c io b.w.hp w' { b.w.db with oldest := io.oldest } := by
    unfold PW.commit
    simp only [hrun]
  rw [hcom]
  cases hres : commitPages c io b.w.hp w' { b.w.db with oldest := io.oldest } with
  | mk r d' =>
    cases r with
    | error e => exact ⟨e, d', rfl⟩
    | ok u =>
      have hfit := commitPages_fits hc (hS.inv.wkw) hres (p, n) ((Pages.get_mem hown.dirtyNodup).mp hget) hsp
      exact absurd hfit (by show ¬ pageSizeOf kw n ≤ _; omega)

open Classical in
/-- C27 fails for tracking pages: thirty-one requests, each recording position 1 for a new source, are served in one batch.
Every one is accepted with `Ok`, but the commit fails whatever the disk does, because the page with the sixteen longest
sources (4156 bytes) is larger than the page size (4096). -/
theorem C27_tracking_leaf_false : ∃ (d : PDb) (b : Batch PW), (pageLawful exConf_ok exConstEnv_width).RepD d Spec.Db.empty ∧
    Builds (pageBackend exConf) exConstEnv 2048 30 d (job31 0) (((List.range' 1 30).map job31).map .append) b [] ∧
    b.abort = none ∧ (∀ r ∈ b.results, r = .ok 0) ∧ ∀ io : Page.IO, ∃ e d', PW.commit exConf io b.w = (.error e, d') := by
  obtain ⟨m, f, hcr, h2, -, -, h5⟩ := Props.C47_create (g := exConf.g) ⟨by decide, by decide⟩ false
  obtain ⟨m', f', hcr', hl⟩ := create_live exConf_ok exConstEnv.H
  rw [show create exConf.g exConf.zeroFill emptyFile = (.ok m, f) from hcr] at hcr'
  cases hcr'
  have hd : (pageLawful exConf_ok exConstEnv_width).RepD (.fresh f m f [] none) Spec.Db.empty := hl none
  obtain ⟨w, hb, hreused, T⟩ := (live_initial exConf_ok exConstEnv.H h2 h5 f [] none).begin
  have hroot : w.trackRoot = 0 := by
    rcases T.trees.track with ⟨h, -⟩ | ⟨K, hK, -, hpg, -⟩
    · exact h
    · obtain ⟨n, hn, -⟩ := hK.tr.root
      rw [← hpg] at hn
      simp at hn
  obtain ⟨u, w1, hrun, hg, hkw, hps⟩ : Run (Page.trackUpsert (src31 0) 1) w fun _ w' => Grown31 w' ((List.range 1).map src31) ∧
      w'.kw = 16 ∧ w'.pageSize = 4096 := by
    refine Run.of_eq (m := trackNew (src31 0) 1) (by
      unfold Page.trackUpsert; rw [if_neg (by rw [src31_size 0 (by omega)]; decide), if_pos hroot]) ?_
    unfold trackNew
    refine (newPage_spec _ T.inv.own).andThen ?_
    rintro p w1 ⟨h1, k1, hd1⟩
    refine .modW ⟨⟨_, _, _, ?_, h1.setRoots _ _ _, hd1⟩, k1.step.kw.trans T.inv.wkw, k1.step.pageSize.trans T.inv.wps⟩
    have := (h1.lt (p := p) (by simp)).1
    show p ≠ 0
    omega
  have hs := stepJob_31 (b := Batch.new ⟨.fresh f m f [] none, ⟨0, .header initialHeader⟩, w⟩) hrun
  obtain ⟨b, g1, g2, g3, p, g4⟩ := grow31 29 1
    ⟨⟨.fresh f m f [] none, ⟨0, .header initialHeader⟩, w1⟩, [0], [.ok 0], none, 0⟩ rfl (Nat.le_refl _) rfl rfl hg hkw hps (by simp)
  have hB : Builds (pageBackend exConf) exConstEnv 2048 30 (.fresh f m f [] none) (job31 0) (((List.range' 1 30).map job31).map .append) b [] :=
    ⟨_, _, hb, hs, g1⟩
  refine ⟨_, b, hd, hB, g2, g3, fun io => ?_⟩
  have ha : AfterOkAll (.append (job31 0) :: ((List.range' 1 30).map job31).map .append) := by
    intro j hj cc hcc
    have : ∀ j ∈ appendJobs (.append (job31 0) :: ((List.range' 1 30).map job31).map .append), j.req.condition = none := by
      decide +kernel
    rw [this j hj] at hcc
    cases hcc
  exact commit_overfull exConf_ok exConstEnv_width ⟨fun l => List.Perm.refl l⟩ hd ha hB g2 g4 rfl (by
    have := overfull31; omega) io

end Overfull

end Uma.Props
