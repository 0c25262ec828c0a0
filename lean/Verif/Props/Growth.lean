import Verif.Page.Thrift
import Verif.Props.FailedHeader

/-!
# When the file gets larger: C79

A transaction takes pages from the free list before it takes new ones at the end of the file, and all the way through:
while events, tags and tracking positions are stored and while the free list itself is brought up to date.
-/

namespace Uma.Props
open Uma.Spec Uma.Db Uma.Page Uma.Mvcc Uma.Codec

variable {c : Conf} {kw : Nat}

/-- From the database `d` with header `h` to `d'` with header `h'`: the file got larger only if no page is left that could
have been used instead.  What is free afterwards was given up by this very commit, or is needed by a reader. -/
def GrewLast (c : Conf) (d : PDb) (h : Header) (d' : PDb) (h' : Header) : Prop :=
  h.nextPage ≤ h'.nextPage ∧
  (h.nextPage < h'.nextPage → ∀ p t, (p, t) ∈ freePages c d' h' → t = h'.tsn ∨ ∃ r ∈ d.oldest, r < t)

theorem keeps_spends (w0 : Writer) (d : PDb) : Keeps (pageBackend c) fun w : PW => w.db = d ∧ Spends w0 w.wr where
  issue _ h := ⟨h.1, h.2.trans (.of_eq rfl rfl)⟩
  tagInsert t p w h := ⟨h.1, h.2.trans (Thrifty.tagsInsert c.bs t p w.wr)⟩
  eventAppend _ v p w h := ⟨h.1, h.2.trans (Thrifty.evAppend v p w.wr)⟩
  trackUpsert s p w h := ⟨h.1, h.2.trans (Thrifty.trackUpsert s p w.wr)⟩

/-- The transaction as it begins has the page limit of the header. -/
theorem begun_limit {d : PDb} {w : PW} (hw : d.writer c = .ok w) : ∃ h, d.header = .ok h ∧ w.wr.nextPage = h.nextPage ∧ w.db = d := by
  unfold PDb.writer at hw
  unfold PDb.header
  cases hl : latestPage d.m.h0 d.m.h1 with
  | error e => rw [hl] at hw; cases hw
  | ok p =>
    rw [hl] at hw
    simp only [bind, Except.bind] at hw ⊢
    cases ha : asHeader p.node with
    | error e => rw [ha] at hw; cases hw
    | ok h =>
      rw [ha] at hw
      simp only at hw
      split at hw
      · cases hw
      · next w' hf =>
        cases hw
        obtain ⟨-, ds, r, e⟩ := findReusable_frame hf []
        exact ⟨h, rfl, by rw [e]; rfl, rfl⟩

theorem commit_grew {H : String → TagHash} (hc : ConfOk c kw) {d d' : PDb} {w0 w : PW} {s s' : Spec.Db} (hb : d.writer c = .ok w0)
    (hs : Spends w0.wr w.wr) (hdb : w.db = d) (ht : Tx c hc H w s (Abs.of H s')) {io : Page.IO} (hcom : PW.commit c io w = (.ok (), d')) :
    ∃ h h', d.header = .ok h ∧ d'.header = .ok h' ∧ GrewLast c d h d' h' := by
  classical
  obtain ⟨h, PE, PT, PK, PF, ix, F, L, S, PE', PT', PK', PF', ix', T⟩ := ht
  obtain ⟨h0, hh, hlim, -⟩ := begun_limit hb
  rcases w with ⟨d0, hp, w⟩
  simp only at hdb L S T hs
  subst hdb
  rw [L.header_eq] at hh; cases hh
  obtain ⟨u, w', hrun, PF'', N, R⟩ := T.ready io.ordLaw
  have hsp : Spends w0.wr w' := hs.trans (by have := Thrifty.processFreed io.ord w; rwa [hrun] at this)
  have L1 : LiveAt c hc H { d0 with oldest := io.oldest } hp h PE PT PK PF ix F s := L.recache (fun _ _ h => .inl h) _
  have S1 : SafeAt c kw { d0 with oldest := io.oldest } hp h (PF + (PE + PT + PK)) := ⟨S.1, S.2, S.3, S.4, S.5, S.6, S.7, S.8⟩
  have e : PW.commit c io ⟨d0, hp, w⟩ = commitPages c io hp w' { d0 with oldest := io.oldest } := by
    unfold PW.commit
    simp only [hrun]
  rw [e] at hcom
  rcases commitPages_spec (R.again io.oldest) L1 S1 io with ⟨d2, hp', h1, L', -⟩ | ⟨e, d2, h1, -⟩
  · rw [hcom] at h1; cases h1
    refine ⟨h, _, L.header_eq, L'.header_eq, hlim ▸ hsp.grows, fun hlt p t hpt => ?_⟩
    have hr : w'.reusable = [] := hsp.spent (hlim ▸ hlt)
    have hF' : (p, t) ∈ newFree w' N F d0.oldest := by rw [← LiveAt.free_eq L']; exact hpt
    unfold newFree at hF'
    rw [hr] at hF'
    simp only [Multiset.coe_nil, zero_add, Multiset.mem_add, Multiset.mem_map, Multiset.mem_filter] at hF'
    rcases hF' with ⟨q, -, hq⟩ | ⟨-, hq⟩
    · cases hq; exact .inl rfl
    · refine .inr ?_
      cases ho : d0.oldest with
      | none => rw [ho] at hq; exact absurd rfl hq
      | some r => rw [ho] at hq; exact ⟨r, rfl, by simpa [oldEnough] using hq⟩
  · rw [hcom] at h1; cases h1

/-- C79: a batch of the writer thread makes the file larger only if all pages that could be used again are used: every page free
afterwards was given up by this very commit or is younger than the oldest reader. -/
theorem C79_batch {env : Env} (he : EnvOk env) (hc : ConfOk c kw) (hH : ∀ t, Codec.NormalizedTo kw (env.H t)) {d d' : PDb}
    {s : Spec.Db} (hd : (pageLawful hc hH).RepD d s) {max vis : Nat} {j : Job} {q q' : List Msg} {b : Batch PW}
    (ha : AfterOkAll (.append j :: q)) (hb : Builds (pageBackend c) env max vis d j q b q') (hab : b.abort = none) {io : Page.IO}
    (hcom : PW.commit c io b.w = (.ok (), d')) :
    ∃ h h', d.header = .ok h ∧ d'.header = .ok h' ∧ GrewLast c d h d' h' := by
  classical
  obtain ⟨js, -, -, hbi⟩ := hb.binv he (pageLawful hc hH) hd ha
  obtain ⟨w, b1, h1, h2, h3⟩ := hb
  have h1 : d.writer c = .ok w := h1
  obtain ⟨h, hh, -, hwd⟩ := begun_limit h1
  have hk := (keeps_spends (c := c) w.wr d).drain h3 ((keeps_spends (c := c) w.wr d).stepJob h2 ⟨hwd, .refl _⟩)
  exact commit_grew hc h1 hk.2 hk.1 (hbi.good hab).1 hcom

open Classical in
/-- C79, for a direct append. -/
theorem C79_direct {env : Env} (he : EnvOk env) (hc : ConfOk c kw) (hH : ∀ t, Codec.NormalizedTo kw (env.H t)) {d d' : PDb}
    {s : Spec.Db} (hd : (pageLawful hc hH).RepD d s) {req : Request} (ha : AfterOk req) (hne : req.events ≠ []) {io : Page.IO} {p : Nat}
    (hap : Db.append (pageBackend c) env req io d = (.ok p, d')) :
    ∃ h h', d.header = .ok h ∧ d'.header = .ok h' ∧ GrewLast c d h d' h' := by
  unfold Db.append at hap
  rw [if_neg hne] at hap
  rcases (pageLawful hc hH).begin hd with ⟨w, hb, hw⟩ | ⟨e, hb, -⟩
  · rw [hb] at hap
    simp only at hap
    have hb : d.writer c = .ok w := hb
    obtain ⟨h, hh, -, hwd⟩ := begun_limit hb
    have hk := (keeps_spends (c := c) w.wr d).processAppend env req (fun _ => Cancel.never) w ⟨hwd, .refl _⟩
    rcases (pageLawful hc hH).toWorkable.processAppend_spec he hw ha (fun _ _ => trivial) (fun _ => Cancel.never) with
      ⟨_, r, w', h', hs, hr, hun⟩ | ⟨e, w', h', -⟩ | ⟨hp, -⟩
    · rw [h'] at hap hk
      cases r with
      | error e => cases hap
      | ok x =>
        simp only at hap
        cases hcm : (pageBackend c).commit io w' with
        | mk r d2 =>
          rw [hcm] at hap
          cases r with
          | error e => cases hap
          | ok u => cases hap; exact commit_grew hc hb hk.2 hk.1 hr hcm
    · rw [h'] at hap; cases hap
    · exact absurd hp.1 hne
  · rw [hb] at hap; cases hap

/-- C79, the other way round: while a page that could be used again stays in the free list, the file does not get larger. -/
theorem C79_while_free {env : Env} (he : EnvOk env) (hc : ConfOk c kw) (hH : ∀ t, Codec.NormalizedTo kw (env.H t)) {d d' : PDb}
    {s : Spec.Db} (hd : (pageLawful hc hH).RepD d s) {max vis : Nat} {j : Job} {q q' : List Msg} {b : Batch PW}
    (ha : AfterOkAll (.append j :: q)) (hb : Builds (pageBackend c) env max vis d j q b q') (hab : b.abort = none) {io : Page.IO}
    (hcom : PW.commit c io b.w = (.ok (), d')) {h h' : Header} (hh : d.header = .ok h) (hh' : d'.header = .ok h') {p t : Nat}
    (hp : (p, t) ∈ freePages c d h) (ho : ∀ r ∈ d.oldest, t ≤ r) (hp' : (p, t) ∈ freePages c d' h') : h'.nextPage = h.nextPage := by
  obtain ⟨h1, h1', k1, k2, hle, hg⟩ := C79_batch he hc hH hd ha hb hab hcom
  obtain ⟨h2, h2', l1, l2, htsn, -⟩ := C44_commit he hc hH hd ha hb hab hcom
  rw [hh] at k1 l1; cases k1; cases l1
  rw [hh'] at k2 l2; cases k2; cases l2
  by_contra hne
  have hlt : h.nextPage < h'.nextPage := by omega
  rcases hg hlt p t hp' with ht | ⟨r, hr, hrt⟩
  · obtain ⟨hpg, h0, PE, PT, PK, PF, ix, F, L, S⟩ := hd
    rw [L.header_eq] at hh; cases hh
    have := L.freeLe (p, t) (by rw [← LiveAt.free_eq L]; exact hp)
    simp only at this; omega
  · have := ho r hr; omega

/-! ## Examples -/

section Examples

/-- One event. -/
def exOneMore : Job := ⟨2, ⟨[exEv 3], none, none⟩, noCancel⟩

/-- Page limits after two batches, and what the second left unused. -/
noncomputable def exTwoSizes (d1 d2 : PDb) (hp1 hp2 : HPage) (b1 b2 : Nat → Option Node) : Bool :=
  match exStep (exW b1) d1 hp1 ⟨1, exReq, noCancel⟩ with
  | none => false
  | some w1 =>
    match exStep (exNext w1 b2) d2 hp2 exOneMore with
    | some w2 => exFits w1 && exFits w2 && w1.dirty.all (fun x => decide (2 ≤ x.1)) && decide (w1.nextPage = 9) && decide (w2.nextPage = 9)
    | none => false

theorem exTwoSizes_true (d1 d2 : PDb) (hp1 hp2 : HPage) (b1 b2 : Nat → Option Node) : exTwoSizes d1 d2 hp1 hp2 b1 b2 = true := by
  run_tac do
    let g ← Lean.Elab.Tactic.getMainGoal
    let some (_, l, _) := (← g.getType).eq? | failure
    g.assign (← Lean.Meta.mkEqRefl l)

theorem exTwoSizes_steps (d1 : PDb) (hp1 : HPage) (b1 : Nat → Option Node) : ∃ w1, exStep (exW b1) d1 hp1 ⟨1, exReq, noCancel⟩ = some w1 ∧
    exFits w1 = true ∧ (∀ x ∈ w1.dirty, 2 ≤ x.1) ∧ w1.nextPage = 9 ∧ ∀ d2 hp2 b2, ∃ w2, exStep (exNext w1 b2) d2 hp2 exOneMore = some w2 ∧
    exFits w2 = true ∧ w2.nextPage = 9 := by
  have key : ∀ d2 hp2 b2, exTwoSizes d1 d2 hp1 hp2 b1 b2 = true := fun d2 hp2 b2 => exTwoSizes_true d1 d2 hp1 hp2 b1 b2
  unfold exTwoSizes at key
  cases h1 : exStep (exW b1) d1 hp1 ⟨1, exReq, noCancel⟩ with
  | none =>
    have := key d1 hp1 b1
    rw [h1] at this; cases this
  | some w1 =>
    simp only [h1] at key
    have key2 : ∀ d2 hp2 b2, ∃ w2, exStep (exNext w1 b2) d2 hp2 exOneMore = some w2 ∧ exFits w1 = true ∧ exFits w2 = true ∧
        (∀ x ∈ w1.dirty, 2 ≤ x.1) ∧ w1.nextPage = 9 ∧ w2.nextPage = 9 := by
      intro d2 hp2 b2
      have h := key d2 hp2 b2
      split at h
      · next w2 e2 =>
        simp only [Bool.and_eq_true, decide_eq_true_eq, List.all_eq_true] at h
        exact ⟨w2, e2, h.1.1.1.1, h.1.1.1.2, h.1.1.2, h.1.2, h.2⟩
      · cases h
    obtain ⟨w2, -, k1, -, k3, k4, -⟩ := key2 d1 hp1 b1
    refine ⟨w1, rfl, k1, k3, k4, fun d2 hp2 b2 => ?_⟩
    obtain ⟨w2, e2, -, k2, -, -, k5⟩ := key2 d2 hp2 b2
    exact ⟨w2, e2, k2, k5⟩

open Classical in
/-- C79: a new database has five pages.  The first batch finds nothing free and takes four more; what it leaves free it gave up
itself.  The second batch needs as many, finds them in the free list, and takes none. -/
example : ∃ (d dA dB : PDb) (b1 b2 : Batch PW) (h hA hB : Header), (pageLawful exConf_ok exConstEnv_width).RepD d Spec.Db.empty ∧
    Builds (pageBackend exConf) exConstEnv 2048 9 d ⟨1, exReq, noCancel⟩ [] b1 [] ∧ PW.commit exConf exIO b1.w = (.ok (), dA) ∧
    Builds (pageBackend exConf) exConstEnv 2048 9 dA exOneMore [] b2 [] ∧ PW.commit exConf exIO b2.w = (.ok (), dB) ∧
    d.header = .ok h ∧ dA.header = .ok hA ∧ dB.header = .ok hB ∧ h.nextPage = 5 ∧ hA.nextPage = 9 ∧ hB.nextPage = 9 ∧
    (∀ p t, (p, t) ∈ freePages exConf dA hA → t = hA.tsn) ∧ GrewLast exConf dA hA dB hB := by
  have he : EnvOk exConstEnv := ⟨fun l => List.Perm.refl l⟩
  obtain ⟨m, f, hcr, h2, -, -, h5⟩ := Props.C47_create (g := exConf.g) ⟨by decide, by decide⟩ false
  have hd0 : (pageLawful exConf_ok exConstEnv_width).RepD (.fresh f m f [] none) Spec.Db.empty := by
    obtain ⟨m', f', hcr', hl⟩ := create_live exConf_ok exConstEnv.H
    rw [show create exConf.g exConf.zeroFill emptyFile = (.ok m, f) from hcr] at hcr'
    cases hcr'
    exact hl none
  have hL := live_initial exConf_ok exConstEnv.H h2 h5 f [] none
  obtain ⟨d, hd⟩ : ∃ d, d = PDb.fresh f m f [] none := ⟨_, rfl⟩
  rw [← hd] at hd0 hL
  have hold : d.oldest = none := by rw [hd]; rfl
  have hbase : d.base exConf = exBase (d.base exConf) := by
    funext p
    have hs := hL.sees
    unfold exBase
    split
    · exact hs 2 _ (by simp)
    · exact hs 3 _ (by simp)
    · exact hs 4 _ (by simp)
    · rfl
  have hnew : newWriter exConf d initialHeader = exW (d.base exConf) := by
    unfold newWriter exW
    rw [hL.width, ← hbase]
    rfl
  obtain ⟨w1, e1, fit1, two1, nine1, rest⟩ := exTwoSizes_steps d ⟨0, .header initialHeader⟩ (d.base exConf)
  rw [← hnew] at e1
  obtain ⟨b1, dA, hB1, hdb1, hhp1, hrun1, hab1, hsays1, hcom1, hA, hAd, hT1⟩ := exStep_commits hd0
    ⟨fun r hr => (by cases hr), fun s p hp => (by cases hp)⟩ hL.latest rfl hold e1 fit1 exReq_after exReq_machine (fun _ _ => rfl)
  rw [exAppended] at hA
  obtain ⟨g1, -, hg1, -, -, -, -, hlA, hkwA, hcacheA, holdA, -, -⟩ := exCommit_shape hT1 hdb1 hhp1 hL.latest rfl rfl hrun1 hcom1
  have hlA : latestPage dA.m.h0 dA.m.h1 = .ok ⟨1, .header (newHeader w1 1)⟩ := hlA
  have hcache1 : ∀ p n, w1.dirty.get p = some n → dA.cache p = some n := by
    intro p n hp
    rw [hcacheA, cacheAfter, if_pos (show exIO.keep p = true from rfl), hp]
  have hnewA := newWriter_next hkwA (base_over two1 hcache1)
  obtain ⟨w2, e2, fit2, nine2⟩ := rest dA ⟨1, .header (newHeader w1 1)⟩ (dA.base exConf)
  rw [← hnewA] at e2
  obtain ⟨b2, dB, hB2, hdb2, hhp2, hrun2, hab2, hsays2, hcom2, hB, hBd, hT2⟩ := exStep_commits hA exAfter_machine hlA rfl holdA e2 fit2
    (exReq2_ok _ rfl) ⟨by decide, fun t ht => by cases ht⟩ (fun _ _ => rfl)
  obtain ⟨g2, -, -, -, -, -, -, hlB, -, -, -, -, -⟩ := exCommit_shape hT2 hdb2 hhp2 hlA rfl rfl hrun2 hcom2
  have heads : ∀ (x : PDb) (i : Nat) (h : Header), latestPage x.m.h0 x.m.h1 = .ok ⟨i, .header h⟩ → x.header = .ok h := by
    intro x i h hx
    unfold PDb.header
    rw [hx]; rfl
  have k0 := heads d _ _ hL.latest
  have kA := heads dA _ _ hlA
  have kB := heads dB _ _ hlB
  obtain ⟨h, hA', q1, q2, -, q3⟩ := C79_batch he exConf_ok exConstEnv_width hd0 exReq_after hB1 hab1 hcom1
  rw [k0] at q1; cases q1
  rw [kA] at q2; cases q2
  obtain ⟨h, hB', r1, r2, r3⟩ := C79_batch he exConf_ok exConstEnv_width hA (exReq2_ok _ rfl) hB2 hab2 hcom2
  rw [kA] at r1; cases r1
  rw [kB] at r2; cases r2
  refine ⟨d, dA, dB, b1, b2, _, _, _, hd0, hB1, hcom1, hB2, hcom2, k0, kA, kB, rfl, nine1, nine2, fun p t hp => ?_, r3⟩
  rcases q3 (by show 5 < w1.nextPage; omega) p t hp with h | ⟨r, hr, -⟩
  · exact h
  · rw [hold] at hr; cases hr

/-- What each operation does: two pages are to be reused, so the third new page is the first at the end of the file. -/
example : let w : Writer := { exW (fun _ => none) with reusable := [(10, 1), (12, 1)], nextPage := 20 }
    let w1 := (allocPage w).2
    let w2 := (allocPage w1).2
    (w1.reusable, w1.nextPage) = ([(12, 1)], 20) ∧ (w2.reusable, w2.nextPage) = ([], 20) ∧ (allocPage w2).2.nextPage = 21 := by
  decide

end Examples

end Uma.Props
