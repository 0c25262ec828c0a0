import Verif.Page.Threads
import Verif.Props.Pipeline

/-!
C65 for the library interface: what several threads that append to one `UmaDb` get.

Nothing keeps a second call out of its transaction while a first is within its own (`Mvcc::writer` takes no lock).  Where calls happen
not to overlap, answers and contents are those of the requests one after the other in the order of return (`C65_threads_partial`).
Where they overlap, of all calls that are told they succeeded only what the last to commit wrote is there (`C65_lost`), and answers
are none that requests one after the other in any order could get (`C65_threads_false`).
-/

namespace Uma.Props
open Uma.Codec Uma.Mvcc Uma.Spec Uma.Db Uma.Page

variable {c : Conf} {kw : Nat} {env : Env}

theorem writer_db {d : PDb} {w : PW} (h : PDb.writer c d = .ok w) : w.db = d := by
  unfold PDb.writer at h
  simp only [bind, Except.bind] at h
  split at h
  · cases h
  split at h
  · cases h
  split at h
  · cases h
  · cases h; rfl

open Classical in
/-- A transaction of `UmaDb::append`, up to its commit. -/
theorem process_tx (he : EnvOk env) (hc : ConfOk c kw) (hH : ∀ t, NormalizedTo kw (env.H t)) {d : PDb} {s : Spec.Db}
    (hd : Live c hc env.H d s) {req : Request} (ha : AfterOk req) (hne : req.events ≠ []) {w w' : PW} {r : Except Err Nat}
    (hw : PDb.writer c d = .ok w) (hp : processAppend (pageBackend c) env req (fun _ => Cancel.never) w = (r, w')) :
    Says r (Spec.append (Accepted c.g.pageSize) s req).1 ∧ w'.db = d ∧
    Tx c hc env.H w' s (Abs.of env.H (Spec.append (Accepted c.g.pageSize) s req).2) ∧
    ((Spec.append (Accepted c.g.pageSize) s req).2 = s ∨ ∃ p, r = .ok p) := by
  have hK : w'.db = d := by
    have K : Keeps (pageBackend c) fun w : PW => w.db = d := ⟨fun _ h => h, fun _ _ _ h => h, fun _ _ _ _ h => h, fun _ _ _ h => h⟩
    have := K.processAppend env req (fun _ => Cancel.never) w (writer_db hw)
    rw [hp] at this; exact this
  have hd : (pageLawful hc hH).RepD d s := hd
  rcases (pageLawful hc hH).begin hd with ⟨w0, hb, hr⟩ | ⟨e, -, hf⟩
  swap
  · exact hf.elim
  have hb : PDb.writer c d = .ok w0 := hb
  rw [hw] at hb; cases hb
  rcases processAppend_spec he (pageLawful hc hH) hr ha (fun _ => Cancel.never) with
    ⟨_, r', w2, h, hs, hr, hun⟩ | ⟨e, w2, h, -, hf | ⟨-, i, j, hf⟩⟩ | ⟨hp, -⟩
  · rw [hp] at h; cases h
    exact ⟨hs, hK, hr, hun⟩
  · exact hf.elim
  · cases hf
  · exact absurd hp.1 hne

open Classical in
/-- C65, where calls overlap: any number of calls began their transactions on the same database and all their commits succeed.
Each is answered as if it were the only one, and the database is that with the request of the last to commit and none of the others. -/
theorem C65_lost (he : EnvOk env) (hc : ConfOk c kw) (hH : ∀ t, NormalizedTo kw (env.H t)) {d : PDb} {s : Spec.Db}
    (hd : Live c hc env.H d s) (xs : List (Request × Nat × PW)) (hx : ∀ x ∈ xs, Computed c env d x.1 x.2.1 x.2.2) {d' : PDb}
    (h : InTurn c d (xs.map (·.2.2)) d') :
    (∀ x ∈ xs, (Spec.append (Accepted c.g.pageSize) s x.1).1 = .ok x.2.1) ∧
    ∀ x, xs.getLast? = some x → Live c hc env.H d' (Spec.append (Accepted c.g.pageSize) s x.1).2 := by
  refine ⟨fun x hxs => ?_, ?_⟩
  · obtain ⟨w0, h1, h2⟩ := (hx x hxs).run
    have := (process_tx he hc hH hd (hx x hxs).after (hx x hxs).some h1 h2).1
    generalize (Spec.append (Accepted c.g.pageSize) s x.1).1 = o at this ⊢
    cases o with
    | ok p => have hp : x.2.1 = p := this; rw [hp]
    | _ => exact this.elim
  obtain ⟨hp, hh, PE, PT, PK, PF, ix, F, L, S⟩ := id hd
  suffices ∀ d1, Over c hc env.H d hp hh PE PT PK PF ix F s d1 → InTurn c d1 (xs.map (·.2.2)) d' →
      ∀ x, xs.getLast? = some x → Live c hc env.H d' (Spec.append (Accepted c.g.pageSize) s x.1).2 from this d (.refl L S) h
  clear h
  induction xs with
  | nil => intro _ _ _ x hx; cases hx
  | cons y ys ih =>
    intro d1 O h x hlast
    simp only [List.map_cons] at h
    cases h with
    | @cons _ d2 _ _ _ io hcom hrest =>
    have hy := hx y List.mem_cons_self
    obtain ⟨w0, h1, h2⟩ := hy.run
    obtain ⟨-, hdb, ⟨h', PE1, PT1, PK1, PF1, ix1, F1, L1, -, PE', PT', PK', PF', ix', T⟩, -⟩ :=
      process_tx he hc hH hd hy.after hy.some h1 h2
    rw [hdb] at L1 T
    obtain ⟨e1, e2, e3, -⟩ := L.unique L1
    rw [e2, e3] at T
    have hcom : PW.commit c io ⟨d1, hp, y.2.2.wr⟩ = (.ok (), d2) := by rw [← e1]; exact hcom
    obtain ⟨g1, g2⟩ := O.commit L T hcom
    cases ys with
    | nil =>
      simp only [List.getLast?_singleton, Option.some.injEq] at hlast
      subst hlast
      cases hrest
      exact g1
    | cons z zs =>
      exact ih (fun x hxs => hx x (List.mem_cons_of_mem _ hxs)) d2 g2 hrest x (by rw [← hlast, List.getLast?_cons_cons])

/-! ## Calls that do not overlap -/

open Classical in
/-- Requests that were not answered by a failure, with their answers, in the order of return. -/
noncomputable def served (done : List (Request × Except Err Nat)) : List (Request × Except Err Nat) := done.filter fun x => ¬ Failure x.2

theorem served_failure {done : List (Request × Except Err Nat)} {req : Request} {a : Except Err Nat} (h : Failure a) :
    served (done ++ [(req, a)]) = served done := by
  unfold served
  rw [List.filter_append]
  simp [h]

theorem served_says {done : List (Request × Except Err Nat)} {req : Request} {a : Except Err Nat} (h : ¬ Failure a) :
    served (done ++ [(req, a)]) = served done ++ [(req, a)] := by
  unfold served
  rw [List.filter_append]
  simp [h]

open Classical in
/-- Answers so far are those of the requests one after the other, `s'` is what they leave. -/
def Serial (valid : Record → Prop) (s : Spec.Db) (done : List (Request × Except Err Nat)) (s' : Spec.Db) : Prop :=
  SaysAll ((served done).map (·.2)) (appendAll valid s ((served done).map (·.1))).1 ∧
  (appendAll valid s ((served done).map (·.1))).2 = s'

open Classical in
theorem Serial.says {valid : Record → Prop} {s s' : Spec.Db} {done : List (Request × Except Err Nat)} (h : Serial valid s done s')
    {req : Request} {a : Except Err Nat} (ha : Says a (Spec.append valid s' req).1) :
    Serial valid s (done ++ [(req, a)]) (Spec.append valid s' req).2 := by
  unfold Serial
  rw [served_says (says_kept ha), List.map_append, List.map_append, appendAll_append, h.2]
  refine ⟨saysAll_append h.1 ?_, ?_⟩
  · simp only [List.map_cons, List.map_nil, appendAll]
    exact ⟨ha, trivial⟩
  · simp only [List.map_cons, List.map_nil, appendAll]

theorem Serial.failure {valid : Record → Prop} {s s' : Spec.Db} {done : List (Request × Except Err Nat)} (h : Serial valid s done s')
    {req : Request} {a : Except Err Nat} (ha : Failure a) : Serial valid s (done ++ [(req, a)]) s' := by
  unfold Serial
  rw [served_failure ha]
  exact h

open Classical in
structure TInv (c : Conf) {kw : Nat} (hc : ConfOk c kw) (env : Env) (s : Spec.Db) (σ : TSys) (s' : Spec.Db) : Prop where
  live : Live c hc env.H σ.d s'
  serial : Serial (Accepted c.g.pageSize) s σ.done s'
  one : σ.calls.countP Call.busy ≤ 1
  asked : ∀ req, Call.called req ∈ σ.calls → AfterOk req ∧ req.events ≠ []
  tx : ∀ req p w, Call.computed req p w ∈ σ.calls → w.db = σ.d ∧ Says (.ok p) (Spec.append (Accepted c.g.pageSize) s' req).1 ∧
    Tx c hc env.H w s' (Abs.of env.H (Spec.append (Accepted c.g.pageSize) s' req).2)

theorem alone_count {l : List Call} (h : Alone l) : l.countP Call.busy = 0 := List.countP_eq_zero.mpr fun x hx => by simp [h x hx]

theorem count_alone {l : List Call} (h : l.countP Call.busy = 0) : Alone l := fun x hx => by simpa using List.countP_eq_zero.mp h x hx

theorem alone_not {l : List Call} (h : Alone l) {req : Request} {p : Nat} {w : PW} : Call.computed req p w ∉ l := fun hm => by
  have := h _ hm; cases this

open Classical in
theorem TInv.step (he : EnvOk env) (hc : ConfOk c kw) (hH : ∀ t, NormalizedTo kw (env.H t)) {s s' : Spec.Db} {σ σ' : TSys}
    (I : TInv c hc env s σ s') (h : TStep c env Alone σ σ') : ∃ s'', TInv c hc env s σ' s'' := by
  cases h with
  | call _ req ha hne =>
    refine ⟨s', I.live, I.serial, ?_, fun req' hm => ?_, fun req' p w hm => ?_⟩
    · rw [List.countP_append]; exact I.one
    · rcases List.mem_append.mp hm with hm | hm
      · exact I.asked req' hm
      · cases List.mem_singleton.mp hm; exact ⟨ha, hne⟩
    · rcases List.mem_append.mp hm with hm | hm
      · exact I.tx req' p w hm
      · cases List.mem_singleton.mp hm
  | @unable d l req l' done e hg hw =>
    exfalso
    rcases (pageLawful hc hH).begin (show (pageLawful hc hH).RepD d s' from I.live) with ⟨w0, hb, -⟩ | ⟨e, -, hf⟩
    · have hb : PDb.writer c d = .ok w0 := hb
      rw [hw] at hb; cases hb
    · exact hf.elim
  | @compute d l req l' done w p w' hg hw hp =>
    obtain ⟨ha, hne⟩ := I.asked req (by simp)
    obtain ⟨h1, h2, h3, -⟩ := process_tx he hc hH I.live ha hne hw hp
    refine ⟨s', I.live, I.serial, ?_, fun req' hm => I.asked req' ?_, fun req' p' w2 hm => ?_⟩
    · have := alone_count hg
      simp only [List.countP_append] at this
      simp only [List.countP_append, List.countP_cons, Call.busy]
      simp only [if_true]; omega
    · simp only [List.mem_append, List.mem_cons, reduceCtorEq, false_or] at hm ⊢
      tauto
    · have : Call.computed req' p' w2 = Call.computed req p w' := by
        have hno := alone_not hg (req := req') (p := p') (w := w2)
        simp only [List.mem_append, not_or] at hno
        simp only [List.mem_append, List.mem_cons] at hm
        tauto
      cases this
      exact ⟨h2, h1, h3⟩
  | @refuse d l req l' done w e w' hg hw hp =>
    obtain ⟨ha, hne⟩ := I.asked req (by simp)
    obtain ⟨h1, h2, h3, h4⟩ := process_tx he hc hH I.live ha hne hw hp
    have hsame : (Spec.append (Accepted c.g.pageSize) s' req).2 = s' := by
      rcases h4 with h4 | ⟨p, h4⟩
      · exact h4
      · cases h4
    refine ⟨s', I.live, hsame ▸ I.serial.says h1, ?_, fun req' hm => I.asked req' ?_, fun req' p' w2 hm => ?_⟩
    · have := alone_count hg
      simp only [List.countP_append, List.countP_cons, Call.busy] at this ⊢
      simp; omega
    · simp only [List.mem_append, List.mem_cons, reduceCtorEq, false_or] at hm ⊢
      tauto
    · exfalso
      have hno := alone_not hg (req := req') (p := p') (w := w2)
      simp only [List.mem_append, not_or] at hno
      simp only [List.mem_append, List.mem_cons, reduceCtorEq, false_or] at hm
      tauto
  | @commit d l req p w l' done io d' hcom =>
    have hal : Alone (l ++ l') := by
      apply count_alone
      have := I.one
      simp only [List.countP_append, List.countP_cons, Call.busy, if_true] at this ⊢
      omega
    obtain ⟨h1, h2, h3⟩ := I.tx req p w (by simp)
    have h1 : w.db = d := h1
    subst h1
    rcases (pageLawful hc hH).commit io (show (pageLawful hc hH).Rep w s' _ from h3) with ⟨d2, k1, k2⟩ | ⟨e, d2, k1, -⟩
    · have k1 : PW.commit c io w = (.ok (), d2) := k1
      rw [show ({ w with db := w.db } : PW) = w from rfl, k1] at hcom
      cases hcom
      refine ⟨_, k2, I.serial.says h2, ?_, fun req' hm => I.asked req' ?_, fun req' p' w2 hm => ?_⟩
      · have := alone_count hal
        simp only [List.countP_append, List.countP_cons, Call.busy] at this ⊢
        simp; omega
      · simp only [List.mem_append, List.mem_cons, reduceCtorEq, false_or] at hm ⊢
        tauto
      · exfalso
        have hno := alone_not hal (req := req') (p := p') (w := w2)
        simp only [List.mem_append, not_or] at hno
        simp only [List.mem_append, List.mem_cons, reduceCtorEq, false_or] at hm
        tauto
    · have k1 : PW.commit c io w = (.error e, d2) := k1
      rw [show ({ w with db := w.db } : PW) = w from rfl, k1] at hcom
      cases hcom
  | @fail d l req p w l' done io e d' hcom =>
    have hal : Alone (l ++ l') := by
      apply count_alone
      have := I.one
      simp only [List.countP_append, List.countP_cons, Call.busy, if_true] at this ⊢
      omega
    obtain ⟨h1, h2, h, PE, PT, PK, PF, ix, F, L, S, PE', PT', PK', PF', ix', T⟩ := I.tx req p w (by simp)
    have h1 : w.db = d := h1
    subst h1
    rcases commit_spec L S T io with ⟨d2, _, _, _, _, k1, -⟩ | ⟨e2, d2, k1, k2, k3, k4, -⟩
    · rw [show ({ w with db := w.db } : PW) = w from rfl] at hcom
      rw [show (⟨w.db, w.hp, w.wr⟩ : PW) = w from rfl, hcom] at k1
      cases k1
    · rw [show ({ w with db := w.db } : PW) = w from rfl] at hcom
      rw [show (⟨w.db, w.hp, w.wr⟩ : PW) = w from rfl, hcom] at k1
      cases k1
      refine ⟨s', ⟨_, _, _, _, _, _, _, _, k3, k4⟩, I.serial.failure (failure_of_fatal k2), ?_, fun req' hm => I.asked req' ?_, fun req' p' w2 hm => ?_⟩
      · have := alone_count hal
        simp only [List.countP_append, List.countP_cons, Call.busy] at this ⊢
        simp; omega
      · simp only [List.mem_append, List.mem_cons, reduceCtorEq, false_or] at hm ⊢
        tauto
      · exfalso
        have hno := alone_not hal (req := req') (p := p') (w := w2)
        simp only [List.mem_append, not_or] at hno
        simp only [List.mem_append, List.mem_cons, reduceCtorEq, false_or] at hm
        tauto

open Classical in
/-- C65 for calls whose transactions do not overlap, whatever else overlaps: the requests not answered by a failure are answered as one
after the other in the order of return, and this is what the database holds.  Missing: transactions that overlap (false,
`C65_threads_false`). -/
theorem C65_threads_partial (he : EnvOk env) (hc : ConfOk c kw) (hH : ∀ t, NormalizedTo kw (env.H t)) {d : PDb} {s : Spec.Db}
    (hd : Live c hc env.H d s) {σ : TSys} (h : Threads c env Alone (.init d) σ) :
    SaysAll ((served σ.done).map (·.2)) (appendAll (Accepted c.g.pageSize) s ((served σ.done).map (·.1))).1 ∧
    Live c hc env.H σ.d (appendAll (Accepted c.g.pageSize) s ((served σ.done).map (·.1))).2 := by
  suffices ∃ s', TInv c hc env s σ s' by
    obtain ⟨s', I⟩ := this
    exact ⟨I.serial.1, by rw [I.serial.2]; exact I.live⟩
  induction h with
  | refl =>
    refine ⟨s, hd, ⟨?_, ?_⟩, Nat.zero_le _, ?_, ?_⟩
    · exact trivial
    · rfl
    · intro _ h; cases h
    · intro _ _ _ h; cases h
  | tail _ hs ih =>
    obtain ⟨s', I⟩ := ih
    exact I.step he hc hH hs

/-! ## Calls that overlap -/

/-- `exReq` without its condition. -/
def exReqU : Request := { exReq with condition := none }

open Classical in
theorem exReqU_first : Spec.append (Accepted exConf.g.pageSize) Spec.Db.empty exReqU = (.ok 2, exAfter) := by
  rw [← exAppended]
  unfold Spec.append
  rfl

open Classical in
theorem exReqU_second : (Spec.append (Accepted exConf.g.pageSize) exAfter exReqU).1 = .refusedIntegrity := by
  have hcase := append_case (valid := Accepted exConf.g.pageSize) exAfter exReqU
  generalize Spec.append (Accepted exConf.g.pageSize) exAfter exReqU = x at hcase
  cases hcase with
  | took _ _ h =>
    have := (h ⟨"up", 9⟩ rfl).2 9 (by decide)
    exact absurd this (by decide)
  | repeated c h1 h2 => cases h1
  | conflict c h1 h2 => cases h1
  | notIncreasing => rfl
  | longSource t _ h1 h2 =>
    have : t = ⟨"up", 9⟩ := (Option.some.inj h1).symm
    subst this
    exact absurd h2 (by decide)
  | invalid _ h =>
    refine absurd (fun r hr => ?_) h
    have : r = ⟨exEv 1, exReq.tracking⟩ ∨ r = ⟨exEv 2, exReq.tracking⟩ := by simpa [recordsOf, exReq, exReqU] using hr
    rcases this with rfl | rfl
    · exact ⟨by decide, ⟨by decide, by decide, by decide⟩, .inl (by decide +kernel)⟩
    · exact ⟨by decide, ⟨by decide, by decide, by decide⟩, .inl (by decide +kernel)⟩

/-- Two calls with the request `exReqU` begin before either commits; both are told that their events are up to position 2. -/
theorem exOverlap : ∃ (d d1 d2 : PDb) (w : PW), Live exConf exConf_ok exConstEnv.H d Spec.Db.empty ∧
    Computed exConf exConstEnv d exReqU 2 w ∧ PW.commit exConf exIO { w with db := d } = (.ok (), d1) ∧
    PW.commit exConf exIO { w with db := d1 } = (.ok (), d2) := by
  obtain ⟨d, d', b, hd, ha, -, ⟨w, b1, h1, h2, h3⟩, hab, hres, -, -, hcom, hd', -⟩ := exCommitted
  unfold Db.drain at h3
  cases h3
  unfold stepJob at h2
  simp only [Batch.new] at h2
  have hp : processAppend (pageBackend exConf) exConstEnv exReq noCancel w = (.ok 2, b.w) := by
    generalize processAppend (pageBackend exConf) exConstEnv exReq noCancel w = x at h2 ⊢
    match x, h2 with
    | (.ok p, w'), h2 => cases h2; cases hres; rfl
    | (.error e, w'), h2 => cases e <;> first | (cases h2; done) | (cases h2; cases hres)
  have h1 : PDb.writer exConf d = .ok w := h1
  have hae : AfterOk exReq := ha _ List.mem_cons_self
  have he : EnvOk exConstEnv := ⟨fun l => List.Perm.refl l⟩
  obtain ⟨-, hdb, htx, -⟩ := process_tx he exConf_ok exConstEnv_width hd hae (by decide) h1 hp
  have hpU : processAppend (pageBackend exConf) exConstEnv exReqU noCancel w = (.ok 2, b.w) := by
    unfold processAppend at hp ⊢
    split at hp
    · exfalso
      have hw : w = b.w := (Prod.mk.inj hp).2
      rcases (pageLawful exConf_ok exConstEnv_width).begin hd with ⟨w0, hb, hr⟩ | ⟨e, -, hf⟩
      · have hb : PDb.writer exConf d = .ok w0 := hb
        rw [h1] at hb; cases hb
        have n1 := (pageLawful exConf_ok exConstEnv_width).nextPos hr
        have n2 := (pageLawful exConf_ok exConstEnv_width).nextPos (show (pageLawful exConf_ok exConstEnv_width).Rep b.w _ _ from htx)
        rw [exAppended] at n2
        rw [← hw, n1] at n2
        exact absurd n2 (by decide)
      · exact hf.elim
    · exact hp
  have hcom : PW.commit exConf exIO b.w = (.ok (), d') := hcom
  have hcom1 : PW.commit exConf exIO { b.w with db := d } = (.ok (), d') := by rw [← hcom, ← hdb]
  have hagain : ∃ d2, PW.commit exConf exIO { b.w with db := d' } = (.ok (), d2) := by
    unfold PW.commit at hcom ⊢
    simp only
    generalize processFreed exIO.ord b.w.wr = x at hcom ⊢
    match x, hcom with
    | (.ok (), wr), hcom => exact commitPages_again hcom _
  obtain ⟨d2, hcom2⟩ := hagain
  exact ⟨d, d', d2, b.w, hd, ⟨(fun _ h => by cases h), (by decide), w, h1, hpU⟩, hcom1, hcom2⟩

open Classical in
/-- C65 fails for overlapping calls: two calls with the same request (whose tracking position may be recorded once), both answered with
success, which no order of the two explains; the database holds the events of one. -/
theorem C65_threads_false : ∃ (d : PDb) (σ : TSys), Live exConf exConf_ok exConstEnv.H d Spec.Db.empty ∧
    Threads exConf exConstEnv (fun _ => True) (.init d) σ ∧ σ.done = [(exReqU, .ok 2), (exReqU, .ok 2)] ∧
    (∀ l : List (Request × Except Err Nat), l.Perm σ.done → ¬ SaysAll (l.map (·.2)) (appendAll (Accepted exConf.g.pageSize) Spec.Db.empty (l.map (·.1))).1) ∧
    Live exConf exConf_ok exConstEnv.H σ.d exAfter := by
  obtain ⟨d, d1, d2, w, hd, hw, h1, h2⟩ := exOverlap
  obtain ⟨w0, k1, k2⟩ := hw.run
  refine ⟨d, ⟨d2, [.returned, .returned], [(exReqU, .ok 2), (exReqU, .ok 2)]⟩, hd, ?_, rfl, ?_, ?_⟩
  · have s1 : TStep exConf exConstEnv (fun _ => True) (.init d) ⟨d, [.called exReqU], []⟩ := .call _ exReqU hw.after hw.some
    have s2 : TStep exConf exConstEnv (fun _ => True) ⟨d, [.called exReqU], []⟩ ⟨d, [.called exReqU, .called exReqU], []⟩ :=
      .call _ exReqU hw.after hw.some
    have s3 : TStep exConf exConstEnv (fun _ => True) ⟨d, [.called exReqU, .called exReqU], []⟩ ⟨d, [.computed exReqU 2 w, .called exReqU], []⟩ :=
      .compute (l := []) trivial k1 k2
    have s4 : TStep exConf exConstEnv (fun _ => True) ⟨d, [.computed exReqU 2 w, .called exReqU], []⟩
        ⟨d, [.computed exReqU 2 w, .computed exReqU 2 w], []⟩ := .compute (l := [.computed exReqU 2 w]) trivial k1 k2
    have s5 : TStep exConf exConstEnv (fun _ => True) ⟨d, [.computed exReqU 2 w, .computed exReqU 2 w], []⟩
        ⟨d1, [.returned, .computed exReqU 2 w], [(exReqU, .ok 2)]⟩ := .commit (l := []) (done := []) h1
    have s6 : TStep exConf exConstEnv (fun _ => True) ⟨d1, [.returned, .computed exReqU 2 w], [(exReqU, .ok 2)]⟩
        ⟨d2, [.returned, .returned], [(exReqU, .ok 2), (exReqU, .ok 2)]⟩ := .commit (l := [.returned]) (done := [(exReqU, .ok 2)]) h2
    exact .tail (.tail (.tail (.tail (.tail (.tail .refl s1) s2) s3) s4) s5) s6
  · intro l hl
    have hl : l = [(exReqU, .ok 2), (exReqU, .ok 2)] := (List.perm_replicate (n := 2)).mp hl
    subst hl
    simp only [List.map_cons, List.map_nil, appendAll, exReqU_first]
    rintro ⟨-, h, -⟩
    rw [exReqU_second] at h
    exact h
  · have he : EnvOk exConstEnv := ⟨fun l => List.Perm.refl l⟩
    have := (C65_lost he exConf_ok exConstEnv_width hd [(exReqU, 2, w), (exReqU, 2, w)] (by
      intro x hx
      have : x = (exReqU, 2, w) := by simpa using hx
      subst this; exact hw) (.cons h1 (.cons h2 (.nil _)))).2 (exReqU, 2, w) rfl
    rw [exReqU_first] at this
    exact this

/-- C65 where the calls do not overlap: both are made before either begins; the second is refused, as its tracking position is recorded. -/
example : ∃ (d : PDb) (σ : TSys) (m : String), Live exConf exConf_ok exConstEnv.H d Spec.Db.empty ∧
    Threads exConf exConstEnv Alone (.init d) σ ∧ σ.done = [(exReqU, .ok 2), (exReqU, .error (.integrity m))] := by
  classical
  obtain ⟨d, d1, d2, w, hd, hw, h1, h2⟩ := exOverlap
  obtain ⟨w0, k1, k2⟩ := hw.run
  have he : EnvOk exConstEnv := ⟨fun l => List.Perm.refl l⟩
  have s1 : TStep exConf exConstEnv Alone (.init d) ⟨d, [.called exReqU], []⟩ := .call _ exReqU hw.after hw.some
  have s2 : TStep exConf exConstEnv Alone ⟨d, [.called exReqU], []⟩ ⟨d, [.called exReqU, .called exReqU], []⟩ :=
    .call _ exReqU hw.after hw.some
  have s3 : TStep exConf exConstEnv Alone ⟨d, [.called exReqU, .called exReqU], []⟩ ⟨d, [.computed exReqU 2 w, .called exReqU], []⟩ :=
    .compute (l := []) (by intro x hx; cases List.mem_singleton.mp hx; rfl) k1 k2
  have s4 : TStep exConf exConstEnv Alone ⟨d, [.computed exReqU 2 w, .called exReqU], []⟩
      ⟨d1, [.returned, .called exReqU], [(exReqU, .ok 2)]⟩ := .commit (l := []) (done := []) h1
  have hd1 : Live exConf exConf_ok exConstEnv.H d1 exAfter := by
    have := (C65_lost he exConf_ok exConstEnv_width hd [(exReqU, 2, w)] (by
      intro x hx
      have : x = (exReqU, 2, w) := by simpa using hx
      subst this; exact hw) (.cons h1 (.nil _))).2 (exReqU, 2, w) rfl
    rw [exReqU_first] at this
    exact this
  rcases (pageLawful exConf_ok exConstEnv_width).begin hd1 with ⟨w1, hb, -⟩ | ⟨e, -, hf⟩
  swap
  · exact hf.elim
  cases hr : processAppend (pageBackend exConf) exConstEnv exReqU (fun _ => Cancel.never) w1 with
  | mk r w1' =>
    have hs := (process_tx he exConf_ok exConstEnv_width hd1 hw.after hw.some hb hr).1
    rw [exReqU_second] at hs
    match r, hs with
    | .error (.integrity m), _ =>
      have s5 : TStep exConf exConstEnv Alone ⟨d1, [.returned, .called exReqU], [(exReqU, .ok 2)]⟩
          ⟨d1, [.returned, .returned], [(exReqU, .ok 2), (exReqU, .error (.integrity m))]⟩ :=
        .refuse (l := [.returned]) (done := [(exReqU, .ok 2)]) (by intro x hx; cases List.mem_singleton.mp hx; rfl) hb hr
      exact ⟨d, _, m, hd, .tail (.tail (.tail (.tail (.tail .refl s1) s2) s3) s4) s5, rfl⟩

end Uma.Props
