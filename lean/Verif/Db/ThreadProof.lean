import Verif.Db.AppendProof

/-! The writer thread serves requests as `Spec.Served` says. -/

set_option linter.unusedSimpArgs false

namespace Uma.Db
open Uma.Spec

variable {δ σ υ ι : Type}
variable {B : Backend δ σ υ ι} {valid : Record → Prop} [DecidablePred valid]

theorem appendAll_append (s : Spec.Db) (l l' : List Request) :
    appendAll valid s (l ++ l') =
      ((appendAll valid s l).1 ++ (appendAll valid (appendAll valid s l).2 l').1,
        (appendAll valid (appendAll valid s l).2 l').2) := by
  induction l generalizing s with
  | nil => simp [appendAll]
  | cons r l ih => simp [appendAll, ih]

theorem saysAll_append {rs rs' : List (Except Err Nat)} {os os' : List Outcome} (h : SaysAll rs os)
    (h' : SaysAll rs' os') : SaysAll (rs ++ rs') (os ++ os') := by
  induction rs generalizing os with
  | nil => cases os <;> simp_all [SaysAll]
  | cons r rs ih =>
    cases os with
    | nil => simp [SaysAll] at h
    | cons o os => exact ⟨h.1, ih h.2⟩

theorem saysAll_length {rs : List (Except Err Nat)} {os : List Outcome} (h : SaysAll rs os) :
    rs.length = os.length := by
  induction rs generalizing os with
  | nil => cases os <;> simp_all [SaysAll]
  | cons r rs ih =>
    cases os with
    | nil => simp [SaysAll] at h
    | cons o os => simp [ih h.2]

theorem failure_of_fatal {e : Err} (h : Fatal e) : Failure (.error e) := by
  cases e <;> simp_all [Fatal, Failure, isIntegrityError, isInvalidArgumentError]

theorem fatal_shadow {e : Err} (h : Fatal e) : Fatal (shadow e) := by
  cases e <;> simp_all [Fatal, shadow, isIntegrityError, isInvalidArgumentError, isPanic]

/-- Invariant of a batch under construction, having taken `js` so far, started from `s0`. -/
structure BInv {H : String → TagHash} (L : Workable B H valid) (b : Batch σ) (s0 : Spec.Db) (js : List Job) : Prop where
  resp : b.responders = js.map (·.id)
  len : b.results.length = js.length
  total : b.total = (js.map (·.req.events.length)).sum
  good : b.abort = none →
    L.Rep b.w s0 (Abs.of H (appendAll valid s0 (js.map (·.req))).2) ∧
    SaysAll b.results (appendAll valid s0 (js.map (·.req))).1
  bad : ∀ i e, b.abort = some (i, e) → Fatal e ∧ i + 1 = js.length ∧ b.results[i]? = some (.error e) ∧
    (L.Fails e ∨ e = .cancelledByUser ∧ ∃ j, js[i]? = some j ∧ ∃ k l, j.cancel k l = true)

/-- The conditions of these jobs ask only what the storage is able to answer. -/
def Workable.AsksAll {H : String → TagHash} (L : Workable B H valid) (js : List Job) : Prop :=
  ∀ j ∈ js, ∀ c ∈ j.req.condition, L.Asks c.failIfEventsMatch

omit [DecidablePred valid] in
theorem Lawful.asksAll {H : String → TagHash} (L : Lawful B H valid) (js : List Job) : L.AsksAll js :=
  fun _ _ _ _ => L.asks _

/-- The panic case can arise for this job. -/
def MayPanic (j : Job) : Prop := j.req.events = [] ∧ j.req.condition.isSome

theorem Workable.stepJob_spec {env : Env} (he : EnvOk env) (L : Workable B env.H valid) {b : Batch σ} {s0 : Spec.Db}
    {js : List Job} (hb : BInv L b s0 js) (hna : b.abort = none) (j : Job) (ha : AfterOk j.req)
    (hq : L.AsksAll [j]) :
    (∃ b', stepJob B env b j = .ok b' ∧ BInv L b' s0 (js ++ [j])) ∨
    (MayPanic j ∧ ∃ m, stepJob B env b j = .error m) := by
  obtain ⟨hrep, hsays⟩ := hb.good hna
  unfold stepJob
  rcases L.processAppend_spec he hrep ha (hq j (by simp)) j.cancel with
    ⟨_, r, w', h, hs, hr, _⟩ | ⟨e, w', h, hf, hwhy⟩ | ⟨hp, m, h⟩
  · left
    rw [h]
    have hall : appendAll valid s0 ((js ++ [j]).map (·.req)) =
        ((appendAll valid s0 (js.map (·.req))).1 ++
          [(Spec.append valid (appendAll valid s0 (js.map (·.req))).2 j.req).1],
         (Spec.append valid (appendAll valid s0 (js.map (·.req))).2 j.req).2) := by
      rw [List.map_append, appendAll_append]; simp [appendAll]
    cases r with
    | ok p =>
      refine ⟨_, rfl, ?_⟩
      constructor
      · simp [hb.resp]
      · simp [hb.len]
      · simp [hb.total]
      · intro _
        rw [hall]
        exact ⟨hr, saysAll_append hsays ⟨hs, trivial⟩⟩
      · intro i e he'; simp [hna] at he'
    | error e =>
      have hrefuse : (isIntegrityError e || isInvalidArgumentError e) = true ∧
          ∀ m, e ≠ .panic m := by
        generalize (Spec.append valid (appendAll valid s0 (js.map (·.req))).2 j.req).1 = o at hs
        cases e <;> cases o <;> simp_all [Says, isIntegrityError, isInvalidArgumentError]
      cases e with
      | panic m => exact absurd rfl (hrefuse.2 m)
      | _ =>
        refine ⟨_, rfl, ?_⟩
        constructor
        · simp [hb.resp]
        · simp [hb.len]
        · simp [hb.total]
        · intro _
          rw [hall]
          exact ⟨hr, saysAll_append hsays ⟨hs, trivial⟩⟩
        · intro i e he'
          simp [hrefuse.1, hna] at he'
  · left
    rw [h]
    cases e with
    | panic m => simp [Fatal, isPanic] at hf
    | _ =>
      refine ⟨_, rfl, ?_⟩
      constructor
      · simp [hb.resp]
      · simp [hb.len]
      · simp [hb.total]
      · intro h0; simp [hf.1, hf.2.1] at h0
      · intro i e' he'
        simp only [hf.1, hf.2.1, Bool.or_self, Bool.false_eq_true, if_false, Option.some.injEq,
          Prod.mk.injEq] at he'
        obtain ⟨h1, h2⟩ := he'
        subst h2
        refine ⟨hf, ?_, ?_, ?_⟩
        · simp [← h1, hb.resp]
        · rw [← h1]; simp [hb.resp, ← hb.len]
        · refine hwhy.imp id fun ⟨h3, h4⟩ => ⟨h3, j, ?_, h4⟩
          rw [← h1]; simp [hb.resp]
  · right
    rw [h]
    obtain ⟨h1, c, hc, _⟩ := hp
    exact ⟨⟨h1, by rw [show j.req.condition = some c from hc]; rfl⟩, _, rfl⟩

theorem stepJob_spec {env : Env} (he : EnvOk env) (L : Lawful B env.H valid) {b : Batch σ} {s0 : Spec.Db}
    {js : List Job} (hb : BInv L.toWorkable b s0 js) (hna : b.abort = none) (j : Job) (ha : AfterOk j.req) :
    (∃ b', stepJob B env b j = .ok b' ∧ BInv L.toWorkable b' s0 (js ++ [j])) ∨
    (MayPanic j ∧ ∃ m, stepJob B env b j = .error m) :=
  L.toWorkable.stepJob_spec he hb hna j ha (L.asksAll _)

def appendJobs : List Msg → List Job
  | [] => []
  | .append j :: q => j :: appendJobs q
  | .shutdown :: q => appendJobs q

def NoShutdown (q : List Msg) : Prop := ∀ m ∈ q, m ≠ .shutdown

theorem Workable.drain_spec {env : Env} (he : EnvOk env) (L : Workable B env.H valid) (max : Nat) (s0 : Spec.Db) :
    ∀ (vis : Nat) (q : List Msg) (b : Batch σ) (js : List Job), BInv L b s0 js →
      (∀ j ∈ appendJobs q, AfterOk j.req) → L.AsksAll (appendJobs q) →
      (∃ b' q' js', drain B env max vis q b = .ok (b', q') ∧ BInv L b' s0 (js ++ js') ∧
        appendJobs q = js' ++ appendJobs q' ∧ (NoShutdown q → NoShutdown q')) ∨
      (∃ j ∈ appendJobs q, MayPanic j) ∧ ∃ m, drain B env max vis q b = .error m := by
  intro vis
  induction vis with
  | zero => intro q b js hb _ _; left; exact ⟨b, q, [], rfl, by simpa using hb, rfl, id⟩
  | succ vis ih =>
    intro q b js hb ha hk
    cases q with
    | nil => left; exact ⟨b, [], [], rfl, by simpa using hb, rfl, id⟩
    | cons m q =>
      simp only [drain]
      split
      · left; exact ⟨b, _, [], rfl, by simpa using hb, rfl, id⟩
      split
      · left; exact ⟨b, _, [], rfl, by simpa using hb, rfl, id⟩
      rename_i hna
      have hna : b.abort = none := by simpa using hna
      cases m with
      | shutdown =>
        left
        refine ⟨b, q, [], rfl, by simpa using hb, rfl, ?_⟩
        intro h m hm; exact h m (by simp [hm])
      | append j =>
        simp only
        rcases L.stepJob_spec he hb hna j (ha j (by simp [appendJobs]))
          (fun j' hj' => hk j' (by simp at hj'; simp [appendJobs, hj'])) with ⟨b', h, hb'⟩ | ⟨hp, m, h⟩
        · rw [h]
          simp only
          rcases ih q b' _ hb' (fun j hj => ha j (by simp [appendJobs, hj]))
            (fun j hj => hk j (by simp [appendJobs, hj])) with
            ⟨b2, q2, js2, h2, hb2, hq, hns⟩ | ⟨⟨j', hj', hp'⟩, h2⟩
          · left
            refine ⟨b2, q2, j :: js2, h2, by simpa using hb2, by simp [appendJobs, hq], ?_⟩
            intro hn; exact hns (fun m hm => hn m (by simp [hm]))
          · right; exact ⟨⟨j', by simp [appendJobs, hj'], hp'⟩, h2⟩
        · right; rw [h]; exact ⟨⟨j, by simp [appendJobs], hp⟩, m, rfl⟩

theorem drain_spec {env : Env} (he : EnvOk env) (L : Lawful B env.H valid) (max : Nat) (s0 : Spec.Db) :
    ∀ (vis : Nat) (q : List Msg) (b : Batch σ) (js : List Job), BInv L.toWorkable b s0 js →
      (∀ j ∈ appendJobs q, AfterOk j.req) →
      (∃ b' q' js', drain B env max vis q b = .ok (b', q') ∧ BInv L.toWorkable b' s0 (js ++ js') ∧
        appendJobs q = js' ++ appendJobs q' ∧ (NoShutdown q → NoShutdown q')) ∨
      (∃ j ∈ appendJobs q, MayPanic j) ∧ ∃ m, drain B env max vis q b = .error m :=
  fun vis q b js hb ha => L.toWorkable.drain_spec he max s0 vis q b js hb ha (L.asksAll _)

theorem headOfNext_eq (log : Log) : headOfNext (log.length + 1) = Spec.head log := by
  simp only [headOfNext, Spec.head, Nat.add_sub_cancel, List.length_eq_zero_iff]

theorem abortAnswers_fst (rs : List Nat) (i : Nat) (e : Err) : (abortAnswers rs i e).map (·.1) = rs := by
  simp only [abortAnswers, List.map_map]
  have : ((fun x => x.1) ∘ fun (x : Nat × Nat) =>
      (x.1, if x.2 = i then (.error e : Except Err Nat) else .error (shadow e))) = fun x => x.1 := by
    funext x; rfl
  rw [this]; simp

theorem finishBatch_spec {env : Env} (L : Workable B env.H valid) (i : ι) (d : δ) {s0 : Spec.Db}
    (hd : L.RepD d s0) {b : Batch σ} {js : List Job} (hb : BInv L b s0 js) :
    let s1 := (appendAll valid s0 (js.map (·.req))).2
    (finishBatch B i d b).2.1.map (·.1) = js.map (·.id) ∧
    ((L.RepD (finishBatch B i d b).1 s1 ∧ (finishBatch B i d b).2.2 = some (Spec.head s1.log) ∧
        SaysAll ((finishBatch B i d b).2.1.map (·.2)) (appendAll valid s0 (js.map (·.req))).1) ∨
     ((L.RepD (finishBatch B i d b).1 s0 ∨ L.RepD (finishBatch B i d b).1 s1) ∧
        (finishBatch B i d b).2.2 = none ∧
        ∀ a ∈ (finishBatch B i d b).2.1, Failure a.2)) := by
  intro s1
  unfold finishBatch
  cases hab : b.abort with
  | some x =>
    obtain ⟨f, e⟩ := x
    simp only
    refine ⟨by rw [abortAnswers_fst, hb.resp], Or.inr ⟨Or.inl hd, trivial, ?_⟩⟩
    intro a ha
    simp only [abortAnswers, List.mem_map] at ha
    obtain ⟨x, _, rfl⟩ := ha
    simp only
    have hf := (hb.bad f e hab).1
    split
    · exact failure_of_fatal hf
    · exact failure_of_fatal (fatal_shadow hf)
  | none =>
    obtain ⟨hrep, hsays⟩ := hb.good hab
    have hl : b.responders.length = b.results.length := by rw [hb.resp, hb.len]; simp
    rcases L.commit i hrep with ⟨d', h, hd'⟩ | ⟨e, d', h, _, hd'⟩
    · rw [h]
      simp only
      refine ⟨?_, Or.inl ⟨hd', ?_, ?_⟩⟩
      · rw [← hb.resp, List.map_fst_zip (by omega)]
      · rw [L.nextPos hrep]; congr 1; exact headOfNext_eq _
      · rw [List.map_snd_zip (by omega)]; exact hsays
    · rename_i hf
      rw [h]
      simp only
      refine ⟨?_, Or.inr ⟨hd', trivial, ?_⟩⟩
      · rw [← hb.resp, List.map_map]; exact List.map_id' _
      · intro a ha
        simp only [List.mem_map] at ha
        obtain ⟨_, _, rfl⟩ := ha
        exact failure_of_fatal hf

/-- Requests with the client they belong to. -/
def clientReqs (js : List Job) : List (Nat × Request) := js.map fun j => (j.id, j.req)

theorem binv_new {env : Env} (L : Workable B env.H valid) {w : σ} {s0 : Spec.Db}
    (hw : L.Rep w s0 (Abs.of env.H s0)) : BInv L (Batch.new w) s0 [] :=
  ⟨rfl, rfl, rfl, fun _ => ⟨hw, trivial⟩, by intro i e h; simp [Batch.new] at h⟩

theorem Workable.writerThread_spec {env : Env} (he : EnvOk env) (L : Workable B env.H valid) (max : Nat)
    (vis : Nat → Nat) (io : Nat → ι) (k : Nat) :
    ∀ (n : Nat) (q : List Msg) (r : Run δ) (s : Spec.Db), q.length ≤ k → L.RepD r.db s →
      r.panicked = false → (∀ j ∈ appendJobs q, AfterOk j.req) → L.AsksAll (appendJobs q) →
      ∃ js rest as hs s', appendJobs q = js ++ rest ∧
        Served valid s (clientReqs js) as hs s' ∧
        (writerThread B env max vis io n q r).answers = r.answers ++ as ∧
        (writerThread B env max vis io n q r).heads = r.heads ++ hs ∧
        L.RepD (writerThread B env max vis io n q r).db s' ∧
        ((writerThread B env max vis io n q r).panicked = false → NoShutdown q → rest = []) ∧
        ((writerThread B env max vis io n q r).panicked = true → ∃ j ∈ rest, MayPanic j) := by
  induction k with
  | zero =>
    intro n q r s hq hd hp ha hk
    have : q = [] := List.eq_nil_of_length_eq_zero (by omega)
    subst this
    rw [writerThread]
    exact ⟨[], [], [], [], s, rfl, .done, by simp, by simp, hd, fun _ _ => rfl, by simp [hp]⟩
  | succ k ih =>
    intro n q r s hq hd hp ha hk
    cases q with
    | nil =>
      rw [writerThread]
      exact ⟨[], [], [], [], s, rfl, .done, by simp, by simp, hd, fun _ _ => rfl, by simp [hp]⟩
    | cons m q =>
      have hq' : q.length ≤ k := by simp at hq; omega
      cases m with
      | shutdown =>
        rw [writerThread]
        refine ⟨[], appendJobs q, [], [], s, rfl, .done, by simp, by simp, hd, ?_, by simp [hp]⟩
        intro _ h; exact absurd rfl (h .shutdown (by simp))
      | append j =>
        have haj : AfterOk j.req := ha j (by simp [appendJobs])
        have haq : ∀ j ∈ appendJobs q, AfterOk j.req := fun j hj => ha j (by simp [appendJobs, hj])
        have hkq : L.AsksAll (appendJobs q) := fun j hj => hk j (by simp [appendJobs, hj])
        have hns : NoShutdown (Msg.append j :: q) → NoShutdown q := fun h m hm => h m (by simp [hm])
        rw [writerThread]
        rcases L.begin hd with ⟨w, hb, hw⟩ | ⟨e, hb, hf⟩
        · rw [hb]
          simp only
          rcases L.stepJob_spec he (binv_new L hw) rfl j haj
            (fun j' hj' => hk j' (by simp at hj'; simp [appendJobs, hj'])) with ⟨b, h1, hb1⟩ | ⟨hpj, m, h1⟩
          · rw [h1]
            simp only
            rcases L.drain_spec he max s (vis n) q b _ hb1 haq hkq with
              ⟨b', q', js', h2, hb2, hsplit, hns2⟩ | ⟨⟨j', hj', hpj'⟩, m, h2⟩
            · have hlen := drain_length h2
              have hfin := finishBatch_spec L (io n) r.db hd hb2
              split
              · rename_i heq; rw [h2] at heq; cases heq
              rename_i b'' q'' heq
              rw [h2] at heq
              cases heq
              generalize hx : finishBatch B (io n) r.db b' = fb at hfin
              obtain ⟨d', as, h⟩ := fb
              simp only at hfin ⊢
              have haq' : ∀ j ∈ appendJobs q', AfterOk j.req := fun j hj => haq j (by rw [hsplit]; simp [hj])
              obtain ⟨hids, hfin⟩ := hfin
              have hids' : as.map (·.1) = (clientReqs ([] ++ [j] ++ js')).map (·.1) := by
                rw [hids]; simp [clientReqs]
              have hreqs : (clientReqs ([] ++ [j] ++ js')).map (·.2) = ([] ++ [j] ++ js').map (fun j : Job => j.req) := by
                simp [clientReqs]
              have finish : ∃ s1, L.RepD d' s1 ∧
                  ∀ js2 as2 hs2 s2, Served valid s1 js2 as2 hs2 s2 →
                    Served valid s (clientReqs ([] ++ [j] ++ js') ++ js2) (as ++ as2) (h.toList ++ hs2) s2 := by
                rcases hfin with ⟨hd1, hh, hsays⟩ | ⟨hd1, hh, herr⟩
                · refine ⟨_, hd1, ?_⟩
                  intro js2 as2 hs2 s2 hserve
                  rw [hh]
                  rw [← hreqs] at hsays hserve ⊢
                  exact Served.committed hids' hsays hserve
                · rcases hd1 with hd1 | hd1
                  · refine ⟨_, hd1, ?_⟩
                    intro js2 as2 hs2 s2 hserve
                    rw [hh]
                    exact Served.failed hids' herr hserve
                  · refine ⟨_, hd1, ?_⟩
                    intro js2 as2 hs2 s2 hserve
                    rw [hh]
                    rw [← hreqs] at hserve
                    exact Served.failedLate hids' herr hserve
              obtain ⟨s1, hd1, hserve⟩ := finish
              obtain ⟨js2, rest, as2, hs2, s2, i1, i2, i3, i4, i5, i6, i7⟩ :=
                ih (n + 1) q' { r with db := d', answers := r.answers ++ as, heads := r.heads ++ h.toList }
                  s1 (by omega) hd1 hp haq' (fun j hj => hkq j (by rw [hsplit]; simp [hj]))
              refine ⟨[] ++ [j] ++ js' ++ js2, rest, as ++ as2, h.toList ++ hs2, s2, ?_, ?_, ?_, ?_, i5, ?_, i7⟩
              · simp [appendJobs, hsplit, i1]
              · have := hserve _ _ _ _ i2
                simpa [clientReqs] using this
              · rw [i3]; simp
              · rw [i4]; simp
              · intro hpn hn; exact i6 hpn (hns2 (hns hn))
            · split
              · exact ⟨[], j :: appendJobs q, [], [], s, rfl, .done, by simp, by simp, hd, by simp,
                  fun _ => ⟨j', by simp [hj'], hpj'⟩⟩
              · rename_i heq; rw [h2] at heq; cases heq
          · rw [h1]
            exact ⟨[], j :: appendJobs q, [], [], s, rfl, .done, by simp, by simp, hd, by simp,
              fun _ => ⟨j, by simp, hpj⟩⟩
        · rw [hb]
          simp only
          obtain ⟨js2, rest, as2, hs2, s2, i1, i2, i3, i4, i5, i6, i7⟩ :=
            ih (n + 1) q { r with answers := r.answers ++ [(j.id, .error e)] } s hq' hd hp haq hkq
          refine ⟨j :: js2, rest, (j.id, .error e) :: as2, hs2, s2, by simp [appendJobs, i1], ?_, ?_, i4, i5, ?_, i7⟩
          · exact Served.failed (js := [(j.id, j.req)]) (as := [(j.id, .error e)]) rfl
              (by intro a ha; simp at ha; rw [ha]; exact failure_of_fatal (L.fails hf)) i2
          · rw [i3]; simp
          · intro hpn hn; exact i6 hpn (hns hn)

theorem writerThread_spec {env : Env} (he : EnvOk env) (L : Lawful B env.H valid) (max : Nat)
    (vis : Nat → Nat) (io : Nat → ι) (k : Nat) :
    ∀ (n : Nat) (q : List Msg) (r : Run δ) (s : Spec.Db), q.length ≤ k → L.RepD r.db s →
      r.panicked = false → (∀ j ∈ appendJobs q, AfterOk j.req) →
      ∃ js rest as hs s', appendJobs q = js ++ rest ∧
        Served valid s (clientReqs js) as hs s' ∧
        (writerThread B env max vis io n q r).answers = r.answers ++ as ∧
        (writerThread B env max vis io n q r).heads = r.heads ++ hs ∧
        L.RepD (writerThread B env max vis io n q r).db s' ∧
        ((writerThread B env max vis io n q r).panicked = false → NoShutdown q → rest = []) ∧
        ((writerThread B env max vis io n q r).panicked = true → ∃ j ∈ rest, MayPanic j) :=
  fun n q r s hq hd hp ha => L.toWorkable.writerThread_spec he max vis io k n q r s hq hd hp ha (L.asksAll _)

end Uma.Db
