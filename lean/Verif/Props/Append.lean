import Verif.Db.AppendApi
import Verif.Props.Read

/-!
# Properties of appending: C01-C06, C12-C14, C29, C30, C32 (blocking writer), C40 (append), C45, C46

Two entry points are covered: the direct API `Db.append` (`UmaDb::append`) and the group-committing writer thread
`writerThread` (`writer_thread_blocking`), the latter for every sequence of messages, every batch size limit, every
pattern of messages being available to the drain loop (`vis`) and every disk behaviour at commit (`io`).
`Fatal e`/`Failure` mark errors that are neither a refusal of the request nor a panic: the disk failed, a page is
unreadable, or the client cancelled.
-/

set_option linter.unusedSimpArgs false

namespace Uma.Props
open Uma.Spec Uma.Db

variable {δ σ υ ι : Type} {B : Backend δ σ υ ι} {valid : Record → Prop} [DecidablePred valid]

/-- The writer thread started on database `d` and given messages `q`. -/
def serve (B : Backend δ σ υ ι) (env : Env) (max : Nat) (vis : Nat → Nat) (io : Nat → ι) (d : δ) (q : List Msg) :
    Run δ := writerThread B env max vis io 0 q ⟨d, [], [], false⟩

/-- All `after` values in the messages are below the largest 64-bit number (see finding 2). -/
def AfterOkAll (q : List Msg) : Prop := ∀ j ∈ appendJobs q, AfterOk j.req

/-- Everything stored, read forward. -/
def ReadsAll (B : Backend δ σ υ ι) (env : Env) (d : δ) (evs : List SeqEvent) : Prop :=
  ∃ h, Db.read B env d none none false none = .ok (evs, h)

omit [DecidablePred valid] in
theorem readsAll {env : Env} (he : EnvOk env) (L : Lawful B env.H valid) {d : δ} {s : Spec.Db}
    (hd : L.RepD d s) : ReadsAll B env d (sequenced s.log) := by
  obtain ⟨h, hr⟩ := C07_forward_read he L hd none none none
  refine ⟨h, ?_⟩
  rw [hr]
  simp only [applyLimit, Option.getD_none]
  congr 2
  rw [List.filter_eq_self]
  intro e _; simp [Matches]

theorem sequenced_append (l l' : Log) :
    sequenced (l ++ l') = sequenced l ++ (numberFrom (1 + l.length) l').map toSeq := by
  simp [sequenced, numberFrom_append]

/-- C01: after any history of requests, in any grouping and with any failures, the stored events have positions
1, 2, 3, …; what was stored before is still there, unchanged, at the same positions. -/
theorem C01_positions_dense {env : Env} (he : EnvOk env) (L : Lawful B env.H valid) {d : δ} {s : Spec.Db}
    (hd : L.RepD d s) (max : Nat) (vis : Nat → Nat) (io : Nat → ι) (q : List Msg) (ha : AfterOkAll q) :
    ∃ before after, ReadsAll B env d before ∧ ReadsAll B env (serve B env max vis io d q).db after ∧
      after.map (·.position) = List.range' 1 after.length ∧ before <+: after := by
  obtain ⟨js, rest, as, hs, s', h1, h2, h3, h4, h5, h6, h7⟩ :=
    writerThread_spec he L max vis io q.length 0 q ⟨d, [], [], false⟩ s (Nat.le_refl _) hd rfl ha
  obtain ⟨tr, t1, t2, t3⟩ := served_trace h2
  refine ⟨_, _, readsAll he L hd, readsAll he L h5, ?_, ?_⟩
  · rw [(C07_positions s'.log).1]; simp [sequenced]
  · rw [trace_log t3, sequenced_append]; exact List.prefix_append _ _

/-- C01/C02: a successful append of a non-empty request either stores exactly the submitted events, in order, directly
after the previous head `h`, and answers `h + n`; or it is the repeat of recorded events and stores nothing.
C26 (second half): on refusal nothing changes.
If the disk fails during the commit the client gets an error and the request has happened as a whole or not at all. -/
theorem C02_append_all_or_nothing {env : Env} (he : EnvOk env) (L : Lawful B env.H valid) {d : δ} {s : Spec.Db}
    (hd : L.RepD d s) {req : Request} (ha : AfterOk req) (hne : req.events ≠ []) (i : ι) {r : Except Err Nat} {d' : δ}
    (hap : Db.append B env req i d = (r, d')) :
    (∃ p, r = .ok p ∧ p = s.log.length + req.events.length ∧
        L.RepD d' ⟨s.log ++ req.events.map (fun e => ⟨e, req.tracking⟩),
          match req.tracking with | none => s.track | some t => setTrack s.track t⟩) ∨
    (∃ p c, r = .ok p ∧ req.condition = some c ∧ IsRepeat s.log c req.events ∧
        p = repeatPosition s.log c req.events ∧ L.RepD d' s) ∨
    (∃ m, (r = .error (.integrity m) ∨ r = .error (.invalidArgument m)) ∧ L.RepD d' s) ∨
    (∃ e, r = .error e ∧ Fatal e ∧ (L.RepD d' s ∨
        L.RepD d' ⟨s.log ++ req.events.map (fun e => ⟨e, req.tracking⟩),
          match req.tracking with | none => s.track | some t => setTrack s.track t⟩)) := by
  have hcase := append_case (valid := valid) s req
  have hr : (Db.append B env req i d).1 = r := by rw [hap]
  have hd' : (Db.append B env req i d).2 = d' := by rw [hap]
  rcases api_append_spec (valid := valid) he L hd ha hne i with ⟨h1, h2⟩ | ⟨e, h1, h2, h3⟩
  · rw [hr] at h1
    rw [hd'] at h2
    generalize Spec.append valid s req = x at hcase h1 h2
    cases hcase with
    | took hc hv ht =>
      left
      cases r with
      | ok p => simp only [Says, if_neg hne] at h1; exact ⟨p, rfl, h1, h2⟩
      | error e => cases e <;> simp [Says] at h1
    | repeated c hc hv hrep =>
      right; left
      cases r with
      | ok p => simp only [Says] at h1; exact ⟨p, c, rfl, hc, hrep, h1, h2⟩
      | error e => cases e <;> simp [Says] at h1
    | _ =>
      right; right; left
      cases r with
      | ok p => simp [Says] at h1
      | error e =>
        cases e <;> simp [Says] at h1
        all_goals first | exact ⟨_, Or.inl rfl, h2⟩ | exact ⟨_, Or.inr rfl, h2⟩
  · right; right; right
    rw [hr] at h1
    rw [hd'] at h3
    refine ⟨e, h1, h2, ?_⟩
    generalize Spec.append valid s req = x at hcase h3
    cases hcase with
    | took _ _ _ => exact h3
    | _ => exact Or.inl (h3.elim id id)

/-- C02 for empty requests through the direct API: nothing happens. -/
theorem C02_empty_append (B : Backend δ σ υ ι) (env : Env) (req : Request) (h : req.events = []) (i : ι) (d : δ) :
    Db.append B env req i d = (.ok 0, d) := by simp [Db.append, h]

/-- C03: a conditional append that is not a repeat is refused with an integrity error if a recorded event violates the
condition, and nothing changes. -/
theorem C03_conflict_refused {env : Env} (he : EnvOk env) (L : Lawful B env.H valid) {d : δ} {s : Spec.Db}
    (hd : L.RepD d s) {req : Request} (ha : AfterOk req) (hne : req.events ≠ []) (i : ι) {c : Condition}
    (hc : req.condition = some c) (hrep : ¬ IsRepeat s.log c req.events) (hcf : Conflict s.log c) :
    ((∃ m, (Db.append B env req i d).1 = .error (.integrity m)) ∨
      ∃ e, (Db.append B env req i d).1 = .error e ∧ Fatal e) ∧
    L.RepD (Db.append B env req i d).2 s := by
  have hv := conflict_iff.mp hcf
  have hspec : Spec.append valid s req = (.refusedIntegrity, s) := by
    simp [Spec.append, hc, hv, hrep]
  rcases api_append_spec (valid := valid) he L hd ha hne i with ⟨h1, h2⟩ | ⟨e, h1, h2, h3⟩
  · rw [hspec] at h1 h2
    refine ⟨Or.inl ?_, h2⟩
    generalize (Db.append B env req i d).1 = r at h1
    cases r with
    | ok p => simp [Says] at h1
    | error e => cases e <;> simp [Says] at h1; exact ⟨_, rfl⟩
  · rw [hspec] at h3
    exact ⟨Or.inr ⟨e, h1, h2⟩, h3.elim id id⟩

/-- C03, converse: an untracked conditional append refused with an integrity error has a violating recorded event. -/
theorem C03_refused_conflict {env : Env} (he : EnvOk env) (L : Lawful B env.H valid) {d : δ} {s : Spec.Db}
    (hd : L.RepD d s) {req : Request} (ha : AfterOk req) (hne : req.events ≠ []) (i : ι)
    (htr : req.tracking = none) {m : String} (hr : (Db.append B env req i d).1 = .error (.integrity m)) :
    ∃ c, req.condition = some c ∧ Conflict s.log c ∧ ¬ IsRepeat s.log c req.events := by
  rcases api_append_spec (valid := valid) he L hd ha hne i with ⟨h1, h2⟩ | ⟨e, h1, h2, h3⟩
  · rw [hr] at h1
    have hcase := append_case (valid := valid) s req
    generalize Spec.append valid s req = x at hcase h1
    cases hcase with
    | conflict c hc hv hrep => exact ⟨c, hc, conflict_iff.mpr hv, hrep⟩
    | notIncreasing t p _ ht => rw [htr] at ht; cases ht
    | _ => simp [Says] at h1
  · rw [hr] at h1; cases h1; simp [Fatal, isIntegrityError] at h2

/-- C03, no violation: the condition has no influence, the outcome is that of the unconditional append. -/
theorem C03_no_conflict {s : Spec.Db} {req : Request} {c : Condition}
    (hc : req.condition = some c) (hcf : ¬ Conflict s.log c) :
    Spec.append valid s req = Spec.append valid s { req with condition := none } := by
  have hv : violations s.log c = [] := by
    apply Decidable.byContradiction; intro h; exact hcf (conflict_iff.mpr h)
  simp [Spec.append, hc, hv, recordsOf]

/-- C04: if no batch fails, the answers and the final content are those of executing the requests one after the other,
whatever the batch limit and the grouping. -/
theorem C04_batch_sequential {env : Env} (he : EnvOk env) (L : Lawful B env.H valid) {d : δ} {s : Spec.Db}
    (hd : L.RepD d s) (max : Nat) (vis : Nat → Nat) (io : Nat → ι) (q : List Msg) (ha : AfterOkAll q)
    (hns : NoShutdown q) (hnp : (serve B env max vis io d q).panicked = false)
    (hnf : ∀ a ∈ (serve B env max vis io d q).answers, ¬ Failure a.2) :
    let reqs := (appendJobs q).map (·.req)
    (serve B env max vis io d q).answers.map (·.1) = (appendJobs q).map (·.id) ∧
    SaysAll ((serve B env max vis io d q).answers.map (·.2)) (appendAll valid s reqs).1 ∧
    L.RepD (serve B env max vis io d q).db (appendAll valid s reqs).2 := by
  intro reqs
  obtain ⟨js, rest, as, hs, s', h1, h2, h3, h4, h5, h6, h7⟩ :=
    writerThread_spec he L max vis io q.length 0 q ⟨d, [], [], false⟩ s (Nat.le_refl _) hd rfl ha
  have hrest := h6 hnp hns
  subst hrest
  have h1 : appendJobs q = js := by simpa using h1
  change (serve B env max vis io d q).answers = _ at h3
  simp only [List.nil_append] at h3
  rw [h3] at hnf ⊢
  have key : ∀ {s js as hs s'}, Served valid s js as hs s' → (∀ a ∈ as, ¬ Failure a.2) →
      as.map (·.1) = js.map (·.1) ∧ SaysAll (as.map (·.2)) (appendAll valid s (js.map (·.2))).1 ∧
      s' = (appendAll valid s (js.map (·.2))).2 := by
    intro s js as hs s' h
    induction h with
    | done => intro _; simp [appendAll, SaysAll]
    | @committed s js as js' as' hs s' i1 i2 _ ih =>
      intro hnf
      obtain ⟨j1, j2, j3⟩ := ih (fun a ha => hnf a (by simp [ha]))
      refine ⟨by simp [i1, j1], ?_, ?_⟩
      · rw [List.map_append, List.map_append, appendAll_append]; exact saysAll_append i2 j2
      · rw [List.map_append, appendAll_append]; exact j3
    | @failed s js as js' as' hs s' i1 i2 _ ih =>
      intro hnf
      cases as with
      | cons a as => exact absurd (i2 a (by simp)) (hnf a (by simp))
      | nil =>
        have : js = [] := by cases js with | nil => rfl | cons => simp at i1
        subst this
        simpa using ih (fun a ha => hnf a (by simp [ha]))
    | @failedLate s js as js' as' hs s' i1 i2 _ ih =>
      intro hnf
      cases as with
      | cons a as => exact absurd (i2 a (by simp)) (hnf a (by simp))
      | nil =>
        have : js = [] := by cases js with | nil => rfl | cons => simp at i1
        subst this
        simpa [appendAll] using ih (fun a ha => hnf a (by simp [ha]))
  obtain ⟨k1, k2, k3⟩ := key h2 hnf
  have hr : (clientReqs js).map (·.2) = reqs := by simp [clientReqs, reqs, h1]
  rw [hr] at k2 k3
  refine ⟨?_, k2, ?_⟩
  · rw [k1, h1]; simp [clientReqs]
  · rw [← k3]; exact h5

/-- C05: a conditional append whose events all carry uuids and match its own query, with `after` not beyond the head,
answered `Ok p`; after any later history, sending it again is answered `Ok p` and changes nothing. -/
theorem C05_idempotent_retry {env : Env} (he : EnvOk env) (L : Lawful B env.H valid) {d : δ} {s : Spec.Db}
    (hd : L.RepD d s) {req : Request} (ha : AfterOk req) (hne : req.events ≠ []) (i i' : ι) {c : Condition}
    (hc : req.condition = some c) (hu : ∀ e ∈ req.events, e.uuid.isSome) (hn : req.events.length < 2 ^ 32)
    (hm : ∀ e ∈ req.events, Matches c.failIfEventsMatch e) (haf : ∀ a ∈ c.after, a ≤ s.log.length)
    {p : Nat} (hok : (Db.append B env req i d).1 = .ok p)
    (max : Nat) (vis : Nat → Nat) (io : Nat → ι) (q : List Msg) (hq : AfterOkAll q) :
    let d2 := (serve B env max vis io (Db.append B env req i d).2 q).db
    ∃ evs, ReadsAll B env d2 evs ∧ ReadsAll B env (Db.append B env req i' d2).2 evs ∧
      ((Db.append B env req i' d2).1 = .ok p ∨ ∃ e, (Db.append B env req i' d2).1 = .error e ∧ Fatal e) := by
  intro d2
  -- state after the first append
  have first : ∃ s1, L.RepD (Db.append B env req i d).2 s1 ∧
      ∀ l, IsRepeat (s1.log ++ l) c req.events ∧ repeatPosition (s1.log ++ l) c req.events = p := by
    rcases C02_append_all_or_nothing (valid := valid) he L hd ha hne i (Prod.eta _).symm with
      ⟨p', h1, h2, h3⟩ | ⟨p', c', h1, h2, h3, h4, h5⟩ | ⟨m, h1, _⟩ | ⟨e, h1, _⟩
    · rw [hok] at h1; cases h1
      -- it took effect: the condition was not violated
      have hv : violations s.log c = [] := by
        rcases api_append_spec (valid := valid) he L hd ha hne i with ⟨g1, g2⟩ | ⟨e, g1, _⟩
        · rw [hok] at g1
          have hcase := append_case (valid := valid) s req
          generalize Spec.append valid s req = x at hcase g1
          cases hcase with
          | took hc' _ _ => exact hc' c hc
          | repeated c' hc' hv' hrep =>
            exfalso
            -- a repeat would answer a position inside the old log
            rw [hc] at hc'; cases hc'
            simp only [Says] at g1
            have hlt : repeatPosition s.log c req.events ≤ s.log.length := by
              unfold repeatPosition
              cases hl : ((violations s.log c).take req.events.length).getLast? with
              | none => simp
              | some x =>
                have hx := List.mem_of_getLast? hl
                have hx := List.mem_of_mem_take hx
                have hx := (List.mem_filter.mp hx).1
                obtain ⟨⟨pp, r⟩, hp, rfl⟩ := List.mem_map.mp hx
                obtain ⟨hp1, hp2⟩ := mem_numberFrom.mp hp
                obtain ⟨hp3, _⟩ := List.getElem?_eq_some_iff.mp hp2
                simp [toSeq]; omega
            have : 0 < req.events.length := List.length_pos_iff.mpr hne
            omega
          | _ => simp [Says] at g1
        · rw [hok] at g1; cases g1
      refine ⟨_, h3, fun l => ?_⟩
      have := repeat_after_append (l := l) (tr := req.tracking) hv hne hu hn hm haf
      exact ⟨this.1, this.2.trans h2.symm⟩
    · rw [hok] at h1; cases h1
      rw [hc] at h2; cases h2
      refine ⟨s, h5, fun l => ?_⟩
      exact ⟨(isRepeat_mono h3).1, (isRepeat_mono h3).2.trans h4.symm⟩
    · rcases h1 with h1 | h1 <;> (rw [hok] at h1; cases h1)
    · rw [hok] at h1; cases h1
  obtain ⟨s1, hd1, hrep⟩ := first
  obtain ⟨js, rest, as, hs, s2, g1, g2, g3, g4, g5, g6, g7⟩ :=
    writerThread_spec he L max vis io q.length 0 q ⟨(Db.append B env req i d).2, [], [], false⟩ s1
      (Nat.le_refl _) hd1 rfl hq
  obtain ⟨tr, t1, t2, t3⟩ := served_trace g2
  have hlog := trace_log t3
  have hr := hrep ((tookEffect tr).flatMap recordsOf)
  rw [← hlog] at hr
  have hv2 : violations s2.log c ≠ [] := by
    intro h
    have := congrArg List.length hr.1.2.2.2
    rw [h] at this
    simp at this
    exact hne (List.eq_nil_of_length_eq_zero this.symm)
  have hspec : Spec.append valid s2 req = (.ok p, s2) := by
    simp [Spec.append, hc, hv2, hr.1, hr.2]
  refine ⟨_, readsAll he L g5, ?_⟩
  rcases api_append_spec (valid := valid) he L g5 ha hne i' with ⟨k1, k2⟩ | ⟨e, k1, k2, k3⟩
  · rw [hspec] at k1 k2
    refine ⟨readsAll he L k2, Or.inl ?_⟩
    change Says (Db.append B env req i' d2).1 _ at k1
    generalize (Db.append B env req i' d2).1 = r at k1
    cases r with
    | ok p' => simp only [Says] at k1; rw [k1]
    | error e => cases e <;> simp [Says] at k1
  · rw [hspec] at k3
    exact ⟨readsAll he L (k3.elim id id), Or.inr ⟨e, k1, k2⟩⟩

/-- C06: a conditional append for which a violating event is recorded is answered `Ok p` only if it repeats recorded
events: every submitted event has a uuid, the first violating events carry exactly the submitted uuids in order, and
`p` is the position of the last of them. -/
theorem C06_ok_only_for_repeat {env : Env} (he : EnvOk env) (L : Lawful B env.H valid) {d : δ} {s : Spec.Db}
    (hd : L.RepD d s) {req : Request} (ha : AfterOk req) (hne : req.events ≠ []) (i : ι) {c : Condition}
    (hc : req.condition = some c) (hcf : Conflict s.log c) {p : Nat} (hok : (Db.append B env req i d).1 = .ok p) :
    (∀ e ∈ req.events, e.uuid.isSome) ∧
    ((violations s.log c).take req.events.length).map (·.event.uuid) = req.events.map (·.uuid) ∧
    (∃ last, ((violations s.log c).take req.events.length).getLast? = some last ∧ last.position = p) ∧
    L.RepD (Db.append B env req i d).2 s := by
  have hv := conflict_iff.mp hcf
  rcases api_append_spec (valid := valid) he L hd ha hne i with ⟨h1, h2⟩ | ⟨e, h1, _⟩
  · by_cases hrep : IsRepeat s.log c req.events
    · have hspec : Spec.append valid s req = (.ok (repeatPosition s.log c req.events), s) := by
        simp [Spec.append, hc, hv, hrep]
      rw [hspec] at h1 h2
      rw [hok] at h1
      simp only [Says] at h1
      refine ⟨hrep.2.1, hrep.2.2.2, ?_, h2⟩
      cases hl : ((violations s.log c).take req.events.length).getLast? with
      | none =>
        rw [List.getLast?_eq_none_iff] at hl
        have := hrep.2.2.2
        rw [hl] at this
        have := congrArg List.length this
        simp at this
        exact absurd (List.eq_nil_of_length_eq_zero this.symm) hne
      | some last => exact ⟨last, rfl, by rw [h1]; simp [repeatPosition, hl]⟩
    · have hspec : Spec.append valid s req = (.refusedIntegrity, s) := by
        simp [Spec.append, hc, hv, hrep]
      rw [hspec, hok] at h1
      simp [Says] at h1
  · rw [hok] at h1; cases h1

/-- C12: a tracked append whose position is not greater than the recorded one is refused with an integrity error (given
that its condition and events are acceptable) and changes nothing. -/
theorem C12_not_increasing_refused {env : Env} (he : EnvOk env) (L : Lawful B env.H valid) {d : δ} {s : Spec.Db}
    (hd : L.RepD d s) {req : Request} (ha : AfterOk req) (hne : req.events ≠ []) (i : ι) {t : Tracking}
    (ht : req.tracking = some t) (hlen : t.source.utf8ByteSize ≤ 255)
    (hc : req.condition = none) (hval : ∀ e ∈ req.events, valid ⟨e, some t⟩)
    {p : Nat} (hp : B.trackR d t.source = .ok (some p)) (hle : t.position ≤ p) :
    ((∃ m, (Db.append B env req i d).1 = .error (.integrity m)) ∨
      ∃ e, (Db.append B env req i d).1 = .error e ∧ Fatal e) ∧
    L.RepD (Db.append B env req i d).2 s := by
  have hp' : s.track t.source = some p := by
    have := L.trackR t.source hd; rw [hp] at this; exact (Except.ok.inj this).symm
  have hv : ∀ r ∈ recordsOf req, valid r := by
    intro r hr; simp [recordsOf, ht] at hr; obtain ⟨e, he', rfl⟩ := hr; exact hval e he'
  have hspec : Spec.append valid s req = (.refusedIntegrity, s) := by
    unfold Spec.append
    simp only [hc, Option.bind_none, ht]
    rw [if_neg (not_not_intro hv), if_neg (by omega), if_pos ⟨p, hp', hle⟩]
  rcases api_append_spec (valid := valid) he L hd ha hne i with ⟨h1, h2⟩ | ⟨e, h1, h2, h3⟩
  · rw [hspec] at h1 h2
    refine ⟨Or.inl ?_, h2⟩
    generalize (Db.append B env req i d).1 = r at h1
    cases r with
    | ok p => simp [Says] at h1
    | error e => cases e <;> simp [Says] at h1; exact ⟨_, rfl⟩
  · rw [hspec] at h3
    exact ⟨Or.inr ⟨e, h1, h2⟩, h3.elim id id⟩

/-- C12: an accepted tracked append sets the recorded position to the given one. -/
theorem C12_accepted_sets {env : Env} (he : EnvOk env) (L : Lawful B env.H valid) {d : δ} {s : Spec.Db}
    (hd : L.RepD d s) {req : Request} (ha : AfterOk req) (hne : req.events ≠ []) (i : ι) {t : Tracking}
    (ht : req.tracking = some t) (hc : req.condition = none) {p : Nat} (hok : (Db.append B env req i d).1 = .ok p) :
    B.trackR (Db.append B env req i d).2 t.source = .ok (some t.position) ∧
    (∀ src, src ≠ t.source → B.trackR (Db.append B env req i d).2 src = B.trackR d src) ∧
    ∀ p', B.trackR d t.source = .ok (some p') → p' < t.position := by
  rcases api_append_spec (valid := valid) he L hd ha hne i with ⟨h1, h2⟩ | ⟨e, h1, _⟩
  · rw [hok] at h1
    have hcase := append_case (valid := valid) s req
    generalize Spec.append valid s req = x at hcase h1 h2
    cases hcase with
    | took _ _ ht' =>
      refine ⟨?_, ?_, ?_⟩
      · rw [L.trackR _ h2]; simp [effect, ht, setTrack]
      · intro src hsrc; rw [L.trackR _ h2, L.trackR _ hd]; simp [effect, ht, setTrack, hsrc]
      · intro p' hp'
        rw [L.trackR _ hd] at hp'
        exact (ht' t ht).2 p' (Except.ok.inj hp')
    | repeated c hc' => rw [hc] at hc'; cases hc'
    | _ => simp [Says] at h1
  · rw [hok] at h1; cases h1

/-- C12: whatever is served, the recorded position of a source never decreases and never disappears. -/
theorem C12_monotone {env : Env} (he : EnvOk env) (L : Lawful B env.H valid) {d : δ} {s : Spec.Db}
    (hd : L.RepD d s) (max : Nat) (vis : Nat → Nat) (io : Nat → ι) (q : List Msg) (ha : AfterOkAll q)
    {src : String} {p : Nat} (hp : B.trackR d src = .ok (some p)) :
    ∃ p', B.trackR (serve B env max vis io d q).db src = .ok (some p') ∧ p ≤ p' := by
  obtain ⟨js, rest, as, hs, s', h1, h2, h3, h4, h5, h6, h7⟩ :=
    writerThread_spec he L max vis io q.length 0 q ⟨d, [], [], false⟩ s (Nat.le_refl _) hd rfl ha
  obtain ⟨tr, t1, t2, t3⟩ := served_trace h2
  have : s.track src = some p := by
    have := L.trackR src hd; rw [hp] at this; exact (Except.ok.inj this).symm
  obtain ⟨p', hp', hle⟩ := trace_monotone t3 this
  exact ⟨p', by rw [serve, L.trackR src h5, hp'], hle⟩

/-- C13/C14: after any history, the requests served split into those that took effect and those that did not (`tr` lists
request, answer and a flag).  The events stored are exactly those of the former, each with its request's tracking
info, in order; the tracking value of every source is that of the last of the former that mentions it; a request that
was refused or is told a failure before the commit had no effect, and `Ok` without effect is only told to repeats. -/
theorem C13_tracking_with_events {env : Env} (he : EnvOk env) (L : Lawful B env.H valid) {d : δ}
    (hd : L.RepD d Spec.Db.empty) (max : Nat) (vis : Nat → Nat) (io : Nat → ι) (q : List Msg) (ha : AfterOkAll q) :
    ∃ tr : List (Request × Except Err Nat × Bool),
      tr.map (·.1) <+: (appendJobs q).map (·.req) ∧
      tr.map (·.2.1) = (serve B env max vis io d q).answers.map (·.2) ∧
      ReadsAll B env (serve B env max vis io d q).db
        (sequenced ((tookEffect tr).flatMap fun r => r.events.map fun e => ⟨e, r.tracking⟩)) ∧
      (∀ src, B.trackR (serve B env max vis io d q).db src =
        .ok (((((tookEffect tr).filterMap (·.tracking)).filter (·.source = src)).getLast?).map (·.position))) ∧
      (∀ x ∈ tr, x.2.2 = true → (∃ p, x.2.1 = .ok p) ∨ Failure x.2.1) ∧
      (∀ x ∈ tr, x.2.2 = false → ∀ p, x.2.1 = .ok p → x.1.condition.isSome ∧ ∀ e ∈ x.1.events, e.uuid.isSome) := by
  obtain ⟨js, rest, as, hs, s', h1, h2, h3, h4, h5, h6, h7⟩ :=
    writerThread_spec he L max vis io q.length 0 q ⟨d, [], [], false⟩ _ (Nat.le_refl _) hd rfl ha
  obtain ⟨tr, t1, t2, t3⟩ := served_trace h2
  have hlog : s'.log = (tookEffect tr).flatMap fun r => r.events.map fun e => ⟨e, r.tracking⟩ := by
    have := trace_log t3; simp only [Spec.Db.empty, List.nil_append] at this; exact this
  refine ⟨tr, ?_, ?_, ?_, ?_, ?_, ?_⟩
  · rw [t1, h1]; simp [clientReqs, Function.comp_def]
  · rw [t2, serve, h3]; simp
  · rw [← hlog]; exact readsAll he L h5
  · intro src
    rw [serve, L.trackR src h5, trace_track t3 src]
    simp only [lastUpdate, Spec.Db.empty, Option.or_none]
  · clear t1 t2 hlog h2 h5
    generalize Spec.Db.empty = s0 at t3
    clear hd
    induction t3 with
    | nil => simp
    | took _ _ _ hans _ ih =>
      intro x hx hf
      rcases List.mem_cons.mp hx with e | hx
      · subst e
        rcases hans with ⟨_, h⟩ | ⟨_, h⟩ | h
        · exact Or.inl ⟨_, h⟩
        · exact Or.inl ⟨_, h⟩
        · exact Or.inr h
      · exact ih x hx hf
    | not _ _ ih =>
      intro x hx hf
      rcases List.mem_cons.mp hx with e | hx
      · subst e; cases hf
      · exact ih x hx hf
  · clear t1 t2 hlog h2 h5
    generalize Spec.Db.empty = s0 at t3
    clear hd
    induction t3 with
    | nil => simp
    | took _ _ _ _ _ ih =>
      intro x hx hf
      rcases List.mem_cons.mp hx with e | hx
      · subst e; cases hf
      · exact ih x hx hf
    | not hans _ ih =>
      intro x hx hf
      rcases List.mem_cons.mp hx with e | hx
      · subst e
        intro p hp
        rcases hans with ⟨e, h⟩ | ⟨c, hc, hrep, _⟩
        · simp only at hp; rw [h] at hp; cases hp
        · have hc : _ = some c := hc
          exact ⟨by simp only; rw [hc]; rfl, hrep.2.1⟩
      · exact ih x hx hf

/-- C30: every request taken from the queue gets exactly one answer, in order; without shutdown and panic these are all
requests. -/
theorem C30_one_answer_each {env : Env} (he : EnvOk env) (L : Lawful B env.H valid) {d : δ} {s : Spec.Db}
    (hd : L.RepD d s) (max : Nat) (vis : Nat → Nat) (io : Nat → ι) (q : List Msg) (ha : AfterOkAll q) :
    (serve B env max vis io d q).answers.map (·.1) <+: (appendJobs q).map (·.id) ∧
    (NoShutdown q → (serve B env max vis io d q).panicked = false →
      (serve B env max vis io d q).answers.map (·.1) = (appendJobs q).map (·.id)) := by
  obtain ⟨js, rest, as, hs, s', h1, h2, h3, h4, h5, h6, h7⟩ :=
    writerThread_spec he L max vis io q.length 0 q ⟨d, [], [], false⟩ s (Nat.le_refl _) hd rfl ha
  have key : ∀ {s js as hs s'}, Served valid s js as hs s' → as.map (·.1) = js.map (·.1) := by
    intro s js as hs s' h
    induction h with
    | done => rfl
    | committed i1 _ _ ih => simp [i1, ih]
    | failed i1 _ _ ih => simp [i1, ih]
    | failedLate i1 _ _ ih => simp [i1, ih]
  have hk : as.map (·.1) = js.map (·.id) := by rw [key h2]; simp [clientReqs]
  have h3' : (serve B env max vis io d q).answers = as := by rw [serve, h3]; simp
  rw [h3', hk, h1]
  refine ⟨by simp, ?_⟩
  intro hns hnp
  rw [h6 hnp hns]; simp

/-- C29: when a request of a batch fails (neither success nor refusal), nothing is committed, the failing request is told
its own error, and every other one in the batch is told an error. -/
theorem C29_batch_abort {env : Env} (L : Lawful B env.H valid) {b : Batch σ} {s0 : Spec.Db}
    {js : List Job} (hb : BInv L.toWorkable b s0 js) {f : Nat} {e : Err} (hab : b.abort = some (f, e)) (i : ι) (d : δ) :
    (finishBatch B i d b).1 = d ∧
    (finishBatch B i d b).2.1.map (·.1) = js.map (·.id) ∧
    (finishBatch B i d b).2.1[f]? = (js[f]?).map (fun j => (j.id, .error e)) ∧ f < js.length ∧
    (∀ a ∈ (finishBatch B i d b).2.1, Failure a.2) ∧
    (finishBatch B i d b).2.2 = none := by
  obtain ⟨hf, hlen, _⟩ := hb.bad f e hab
  simp only [finishBatch, hab]
  refine ⟨trivial, by rw [abortAnswers_fst, hb.resp], ?_, by omega, ?_, trivial⟩
  · simp only [abortAnswers, hb.resp, List.getElem?_map, List.getElem?_zipIdx, List.getElem?_map]
    cases js[f]? <;> simp
  · intro a ha
    simp only [abortAnswers, List.mem_map] at ha
    obtain ⟨x, _, rfl⟩ := ha
    simp only
    split
    · exact failure_of_fatal hf
    · exact failure_of_fatal (fatal_shadow hf)

/-- The text an error carries, if its kind carries one (`DcbError`: page numbers, cancellation and timeout carry none). -/
def message : Err → Option String
  | .io m | .integrity m | .corruption m | .invalidArgument m | .initialization m | .databaseCorrupted m | .internal m
  | .serialization m | .deserialization m | .transport m | .authentication m => some m
  | .pageNotFound _ | .dirtyPageNotFound _ | .rootIdMismatch _ _ | .pageAlreadyFreed _ | .pageAlreadyDirty _
  | .cancelledByUser | .timeout | .panic _ => none

/-- C29: what the bystanders of an aborted batch are told, for every kind of error: an error of the same kind, which says
that the batch was aborted wherever its kind carries a text, and is the failing request's own error otherwise. -/
theorem C29_bystander (e : Err) :
    (shadow e).ctorIdx = e.ctorIdx ∧ message (shadow e) = (message e).map (fun _ => "batch aborted due to internal error") ∧
      (message e = none → shadow e = e) := by
  cases e <;> simp [shadow, message, abortMsg, Err.ctorIdx]

/-- C29: in an aborted batch everyone but the failing request is told that. -/
theorem C29_bystanders {env : Env} (L : Lawful B env.H valid) {b : Batch σ} {s0 : Spec.Db}
    {js : List Job} (hb : BInv L.toWorkable b s0 js) {f : Nat} {e : Err} (hab : b.abort = some (f, e)) (i : ι) (d : δ) (k : Nat)
    (hk : k ≠ f) (j : Job) (hj : js[k]? = some j) :
    (finishBatch B i d b).2.1[k]? = some (j.id, .error (shadow e)) := by
  simp only [finishBatch, hab, abortAnswers, hb.resp, List.getElem?_map, List.getElem?_zipIdx, hj]
  simp [hk]

/-! ## C49: batch size -/

/-- Number of events in requests. -/
def eventCount (js : List Job) : Nat := (js.map fun j => j.req.events.length).sum

omit [DecidablePred valid] in
theorem stepJob_taken {env : Env} {b b' : Batch σ} {j : Job} (h : stepJob B env b j = .ok b') :
    b'.responders = b.responders ++ [j.id] ∧ b'.total = b.total + j.req.events.length := by
  unfold stepJob at h
  split at h
  · cases h
  · cases h; exact ⟨rfl, rfl⟩
  · cases h; exact ⟨rfl, rfl⟩

omit [DecidablePred valid] in
/-- What the drain loop takes from the queue and why it stops. -/
theorem drain_taken {env : Env} {max : Nat} :
    ∀ {vis : Nat} {q q' : List Msg} {b b' : Batch σ}, drain B env max vis q b = .ok (b', q') →
      ∃ js stop, q = js.map .append ++ stop ++ q' ∧ (stop = [] ∨ stop = [.shutdown]) ∧ js.length + stop.length ≤ vis ∧
        b'.responders = b.responders ++ js.map (·.id) ∧ b'.total = b.total + eventCount js ∧
        (∀ init last rest, js = init ++ last :: rest → b.total + eventCount init < max) ∧
        (js.length < vis → q' ≠ [] → stop = [] → b'.abort = none → max ≤ b'.total) := by
  intro vis
  induction vis with
  | zero =>
    intro q q' b b' h
    simp only [drain, Except.ok.injEq, Prod.mk.injEq] at h
    obtain ⟨rfl, rfl⟩ := h
    exact ⟨[], [], by simp, .inl rfl, by simp, by simp, by simp [eventCount], by simp, by simp⟩
  | succ vis ih =>
    intro q q' b b' h
    cases q with
    | nil =>
      simp only [drain, Except.ok.injEq, Prod.mk.injEq] at h
      obtain ⟨rfl, rfl⟩ := h
      exact ⟨[], [], by simp, .inl rfl, by simp, by simp, by simp [eventCount], by simp, by simp⟩
    | cons m q =>
      simp only [drain] at h
      split at h
      · rename_i hmax
        simp only [Except.ok.injEq, Prod.mk.injEq] at h
        obtain ⟨rfl, rfl⟩ := h
        exact ⟨[], [], by simp, .inl rfl, by simp, by simp, by simp [eventCount], by simp, fun _ _ _ _ => hmax⟩
      rename_i hmax
      split at h
      · rename_i hab
        simp only [Except.ok.injEq, Prod.mk.injEq] at h
        obtain ⟨rfl, rfl⟩ := h
        exact ⟨[], [], by simp, .inl rfl, by simp, by simp, by simp [eventCount], by simp,
          fun _ _ _ hn => by rw [hn] at hab; simp at hab⟩
      cases m with
      | shutdown =>
        simp only [Except.ok.injEq, Prod.mk.injEq] at h
        obtain ⟨rfl, rfl⟩ := h
        exact ⟨[], [.shutdown], by simp, .inr rfl, by simp, by simp, by simp [eventCount], by simp, by simp⟩
      | append j =>
        simp only at h
        split at h
        · cases h
        rename_i b1 hstep
        obtain ⟨r1, r2⟩ := stepJob_taken hstep
        obtain ⟨js, stop, h1, h2, h3, h4, h5, h6, h7⟩ := ih h
        refine ⟨j :: js, stop, by simp [h1], h2, by simp; omega, by simp [h4, r1], ?_, ?_, ?_⟩
        · rw [h5, r2]; simp [eventCount]; omega
        · intro init last rest hl
          cases init with
          | nil => simp [eventCount]; omega
          | cons x init =>
            simp only [List.cons_append, List.cons.injEq] at hl
            obtain ⟨rfl, hl⟩ := hl
            have := h6 init last rest hl
            rw [r2] at this
            simp only [eventCount, List.map_cons, List.sum_cons] at this ⊢
            omega
        · intro a1 a2 a3 a4
          exact h7 (by simp at a1; omega) a2 a3 a4

omit [DecidablePred valid] in
/-- C49: a batch is a run of consecutive requests from the front of the queue.  A request joins it only while the events
taken before it are fewer than the limit, so a batch goes over the limit by its last request at most; and the batch is
not closed below the limit while requests are visible (unless it has failed or a shutdown was found). -/
theorem C49_batch_limit {env : Env} {max vis : Nat} {w : σ} {j : Job} {b b' : Batch σ} {q q' : List Msg}
    (h0 : stepJob B env (Batch.new w) j = .ok b) (h : drain B env max vis q b = .ok (b', q')) :
    ∃ js stop, q = js.map .append ++ stop ++ q' ∧ (stop = [] ∨ stop = [.shutdown]) ∧ js.length + stop.length ≤ vis ∧
      b'.responders = (j :: js).map (·.id) ∧
      (∀ init last, j :: js = init ++ [last] → init ≠ [] → eventCount init < max) ∧
      (js.length < vis → q' ≠ [] → stop = [] → b'.abort = none → max ≤ eventCount (j :: js)) := by
  obtain ⟨r1, r2⟩ := stepJob_taken h0
  obtain ⟨js, stop, h1, h2, h3, h4, h5, h6, h7⟩ := drain_taken h
  have hb : b.total = eventCount [j] := by rw [r2]; simp [Batch.new, eventCount]
  refine ⟨js, stop, h1, h2, h3, by rw [h4, r1]; simp [Batch.new], ?_, ?_⟩
  · intro init last hl hne
    cases init with
    | nil => exact absurd rfl hne
    | cons x init =>
      simp only [List.cons_append, List.cons.injEq] at hl
      obtain ⟨rfl, hl⟩ := hl
      have := h6 init last [] hl
      rw [hb] at this
      simpa [eventCount] using this
  · intro a1 a2 a3 a4
    have := h7 a1 a2 a3 a4
    rw [h5, hb] at this
    simpa [eventCount] using this

/-- C45, proved part: if the append of one client ends with the cancellation error, then nothing of its batch is stored
and every request grouped with it is told a failure, so that each can be sent again.  Missing (false of the code, see
`C45_false`): that the others are answered as if the cancelled request had not been there. -/
theorem C45_cancelled_partial {env : Env} (L : Lawful B env.H valid) {b : Batch σ} {s0 : Spec.Db}
    {js : List Job} (hb : BInv L.toWorkable b s0 js) (j : Job) {w' : σ}
    (h : processAppend B env j.req j.cancel b.w = (.error .cancelledByUser, w')) (i : ι) (d : δ) :
    ∃ b', stepJob B env b j = .ok b' ∧ (finishBatch B i d b').1 = d ∧
      (finishBatch B i d b').2.1.map (·.1) = (js ++ [j]).map (·.id) ∧
      (∀ a ∈ (finishBatch B i d b').2.1, a.2 = .error .cancelledByUser) := by
  simp only [stepJob, h, isIntegrityError, isInvalidArgumentError]
  refine ⟨_, rfl, ?_, ?_, ?_⟩
  · simp [finishBatch]
  · simp [finishBatch, abortAnswers_fst, hb.resp]
  · intro a ha
    simp [finishBatch, abortAnswers, shadow] at ha
    obtain ⟨x, y, _, rfl⟩ := ha
    simp

def headLe : Option Nat → Option Nat → Prop
  | none, _ => True
  | some _, none => False
  | some a, some b => a ≤ b

/-- Heads announced while requests are served. -/
theorem served_heads {s s' : Spec.Db} {js : List (Nat × Request)} {as : List Answer} {hs : List (Option Nat)}
    (h : Served valid s js as hs s') : s.log <+: s'.log ∧ (∀ h ∈ hs, headLe (Spec.head s.log) h ∧ headLe h (Spec.head s'.log)) ∧
      hs.Pairwise headLe := by
  have hle : ∀ {l l' : Log}, l <+: l' → headLe (Spec.head l) (Spec.head l') := by
    intro l l' h
    have hl := h.length_le
    unfold Spec.head
    by_cases h1 : l = []
    · simp [h1, headLe]
    · have h2 : l' ≠ [] := by
        intro h2; rw [h2] at hl; exact h1 (List.eq_nil_of_length_eq_zero (by simpa using hl))
      simp [h1, h2, headLe, hl]
  have hpre : ∀ (s : Spec.Db) (reqs : List Request), s.log <+: (appendAll valid s reqs).2.log := by
    intro s reqs
    induction reqs generalizing s with
    | nil => exact List.prefix_refl _
    | cons r reqs ih =>
      simp only [appendAll]
      refine List.IsPrefix.trans ?_ (ih _)
      have hcase := append_case (valid := valid) s r
      generalize Spec.append valid s r = x at hcase
      cases hcase with
      | took _ _ _ => exact List.prefix_append _ _
      | _ => exact List.prefix_refl _
  induction h with
  | done => exact ⟨List.prefix_refl _, by simp, .nil⟩
  | @committed s js as js' as' hs s' _ _ _ ih =>
    obtain ⟨i1, i2, i3⟩ := ih
    have hp := hpre s (js.map (·.2))
    refine ⟨hp.trans i1, ?_, ?_⟩
    · intro h hm
      rcases List.mem_cons.mp hm with e | hm
      · subst e; exact ⟨hle hp, hle i1⟩
      · obtain ⟨j1, j2⟩ := i2 h hm
        refine ⟨?_, j2⟩
        have := hle hp
        generalize Spec.head s.log = a at *
        generalize Spec.head (appendAll valid s (js.map (·.2))).2.log = b at *
        cases a <;> cases b <;> cases h <;> simp_all [headLe]; omega
    · exact List.pairwise_cons.mpr ⟨fun h hm => (i2 h hm).1, i3⟩
  | failed _ _ _ ih => exact ih
  | @failedLate s js as js' as' hs s' _ _ _ ih =>
    obtain ⟨i1, i2, i3⟩ := ih
    have hp := hpre s (js.map (·.2))
    refine ⟨hp.trans i1, ?_, i3⟩
    intro h hm
    obtain ⟨j1, j2⟩ := i2 h hm
    refine ⟨?_, j2⟩
    have := hle hp
    generalize Spec.head s.log = a at *
    generalize Spec.head (appendAll valid s (js.map (·.2))).2.log = b at *
    cases a <;> cases b <;> cases h <;> simp_all [headLe]; omega

/-- C32 (blocking writer): the heads announced never decrease, and none exceeds the head of the committed database. -/
theorem C32_heads {env : Env} (he : EnvOk env) (L : Lawful B env.H valid) {d : δ} {s : Spec.Db}
    (hd : L.RepD d s) (max : Nat) (vis : Nat → Nat) (io : Nat → ι) (q : List Msg) (ha : AfterOkAll q) :
    (Db.head B d :: (serve B env max vis io d q).heads).Pairwise headLe ∧
    ∀ h ∈ (serve B env max vis io d q).heads, headLe h (Db.head B (serve B env max vis io d q).db) := by
  obtain ⟨js, rest, as, hs, s', h1, h2, h3, h4, h5, h6, h7⟩ :=
    writerThread_spec he L max vis io q.length 0 q ⟨d, [], [], false⟩ s (Nat.le_refl _) hd rfl ha
  have hh : ∀ {d : δ} {s : Spec.Db}, L.RepD d s → Db.head B d = Spec.head s.log := fun h => C11_head L h
  obtain ⟨k1, k2, k3⟩ := served_heads h2
  have h4' : (serve B env max vis io d q).heads = hs := by rw [serve, h4]; simp
  rw [h4']
  refine ⟨List.pairwise_cons.mpr ⟨?_, k3⟩, ?_⟩
  · intro h hm; rw [hh hd]; exact (k2 h hm).1
  · intro h hm; rw [serve, hh h5]; exact (k2 h hm).2

/-- C40 (append): a request whose processing ends in an error - in particular a cancelled one - is not stored: its batch
is abandoned if the error is a failure, and if it is a refusal the content of the transaction is unchanged. -/
theorem C40_cancelled_append {env : Env} (he : EnvOk env) (L : Lawful B env.H valid) {w : σ} {s0 s : Spec.Db}
    (hw : L.Rep w s0 (Abs.of env.H s)) {req : Request} (ha : AfterOk req) (c : Nat → Cancel) {e : Err} {w' : σ}
    (h : processAppend B env req c w = (.error e, w')) (hf : isPanic e = false) :
    L.Rep w' s0 (Abs.of env.H s) ∨ ∀ (b : Batch σ) (j : Job), j.req = req → j.cancel = c → b.w = w →
      ∃ b', stepJob B env b j = .ok b' ∧ b'.abort = some (b.responders.length, e) ∧
        ∀ (i : ι) (d : δ), (finishBatch B i d b').1 = d := by
  rcases processAppend_spec (valid := valid) he L hw ha c with
    ⟨_, r, w2, h2, hs, hr, hun⟩ | ⟨e2, w2, h2, hfat, -⟩ | ⟨_, m, h2⟩
  · rw [h] at h2; cases h2; rcases hun with hun | ⟨p, hp⟩
    · rw [hun] at hr; exact Or.inl hr
    · cases hp
  · rw [h] at h2; cases h2
    right
    intro b j hj hc hbw
    subst hj hc hbw
    simp only [stepJob, h]
    cases e with
    | panic m => simp [isPanic] at hf
    | _ => exact ⟨_, rfl, by simp [hfat.1, hfat.2.1], by intro i d; simp [finishBatch, hfat.1, hfat.2.1]⟩
  · rw [h] at h2; cases h2; simp [isPanic] at hf

/-- C46, proved part: if no request has an empty event list together with a condition, the writer never stops, whatever
the requests, and (without shutdown) answers every one of them.  Missing: requests with an empty event list and a
violated condition do stop it (`C46_false`), and `after = 2^64 - 1` is misread (`C03_after_max_false`). -/
theorem C46_writer_survives_partial {env : Env} (he : EnvOk env) (L : Lawful B env.H valid) {d : δ} {s : Spec.Db}
    (hd : L.RepD d s) (max : Nat) (vis : Nat → Nat) (io : Nat → ι) (q : List Msg) (ha : AfterOkAll q)
    (hne : ∀ j ∈ appendJobs q, j.req.events ≠ [] ∨ j.req.condition = none) :
    (serve B env max vis io d q).panicked = false := by
  obtain ⟨js, rest, as, hs, s', h1, h2, h3, h4, h5, h6, h7⟩ :=
    writerThread_spec he L max vis io q.length 0 q ⟨d, [], [], false⟩ s (Nat.le_refl _) hd rfl ha
  cases hp : (writerThread B env max vis io 0 q ⟨d, [], [], false⟩).panicked with
  | false => exact hp
  | true =>
    obtain ⟨j, hj, hmp⟩ := h7 hp
    rcases hne j (by rw [h1]; simp [hj]) with h | h
    · exact absurd hmp.1 h
    · have := hmp.2; rw [h] at this; cases this

/-! ## Concrete cases and counterexamples (in-memory backend) -/

section Examples

def exU (n : UInt8) : Option Uuid := some (Vector.replicate 16 n)
def exEv (n : UInt8) : Event := ⟨"T", [n], ["t"], exU n, []⟩
def exReq : Request := ⟨[exEv 1, exEv 2], some ⟨⟨[⟨["T"], ["t"]⟩]⟩, some 0⟩, some ⟨"up", 9⟩⟩

abbrev MB := memBackend fun _ => true
def noCancel : Nat → Cancel := fun _ => Cancel.never

theorem exEmpty : (memLawful exEnv.H fun _ => true).RepD MemDb.empty Spec.Db.empty := memRep_empty _

/-- The hypotheses of C02, C05 and C12 hold for a concrete tracked, conditional, two-event request. -/
example : AfterOk exReq ∧ exReq.events ≠ [] ∧ (∀ e ∈ exReq.events, e.uuid.isSome) ∧
    (∀ c ∈ exReq.condition, ∀ e ∈ exReq.events, Matches c.failIfEventsMatch e) := by
  refine ⟨?_, by simp [exReq], ?_, ?_⟩
  · rintro c hc a ha'
    have hc : exReq.condition = some c := hc
    simp only [exReq, Option.some.injEq] at hc; subst hc; cases ha'; decide
  · decide
  · rintro c hc
    have hc : exReq.condition = some c := hc
    simp only [exReq, Option.some.injEq] at hc; subst hc; decide

/-- It is stored and answered 2; a repeat is answered 2 as well; a different event is refused. -/
example : (Db.append MB exEnv exReq .good MemDb.empty).1 = .ok 2 ∧
    (Db.append MB exEnv exReq .good (Db.append MB exEnv exReq .good MemDb.empty).2).1 = .ok 2 ∧
    (Db.append MB exEnv { exReq with events := [exEv 3], tracking := none } .good
      (Db.append MB exEnv exReq .good MemDb.empty).2).1 = .error (.integrity "condition matched") := by
  decide +kernel

/-- With a limit of two events, three one-event requests waiting are served in two commits (two heads announced); with a
limit of three in one. -/
example : (serve MB exEnv 2 (fun _ => 9) (fun _ => .good) MemDb.empty
      [.append ⟨1, ⟨[exEv 1], none, none⟩, noCancel⟩, .append ⟨2, ⟨[exEv 2], none, none⟩, noCancel⟩,
       .append ⟨3, ⟨[exEv 3], none, none⟩, noCancel⟩]).heads = [some 2, some 3] ∧
    (serve MB exEnv 3 (fun _ => 9) (fun _ => .good) MemDb.empty
      [.append ⟨1, ⟨[exEv 1], none, none⟩, noCancel⟩, .append ⟨2, ⟨[exEv 2], none, none⟩, noCancel⟩,
       .append ⟨3, ⟨[exEv 3], none, none⟩, noCancel⟩]).heads = [some 3] := by
  decide +kernel

example : shadow (.io "disk full") = .io "batch aborted due to internal error" ∧ shadow (.pageNotFound 7) = .pageNotFound 7 := by
  decide

/-- C45 is false of the code: a cancelled request makes the batch fail for another client, whose append is lost although
it would have succeeded alone. -/
theorem C45_false :
    let j1 : Job := ⟨1, ⟨[exEv 1], none, none⟩, noCancel⟩
    let j2 : Job := ⟨2, ⟨[exEv 2], some ⟨⟨[]⟩, none⟩, none⟩, fun _ _ => true⟩
    (serve MB exEnv 2048 (fun _ => 9) (fun _ => .good) MemDb.empty [.append j1]).answers = [(1, .ok 1)] ∧
    (serve MB exEnv 2048 (fun _ => 9) (fun _ => .good) MemDb.empty [.append j1, .append j2]).answers =
      [(1, .error .cancelledByUser), (2, .error .cancelledByUser)] := by
  decide +kernel

/-- C46 is false of the code: an empty append whose condition matches a recorded event stops the writer; the request
queued behind it is never answered. -/
theorem C46_false :
    let j1 : Job := ⟨1, ⟨[], some ⟨⟨[]⟩, none⟩, none⟩, noCancel⟩
    let j2 : Job := ⟨2, ⟨[exEv 2], none, none⟩, noCancel⟩
    (serve MB exEnv 2048 (fun _ => 0) (fun _ => .good) exDb [.append j1, .append j2]).panicked = true ∧
    (serve MB exEnv 2048 (fun _ => 0) (fun _ => .good) exDb [.append j1, .append j2]).answers = [] := by
  decide +kernel

/-- C03 is false at the largest `after`: no event can have a higher position, yet the append is refused, because
`after + 1` wraps to 0. -/
theorem C03_after_max_false :
    let c : Condition := ⟨⟨[]⟩, some (2 ^ 64 - 1)⟩
    ¬ Conflict exLog c ∧
    (Db.append MB exEnv ⟨[exEv 1], some c, none⟩ .good exDb).1 = .error (.integrity "condition matched") := by
  refine ⟨?_, ?_⟩
  · rw [conflict_iff]; decide
  · decide +kernel

end Examples

end Uma.Props
