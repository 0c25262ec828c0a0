import Verif.Net.CancelProof
import Verif.Props.Net
import Mathlib.Data.List.Forall2

/-! # C59: cancelling a stream -/

namespace Uma.Props
open Uma.Net
open Uma.Server (Response)

/-! ## Nothing new after the cancel -/

/-- The calls that cancel a stream. -/
inductive Cancels : COp → Prop
  | read : Cancels .cancelRead
  | subscription : Cancels .cancelSubscription
  | handle : Cancels .cancelHandle
  | all : Cancels .cancelAll

theorem run_over_sync (ops : List COp) : ∀ (s : CSync), Over s.inner →
    ((cRun cSyncOp s ops).1.flatMap received).Sublist s.held ∧
      (cRun cSyncOp s ops).2.inner.base.stream = s.inner.base.stream := by
  induction ops with
  | nil => intro s _; exact ⟨List.nil_sublist _, rfl⟩
  | cons op ops ih =>
    intro s h
    rcases hs : cSyncOp s op with ⟨r, s'⟩
    obtain ⟨h1, h2⟩ := cSyncOp_over h op hs
    obtain ⟨i1, i2⟩ := ih s' h1.over
    simp only [cRun, hs]
    cases r with
    | none => exact ⟨List.nil_sublist _, h1.data.1⟩
    | some o =>
      refine ⟨?_, i2.trans h1.data.1⟩
      cases o with
      | none => exact i1.trans (by simpa [handed] using h2)
      | some o =>
        simp only [Option.toList_some, List.singleton_append, List.flatMap_cons]
        exact (i1.append_left (received o)).trans h2

theorem run_over_async (ops : List COp) : ∀ (c : CAsync), Over c →
    ((cRun cAsyncOp c ops).1.flatMap received).Sublist c.base.buffer ∧
      (cRun cAsyncOp c ops).2.base.stream = c.base.stream := by
  induction ops with
  | nil => intro s _; exact ⟨List.nil_sublist _, rfl⟩
  | cons op ops ih =>
    intro s h
    rcases hs : cAsyncOp s op with ⟨r, s'⟩
    obtain ⟨h1, h2⟩ := cAsyncOp_over h op hs
    obtain ⟨i1, i2⟩ := ih s' h1.over
    simp only [cRun, hs]
    cases r with
    | none => exact ⟨List.nil_sublist _, h1.data.1⟩
    | some o =>
      refine ⟨?_, i2.trans h1.data.1⟩
      cases o with
      | none => exact i1.trans (by simpa [handed] using h2)
      | some o =>
        simp only [Option.toList_some, List.singleton_append, List.flatMap_cons]
        exact (i1.append_left (received o)).trans h2

/-- C59: whatever was called before and whatever is called after a cancel, the events handed over after it had been received
before it, in their order and none twice, and nothing is taken from the transport any more.  Both kinds of objects. -/
theorem C59_nothing_new (k : COp) (hk : Cancels k) (after : List COp) :
    (∀ s : CSync, ((cRun cSyncOp s (k :: after)).1.flatMap received).Sublist (s.buffer ++ s.inner.base.buffer) ∧
      (cRun cSyncOp s (k :: after)).2.inner.base.stream = s.inner.base.stream) ∧
    (∀ c : CAsync, ((cRun cAsyncOp c (k :: after)).1.flatMap received).Sublist c.base.buffer ∧
      (cRun cAsyncOp c (k :: after)).2.base.stream = c.base.stream) := by
  constructor
  · intro s
    cases hk
    · exact run_over_sync after s.cancelRead (Or.inr (Or.inl rfl))
    · exact run_over_sync after s.cancelSubscription (Or.inr (Or.inl rfl))
    · exact run_over_sync after { s with inner := s.inner.cancel } (Or.inr (Or.inl rfl))
    · exact run_over_sync after { s with inner := s.inner.cancelAll } (Or.inl rfl)
  · intro c
    cases hk
    · exact run_over_async after c.cancel (Or.inr (Or.inl rfl))
    · exact run_over_async after c.cancel (Or.inr (Or.inl rfl))
    · exact run_over_async after c.cancel (Or.inr (Or.inl rfl))
    · exact run_over_async after c.cancelAll (Or.inl rfl)

/-! ## The program is told -/

/-- The stream has been cancelled and the object does not know yet. -/
structure Untold (s : CSync) : Prop where
  signal : s.inner.glob = true ∨ s.inner.loc = true
  unfinished : s.finished = false
  open_ : s.inner.base.ended = false

/-- The calls that ask for events, with time to run. -/
inductive Asks : COp → Prop
  | next (timed : Bool) (t : Turn) (ts : List Turn) : Asks (.next timed (t :: ts))
  | nextBatch (timed : Bool) (t : Turn) (ts : List Turn) : Asks (.nextBatch timed (t :: ts))

/-- An answer that says `CancelledByUser`. -/
def SaysCancelled : Out → Prop
  | .item r => r = some (.error .cancelledByUser)
  | .batch r => r = .error .cancelledByUser
  | .head r => r = .error .cancelledByUser

theorem untold_later {s : CSync} (h : Untold s) (ts : List Turn) : Untold (s.later ts) := by
  have hsig : ∀ (ts : List Turn) (c : CAsync), (c.glob = true ∨ c.loc = true) →
      (c.arriveAll ts).glob = true ∨ (c.arriveAll ts).loc = true := by
    intro ts
    induction ts with
    | nil => intro c h; exact h
    | cons t ts ih =>
      intro c h
      refine ih (c.arrive t) ?_
      rcases h with h | h
      · exact Or.inl (by simp [CAsync.arrive, h])
      · exact Or.inr (by simp [CAsync.arrive, h])
  exact ⟨hsig ts _ h.signal, h.unfinished, by simp only [CSync.later, arriveAll_base]; exact h.open_⟩

/-- C59: after a cancel by handle, by `close` of the client, by `cancel_all_stream_responses` or by the subscription's own
`cancel`, every call returns; `next` says `CancelledByUser` at once, a batch call says it unless it still has events to hand
over, and then the next call is in the same situation. -/
theorem C59_told_partial {s : CSync} (h : Untold s) {op : COp} (ha : Asks op) :
    ∃ o s', cSyncOp s op = (some (some o), s') ∧
      (SaysCancelled o ∨ (received o ≠ [] ∧ Untold s')) ∧
      (∀ timed ts, op = .next timed ts → SaysCancelled o) := by
  have hst : s.inner.status = .cancelled := by unfold CAsync.status; rw [if_pos h.signal]
  cases ha with
  | next timed t ts =>
    have hn : cSyncNext timed (t :: ts) s =
        (some (some (.error .cancelledByUser)), { s with finished := true, buffer := [] }, t :: ts) := by
      unfold cSyncNext; rw [if_pos ⟨h.unfinished, hst⟩]
    simp only [cSyncOp, hn]
    exact ⟨_, _, rfl, Or.inl rfl, fun _ _ _ => rfl⟩
  | nextBatch timed t ts =>
    by_cases hb : s.buffer ≠ []
    · have hn : cSyncNextBatch timed (t :: ts) s = (some (.ok s.buffer), { s with buffer := [] }, t :: ts) := by
        unfold cSyncNextBatch; rw [if_pos hb]
      simp only [cSyncOp, hn]
      exact ⟨_, _, rfl, Or.inr ⟨hb, untold_later (s := { s with buffer := [] }) ⟨h.signal, h.unfinished, h.open_⟩ _⟩,
        fun _ _ hc => nomatch hc⟩
    · have hb' : s.buffer = [] := by simpa using hb
      have hov : Over s.inner := by rcases h.signal with h | h; exact Or.inl h; exact Or.inr (Or.inl h)
      by_cases hi : s.inner.base.buffer = []
      · rcases hr : cRefill timed (t :: ts) s with ⟨r, s1, ts1⟩
        obtain ⟨_, h2, h3⟩ := cRefill_over hov hb' timed (t :: ts) hr
        have hro := h.open_
        rcases h3 with ⟨_, h4, _⟩ | ⟨_, _, h4, _⟩ | ⟨rfl, _⟩
        · cases h4
        · rcases h4 with h4 | h4
          · exact absurd hi h4
          · rw [hro] at h4; cases h4
        · have hn : cSyncNextBatch timed (t :: ts) s = (some (.error .cancelledByUser), s1, ts1) := by
            unfold cSyncNextBatch; rw [if_neg hb, hr]
          simp only [cSyncOp, hn]
          exact ⟨_, _, rfl, Or.inl rfl, fun _ _ hc => nomatch hc⟩
      · have hn : cSyncNextBatch timed (t :: ts) s = (some (.ok s.inner.base.buffer),
            { s with inner := { s.inner with base := { s.inner.base with buffer := [] } } }, t :: ts) := by
          unfold cSyncNextBatch cRefill cNextBatch
          rw [if_neg hb, if_pos hi]
          simp only [if_neg hi, hb']
        simp only [cSyncOp, hn]
        refine ⟨_, _, rfl, Or.inr ⟨hi, untold_later
          (s := { s with inner := { s.inner with base := { s.inner.base with buffer := [] } } })
          ⟨h.signal, h.unfinished, h.open_⟩ _⟩, fun _ _ hc => nomatch hc⟩

/-- Three of the four ways to cancel lead there. -/
theorem untold_of_cancel (s : CSync) (hf : s.finished = false) (he : s.inner.base.ended = false) :
    Untold s.cancelSubscription ∧ Untold { s with inner := s.inner.cancel } ∧ Untold { s with inner := s.inner.cancelAll } :=
  ⟨⟨Or.inr rfl, hf, he⟩, ⟨Or.inr rfl, hf, he⟩, ⟨Or.inl rfl, hf, he⟩⟩

/-- C59: after `cancel` of a blocking read response its iterator hands over what is buffered and then ends without an error;
`next_batch` hands over what is buffered. -/
theorem C59_read_cancel (s : CSync) :
    (∀ (ev : SeqEvent) (buf : List SeqEvent) (timed : Bool) (ts : List Turn), s.buffer = ev :: buf →
      ∃ s', cSyncOp s.cancelRead (.next timed ts) = (some (some (.item (some (.ok ev)))), s') ∧ s'.buffer = buf ∧ s'.finished = true) ∧
    (s.buffer = [] → ∀ timed ts, (cSyncOp s.cancelRead (.next timed ts)).1 = some (some (.item none))) ∧
    (s.buffer ≠ [] → ∀ timed ts, (cSyncOp s.cancelRead (.nextBatch timed ts)).1 = some (some (.batch (.ok s.buffer)))) ∧
    (s.buffer = [] → s.inner.base.buffer = [] → s.inner.base.ended = false → ∀ timed t ts,
      (cSyncOp s.cancelRead (.nextBatch timed (t :: ts))).1 = some (some (.batch (.error .cancelledByUser)))) := by
  have hn : ∀ timed ts, cSyncNext timed ts s.cancelRead = (some s.cancelRead.pop.1, s.cancelRead.pop.2, ts) := by
    intro timed ts
    unfold cSyncNext
    rw [if_neg (by simp [CSync.cancelRead]), if_neg (by simp [CSync.cancelRead]),
      if_pos (Or.inr (show s.cancelRead.finished = true from rfl))]
  refine ⟨fun ev buf timed ts hb => ?_, fun hb timed ts => ?_, fun hb timed ts => ?_, fun hb hi he timed t ts => ?_⟩
  · have hp : s.cancelRead.pop = (some (.ok ev), { s.cancelRead with buffer := buf }) := by
      simp [CSync.pop, CSync.cancelRead, hb]
    simp only [cSyncOp, hn, hp]
    exact ⟨_, rfl, rfl, rfl⟩
  · have hp : s.cancelRead.pop = (none, s.cancelRead) := by simp [CSync.pop, CSync.cancelRead, hb]
    simp only [cSyncOp, hn, hp]
  · have : cSyncNextBatch timed ts s.cancelRead = (some (.ok s.buffer), { s.cancelRead with buffer := [] }, ts) := by
      unfold cSyncNextBatch
      rw [if_pos (show s.cancelRead.buffer ≠ [] from hb)]
      rfl
    simp only [cSyncOp, this]
  · have hov : Over s.cancelRead.inner := Or.inr (Or.inl rfl)
    rcases hr : cRefill timed (t :: ts) s.cancelRead with ⟨r, s1, ts1⟩
    obtain ⟨_, _, h3⟩ := cRefill_over hov (show s.cancelRead.buffer = [] from hb) timed (t :: ts) hr
    rcases h3 with ⟨_, h4, _⟩ | ⟨_, _, h4, _⟩ | ⟨rfl, _⟩
    · cases h4
    · rcases h4 with h4 | h4
      · exact absurd hi h4
      · exact absurd (he.symm.trans h4) (by simp)
    · have : cSyncNextBatch timed (t :: ts) s.cancelRead = (some (.error .cancelledByUser), s1, ts1) := by
        unfold cSyncNextBatch
        rw [if_neg (show ¬ s.cancelRead.buffer ≠ [] from fun h => h hb), hr]
      simp only [cSyncOp, this]

/-! ## A waiting call -/

/-- C59: a call of a blocking object, or a batch call of an async object, that waits when the signal comes returns; if neither
a message nor the timer came before, it says `CancelledByUser`. -/
theorem C59_waiting_returns (s : CSync) (timed : Bool) (ts : List Turn) (h : ∃ t ∈ ts, t.glob = true ∨ t.loc = true) :
    (cSyncOp s (.next timed ts)).1 ≠ none ∧ (cSyncOp s (.nextBatch timed ts)).1 ≠ none ∧
      (cAsyncOp s.inner (.nextBatch timed ts)).1 ≠ none := by
  have h1 := cRefill_wakes timed ts s h
  have h2 := cNextBatch_wakes timed ts s.inner h
  refine ⟨?_, ?_, ?_⟩
  · have : (cSyncNext timed ts s).1 ≠ none := by
      unfold cSyncNext
      split
      · simp
      split
      · simp
      split
      · simp
      rcases hr : cRefill timed ts s with ⟨x, y, z⟩
      rw [hr] at h1
      rcases x with _ | _ | _
      · exact absurd rfl h1
      · simp
      · simp
    rcases hn : cSyncNext timed ts s with ⟨x, y, z⟩
    rw [hn] at this
    cases x with
    | none => exact absurd rfl this
    | some o => simp [cSyncOp, hn]
  · have : (cSyncNextBatch timed ts s).1 ≠ none := by
      unfold cSyncNextBatch
      split
      · simp
      rcases hr : cRefill timed ts s with ⟨x, y, z⟩
      rw [hr] at h1
      rcases x with _ | _ | _
      · exact absurd rfl h1
      · simp
      · simp
    rcases hn : cSyncNextBatch timed ts s with ⟨x, y, z⟩
    rw [hn] at this
    cases x with
    | none => exact absurd rfl this
    | some o => simp [cSyncOp, hn]
  · rcases hn : cNextBatch timed ts s.inner with ⟨x, y, z⟩
    rw [hn] at h2
    cases x with
    | none => exact absurd rfl h2
    | some o => simp [cAsyncOp, hn]

/-- The poll that meets the signal first answers `CancelledByUser`. -/
theorem drive_cancelled (timed : Bool) : ∀ (ts : List Turn) (w : Option (List Source)) (c : CAsync),
    (∀ l, w = some l → .glob ∈ l ∧ .loc ∈ l) → (∃ t ∈ ts, t.glob = true ∨ t.loc = true) →
    (∀ t ∈ ts, t.msgs = 0 ∧ t.timer = false) → c.avail = 0 → c.base.buffer = [] → c.base.ended = false →
    (drive (pollFetch timed) w ts c).1 = some (.error .cancelledByUser) := by
  intro ts
  induction ts with
  | nil => intro w c _ ⟨t, ht, _⟩; cases ht
  | cons t ts ih =>
    intro w c hw hx hq ha hb he
    obtain ⟨q1, q2⟩ := hq t (by simp)
    have hq' : ∀ x ∈ ts, x.msgs = 0 ∧ x.timer = false := fun x hx => hq x (by simp [hx])
    have hav : (c.arrive t).avail = 0 := by simp [CAsync.arrive, ha, q1]
    have h1 : ¬ ((c.arrive t).base.buffer ≠ [] ∨ (c.arrive t).base.ended = true) := by simp [CAsync.arrive, hb, he]
    by_cases hs : (c.arrive t).glob = true ∨ (c.arrive t).loc = true
    · by_cases hsch : scheduled w t = true
      · have hp : (pollFetch timed t (c.arrive t)).1 = .ready (.error .cancelledByUser) := by
          unfold pollFetch
          rw [if_neg h1]
          by_cases hg : (c.arrive t).glob = true
          · rw [if_pos hg]
          · rw [if_neg hg, if_pos (hs.resolve_left hg)]
        rcases hpp : pollFetch timed t (c.arrive t) with ⟨p, c'⟩
        rw [hpp] at hp
        simp only at hp
        subst hp
        simp only [drive, hsch, if_true, hpp]
      · simp only [drive, if_neg hsch]
        refine ih w _ hw ?_ hq' hav hb he
        obtain ⟨x, hx, hsx⟩ := hx
        rcases List.mem_cons.mp hx with rfl | hx
        · refine absurd ?_ hsch
          cases w with
          | none => rfl
          | some l =>
            obtain ⟨i1, i2⟩ := hw l rfl
            simp only [scheduled, List.any_eq_true]
            rcases hsx with hsx | hsx
            · exact ⟨.glob, i1, hsx⟩
            · exact ⟨.loc, i2, hsx⟩
        · exact ⟨x, hx, hsx⟩
    · have hx' : ∃ x ∈ ts, x.glob = true ∨ x.loc = true := by
        obtain ⟨x, hx, hsx⟩ := hx
        rcases List.mem_cons.mp hx with rfl | hx
        · exact absurd (arrive_glob hsx) hs
        · exact ⟨x, hx, hsx⟩
      by_cases hsch : scheduled w t = true
      · have hp : ∃ l, pollFetch timed t (c.arrive t) = (.pending l, c.arrive t) := by
          refine ⟨if timed then [.glob, .loc, .timer, .stream] else [.glob, .loc, .stream], ?_⟩
          unfold pollFetch
          rw [if_neg h1, if_neg (fun hc => hs (Or.inl hc)), if_neg (fun hc => hs (Or.inr hc)), if_neg (by simp [q2]), if_pos hav]
        obtain ⟨l, hp⟩ := hp
        simp only [drive, hsch, if_true, hp]
        exact ih (some l) _ (fun l' hl => by cases hl; exact pollFetch_pending hp) hx' hq' hav hb he
      · simp only [drive, if_neg hsch]
        exact ih w _ hw hx' hq' hav hb he

theorem C59_waiting_cancelled (s : CSync) (timed : Bool) (ts : List Turn) (h : ∃ t ∈ ts, t.glob = true ∨ t.loc = true)
    (hq : ∀ t ∈ ts, t.msgs = 0 ∧ t.timer = false) (ha : s.inner.avail = 0) (hf : s.finished = false)
    (hb : s.buffer = []) (hi : s.inner.base.buffer = []) (he : s.inner.base.ended = false) :
    (cSyncOp s (.next timed ts)).1 = some (some (.item (some (.error .cancelledByUser)))) ∧
    (cSyncOp s (.nextBatch timed ts)).1 = some (some (.batch (.error .cancelledByUser))) ∧
    (cAsyncOp s.inner (.nextBatch timed ts)).1 = some (some (.batch (.error .cancelledByUser))) := by
  have hd := drive_cancelled timed ts none s.inner (by simp) h hq ha hi he
  have h2 : (cNextBatch timed ts s.inner).1 = some (.error .cancelledByUser) := by
    unfold cNextBatch
    rw [if_neg (by simp [hi])]
    rcases hx : drive (pollFetch timed) none ts s.inner with ⟨x, y, z⟩
    rw [hx] at hd
    simp only at hd
    subst hd
    rfl
  rcases hx : cNextBatch timed ts s.inner with ⟨x, y, z⟩
  rw [hx] at h2
  simp only at h2
  subst h2
  have h3 : cRefill timed ts s = (some (some .cancelledByUser), { s with inner := y }, z) := by
    unfold cRefill; rw [hx]
  refine ⟨?_, ?_, ?_⟩
  · have : ∃ s' ts', cSyncNext timed ts s = (some (some (.error .cancelledByUser)), s', ts') := by
      unfold cSyncNext
      by_cases hst : s.inner.status = .cancelled
      · rw [if_pos ⟨hf, hst⟩]; exact ⟨_, _, rfl⟩
      · rw [if_neg (fun hc => hst hc.2), if_neg, if_neg (by simp [hb, hf]), h3]
        · exact ⟨_, _, rfl⟩
        · rintro ⟨_, hc⟩
          unfold CAsync.status at hc
          split at hc
          · cases hc
          · split at hc
            · rename_i h4; rw [he] at h4; cases h4
            · cases hc
    obtain ⟨s', ts', hn⟩ := this
    simp only [cSyncOp, hn]
  · have hn : cSyncNextBatch timed ts s = (some (.error .cancelledByUser), { s with inner := y }, z) := by
      unfold cSyncNextBatch
      rw [if_neg (by simp [hb]), h3]
    simp only [cSyncOp, hn]
  · simp only [cAsyncOp, hx]

/-- C59, the async iterator: while a signal is there `next` says `CancelledByUser`, each time it is called. -/
theorem C59_async_next (c : CAsync) (h : c.glob = true ∨ c.loc = true) (timed : Bool) (t : Turn) (ts : List Turn) :
    ∃ c', cAsyncOp c (.next timed (t :: ts)) = (some (some (.item (some (.error .cancelledByUser)))), c') ∧
      (c'.glob = true ∨ c'.loc = true) := by
  have h1 : (c.arrive t).glob = true ∨ (c.arrive t).loc = true := by
    rcases h with h | h
    · exact Or.inl (by simp [CAsync.arrive, h])
    · exact Or.inr (by simp [CAsync.arrive, h])
  have hn : cNext (t :: ts) c =
      (some (some (.error .cancelledByUser)), { c.arrive t with base := { (c.arrive t).base with buffer := [] } }, ts) := by
    simp only [cNext, drive, scheduled, if_true, pollNext, CAsync.status, if_pos h1]
  refine ⟨_, by simp only [cAsyncOp, hn]; rfl, ?_⟩
  exact (untold_later (s := ⟨false, [], { c.arrive t with base := { (c.arrive t).base with buffer := [], ended := false } }⟩)
    ⟨h1, rfl, rfl⟩ ts).signal.imp
    (fun hx => by
      have : ∀ (ts : List Turn) (a b : CAsync), a.glob = b.glob → (a.arriveAll ts).glob = (b.arriveAll ts).glob := by
        intro ts
        induction ts with
        | nil => intro a b h; exact h
        | cons t ts ih => intro a b h; exact ih _ _ (by simp [CAsync.arrive, h])
      rw [← hx]; exact this ts _ _ rfl)
    (fun hx => by
      have : ∀ (ts : List Turn) (a b : CAsync), a.loc = b.loc → (a.arriveAll ts).loc = (b.arriveAll ts).loc := by
        intro ts
        induction ts with
        | nil => intro a b h; exact h
        | cons t ts ih => intro a b h; exact ih _ _ (by simp [CAsync.arrive, h])
      rw [← hx]; exact this ts _ _ rfl)

/-- C59, the async iterator that waits is not woken by a cancel: it returns only when the stream delivers something. -/
theorem C59_async_next_waits (c : CAsync) (hc : c.glob = false ∧ c.loc = false) (hb : c.base.buffer = [])
    (he : c.base.ended = false) (ha : c.avail = 0) (ts : List Turn) (hm : ∀ t ∈ ts, t.msgs = 0) (timed : Bool) :
    (cAsyncOp c (.next timed ({} :: ts))).1 = none := by
  have hst : (c.arrive {}).status = .notStopped := by simp [CAsync.status, CAsync.arrive, hc.1, hc.2, he]
  have hp : ∃ c', pollNext (c.arrive {}) = (.pending [.stream], c') := by
    unfold pollNext
    rw [hst]
    have : (c.arrive {}).base.buffer = [] := hb
    have ha' : (c.arrive {}).avail = 0 := ha
    simp only [this, ha', pollItems]
    exact ⟨_, rfl⟩
  obtain ⟨c', hp⟩ := hp
  have hd := drive_next_stuck ts c' hm
  have hn : (cNext ({} :: ts) c).1 = none := by
    simp only [cNext, drive, scheduled, if_true, hp]
    exact hd
  rcases hx : cNext ({} :: ts) c with ⟨x, y, z⟩
  rw [hx] at hn
  simp only at hn
  subst hn
  simp only [cAsyncOp, hx]

/-! ## Where the documentation is wrong -/

/-- Two events in one message. -/
def exTwo : Incoming := wire [⟨[⟨1, default, none⟩, ⟨2, default, none⟩], some 2⟩] none

/-- C59 as documented for read responses ("iterating over this response will raise a CancelledByUserError") is false for the
blocking client: after `cancel` the iterator goes on with the buffered events and then just ends. -/
theorem C59_read_documented_false : ¬ ∀ (inc : Incoming) (before : List COp),
    (∀ op ∈ before, Asks op) →
    ∃ o ∈ (cRun cSyncOp (cRun cSyncOp (CSync.new inc) before).2 [.cancelRead, .next false [{}], .next false [{}]]).1,
      SaysCancelled o := by
  intro h
  obtain ⟨o, ho, hs⟩ := h exTwo [.next false [{ msgs := 1 }]] (by simp; exact Asks.next _ _ _)
  have : (cRun cSyncOp (cRun cSyncOp (CSync.new exTwo) [.next false [{ msgs := 1 }]]).2
      [.cancelRead, .next false [{}], .next false [{}]]).1 = [.item (some (.ok ⟨2, default, none⟩)), .item none] := by
    decide +kernel
  rw [this] at ho
  simp at ho
  rcases ho with rfl | rfl <;> simp [SaysCancelled] at hs

/-- C59 as documented for subscriptions ("the iterator/`next_batch()` will return `Err(CancelledByUser)`") is false for
`next_batch`: it hands over what is buffered. -/
theorem C59_next_batch_documented_false : ¬ ∀ (inc : Incoming) (before : List COp),
    (∀ op ∈ before, Asks op) →
    ∃ o, (cRun cSyncOp (cRun cSyncOp (CSync.new inc) before).2 [.cancelSubscription, .nextBatch false [{}]]).1 = [o] ∧
      SaysCancelled o := by
  intro h
  obtain ⟨o, ho, hs⟩ := h exTwo [.next false [{ msgs := 1 }]] (by simp; exact Asks.next _ _ _)
  have : (cRun cSyncOp (cRun cSyncOp (CSync.new exTwo) [.next false [{ msgs := 1 }]]).2
      [.cancelSubscription, .nextBatch false [{}]]).1 = [.batch (.ok [⟨2, default, none⟩])] := by
    decide +kernel
  rw [this] at ho
  cases ho
  simp [SaysCancelled] at hs

/-- C59: "a cancel makes a waiting call return" is false for the async iterator. -/
theorem C59_async_wakes_false : ¬ ∀ (inc : Incoming) (ts : List Turn), (∃ t ∈ ts, t.glob = true ∨ t.loc = true) →
    (cAsyncOp (CAsync.new inc) (.next false ts)).1 ≠ none := by
  intro h
  exact h exTwo [{}, { loc := true, glob := true }] ⟨{ loc := true, glob := true }, by simp, Or.inr rfl⟩
    (C59_async_next_waits (CAsync.new exTwo) ⟨rfl, rfl⟩ rfl rfl rfl [{ loc := true, glob := true }] (by simp) false)

/-! ## Without a cancel -/

/-- A call during which nothing is cancelled, and the same call in the model without channels. -/
inductive Same : COp → Op → Prop
  | next {ts : List Turn} : Silent ts → Same (.next false ts) .next
  | nextTimeout {ts : List Turn} (f : Bool) : Silent ts → Same (.next true ts) (.nextTimeout f)
  | nextBatch {ts : List Turn} : Silent ts → Same (.nextBatch false ts) .nextBatch
  | nextBatchTimeout {ts : List Turn} (f : Bool) : Silent ts → Same (.nextBatch true ts) (.nextBatchTimeout f)
  | head {ts : List Turn} : Silent ts → Same (.head ts) .head

/-- No cancel in this call. -/
def Uncancelled : COp → Prop
  | .next _ ts | .nextBatch _ ts | .head ts => Silent ts
  | _ => False

theorem later_plain (s : CSync) (ts : List Turn) : (s.later ts).plain = s.plain := by
  simp [CSync.plain, CSync.later, arriveAll_base]

theorem op_plain_sync {s : CSync} (hc : Calm s.inner) {op : COp} (hu : Uncancelled op) {r : Option (Option Out)} {s' : CSync}
    (h : cSyncOp s op = (r, s')) :
    Calm s'.inner ∧ (∀ x, r = some x → ∃ o op', x = some o ∧ Same op op' ∧ syncOp s.plain op' = (o, s'.plain)) := by
  cases op with
  | next timed ts =>
    have hs : Silent ts := hu
    simp only [cSyncOp] at h
    rcases hn : cSyncNext timed ts s with ⟨x, y, z⟩
    rw [hn] at h
    obtain ⟨h1, h2, h3⟩ := cSyncNext_calm hc timed hs hn
    cases x with
    | none => simp only at h; cases h; exact ⟨h1.arriveAll _ h2, by simp⟩
    | some v =>
      simp only at h; cases h
      obtain ⟨f, f1, f2⟩ := h3 v rfl
      refine ⟨h1.arriveAll _ h2, fun x hx => ?_⟩
      cases hx
      rw [later_plain]
      cases timed with
      | true => exact ⟨_, .nextTimeout f, rfl, .nextTimeout f hs, by simp only [syncOp, f2]⟩
      | false =>
        have : f = false := by cases f; rfl; exact absurd (f1 rfl) (by simp)
        subst this
        exact ⟨_, .next, rfl, .next hs, by simp only [syncOp, f2]⟩
  | nextBatch timed ts =>
    have hs : Silent ts := hu
    simp only [cSyncOp] at h
    rcases hn : cSyncNextBatch timed ts s with ⟨x, y, z⟩
    rw [hn] at h
    obtain ⟨h1, h2, h3⟩ := cSyncNextBatch_calm hc timed hs hn
    cases x with
    | none => simp only at h; cases h; exact ⟨h1.arriveAll _ h2, by simp⟩
    | some v =>
      simp only at h; cases h
      obtain ⟨f, f1, f2⟩ := h3 v rfl
      refine ⟨h1.arriveAll _ h2, fun x hx => ?_⟩
      cases hx
      rw [later_plain]
      cases timed with
      | true => exact ⟨_, .nextBatchTimeout f, rfl, .nextBatchTimeout f hs, by simp only [syncOp, f2]⟩
      | false =>
        have : f = false := by cases f; rfl; exact absurd (f1 rfl) (by simp)
        subst this
        exact ⟨_, .nextBatch, rfl, .nextBatch hs, by simp only [syncOp, f2]⟩
  | head ts =>
    have hs : Silent ts := hu
    simp only [cSyncOp, cSyncHead] at h
    rcases hn : cHead ts s.inner with ⟨x, y, z⟩
    rw [hn] at h
    obtain ⟨h1, h2, h3, _⟩ := cHead_calm hc hs hn
    cases x with
    | none => simp only at h; cases h; exact ⟨h1.arriveAll _ h2, by simp⟩
    | some v =>
      simp only at h; cases h
      refine ⟨h1.arriveAll _ h2, fun x hx => ?_⟩
      cases hx
      rw [later_plain]
      refine ⟨_, .head, rfl, .head hs, ?_⟩
      simp only [syncOp, syncHead, CSync.plain, h3 v rfl]
  | cancelRead => exact hu.elim
  | cancelSubscription => exact hu.elim
  | cancelHandle => exact hu.elim
  | cancelAll => exact hu.elim

theorem op_plain_async {c : CAsync} (hc : Calm c) {op : COp} (hu : Uncancelled op) {r : Option (Option Out)} {c' : CAsync}
    (h : cAsyncOp c op = (r, c')) :
    Calm c' ∧ (∀ x, r = some x → ∃ o op', x = some o ∧ Same op op' ∧ asyncOp c.base op' = (o, c'.base)) := by
  cases op with
  | next timed ts =>
    have hs : Silent ts := hu
    simp only [cAsyncOp] at h
    rcases hn : cNext ts c with ⟨x, y, z⟩
    rw [hn] at h
    obtain ⟨h1, h2, h3, _⟩ := drive_next_calm ts none c hc hs hn
    cases x with
    | none => simp only at h; cases h; exact ⟨h1.arriveAll _ h2, by simp⟩
    | some v =>
      simp only at h; cases h
      refine ⟨h1.arriveAll _ h2, fun x hx => ?_⟩
      cases hx
      rw [arriveAll_base]
      cases timed with
      | true => exact ⟨_, .nextTimeout false, rfl, .nextTimeout false hs, by simp only [asyncOp, h3 v rfl]⟩
      | false => exact ⟨_, .next, rfl, .next hs, by simp only [asyncOp, h3 v rfl]⟩
  | nextBatch timed ts =>
    have hs : Silent ts := hu
    simp only [cAsyncOp] at h
    rcases hn : cNextBatch timed ts c with ⟨x, y, z⟩
    rw [hn] at h
    obtain ⟨h1, h2, h3, _⟩ := cNextBatch_calm hc timed hs hn
    cases x with
    | none => simp only at h; cases h; exact ⟨h1.arriveAll _ h2, by simp⟩
    | some v =>
      simp only at h; cases h
      obtain ⟨f, f1, f2⟩ := h3 v rfl
      refine ⟨h1.arriveAll _ h2, fun x hx => ?_⟩
      cases hx
      rw [arriveAll_base]
      cases timed with
      | true => exact ⟨_, .nextBatchTimeout f, rfl, .nextBatchTimeout f hs, by simp only [asyncOp, f2]⟩
      | false =>
        have : f = false := by cases f; rfl; exact absurd (f1 rfl) (by simp)
        subst this
        exact ⟨_, .nextBatch, rfl, .nextBatch hs, by simp only [asyncOp, f2]⟩
  | head ts =>
    have hs : Silent ts := hu
    simp only [cAsyncOp] at h
    rcases hn : cHead ts c with ⟨x, y, z⟩
    rw [hn] at h
    obtain ⟨h1, h2, h3, _⟩ := cHead_calm hc hs hn
    cases x with
    | none => simp only at h; cases h; exact ⟨h1.arriveAll _ h2, by simp⟩
    | some v =>
      simp only at h; cases h
      refine ⟨h1.arriveAll _ h2, fun x hx => ?_⟩
      cases hx
      rw [arriveAll_base]
      exact ⟨_, .head, rfl, .head hs, by simp only [asyncOp, h3 v rfl]⟩
  | cancelRead => exact hu.elim
  | cancelSubscription => exact hu.elim
  | cancelHandle => exact hu.elim
  | cancelAll => exact hu.elim

theorem run_plain {σ τ : Type} (step : σ → COp → Option (Option Out) × σ) (step' : τ → Op → Out × τ) (plain : σ → τ)
    (I : σ → Prop)
    (hstep : ∀ s op r s', I s → Uncancelled op → step s op = (r, s') →
      I s' ∧ (∀ x, r = some x → ∃ o op', x = some o ∧ Same op op' ∧ step' (plain s) op' = (o, plain s'))) :
    ∀ (ops : List COp) (s : σ), I s → (∀ op ∈ ops, Uncancelled op) →
      ∃ ops', (cRun step s ops).1 = (runOps step' (plain s) ops').1 ∧ List.Forall₂ Same (ops.take ops'.length) ops' := by
  intro ops
  induction ops with
  | nil => intro s _ _; exact ⟨[], rfl, by simp⟩
  | cons op ops ih =>
    intro s hi hu
    rcases hs : step s op with ⟨r, s'⟩
    obtain ⟨h1, h2⟩ := hstep s op r s' hi (hu op (by simp)) hs
    cases r with
    | none => exact ⟨[], by simp [cRun, hs, runOps], by simp⟩
    | some x =>
      obtain ⟨o, op', rfl, h3, h4⟩ := h2 x rfl
      obtain ⟨ops', h5, h6⟩ := ih s' h1 fun op hop => hu op (by simp [hop])
      refine ⟨op' :: ops', ?_, ?_⟩
      · simp only [cRun, hs, runOps, h4, h5, Option.toList_some, List.singleton_append]
      · simpa using ⟨h3, h6⟩

/-- C59, C39: as long as nothing is cancelled, the calls that return answer what they answer in the model of C39 (which knows no
channels, polls and arrivals), for some choice of which timeouts elapse; so all of C39 applies. -/
theorem C59_uncancelled (inc : Incoming) (ops : List COp) (h : ∀ op ∈ ops, Uncancelled op) :
    (∃ ops', (cRun cSyncOp (CSync.new inc) ops).1 = (runOps syncOp (SyncResp.new inc) ops').1 ∧
      List.Forall₂ Same (ops.take ops'.length) ops') ∧
    (∃ ops', (cRun cAsyncOp (CAsync.new inc) ops).1 = (runOps asyncOp (AsyncResp.new inc) ops').1 ∧
      List.Forall₂ Same (ops.take ops'.length) ops') :=
  ⟨run_plain cSyncOp syncOp CSync.plain (fun s => Calm s.inner) (fun _ _ _ _ hi hu hs => op_plain_sync hi hu hs) ops
      (CSync.new inc) ⟨rfl, rfl⟩ h,
    run_plain cAsyncOp asyncOp CAsync.base Calm (fun _ _ _ _ hi hu hs => op_plain_async hi hu hs) ops
      (CAsync.new inc) ⟨rfl, rfl⟩ h⟩

/-- C59, C39 together: a program that calls what it likes, cancels nothing, and waits as long as it takes gets the events of
the server's messages in order, none lost or repeated. -/
theorem C59_uncancelled_delivers (rs : List Response) (fail : Option Status) (hs : Shape fail rs) (ops : List COp)
    (h : ∀ op ∈ ops, Uncancelled op) :
    ∃ rest, wanted rs fail = (cRun cSyncOp (CSync.new (wire rs fail)) ops).1.flatMap got ++ rest ∧
      ((∃ o ∈ (cRun cSyncOp (CSync.new (wire rs fail)) ops).1, SaysEnd o) → rest = []) := by
  obtain ⟨ops', h1, _⟩ := (C59_uncancelled (wire rs fail) ops h).1
  rw [h1]
  exact C39_sync rs fail hs ops'

/-! ## Examples -/

/-- An event, a cancel of the subscription from another thread while a second call waits, and what is said afterwards. -/
example : (cRun cSyncOp (CSync.new (wire [⟨[⟨1, default, none⟩], none⟩, ⟨[⟨2, default, none⟩], none⟩] none))
      [.next true [{}, { msgs := 1 }], .next true [{}, { timer := true }], .next true [{}, { loc := true }], .next true [{ msgs := 1 }],
        .nextBatch true [{}]]).1 =
    [.item (some (.ok ⟨1, default, none⟩)), .item (some (.error .timeout)), .item (some (.error .cancelledByUser)), .item none,
      .batch (.ok [])] := by decide +kernel

example : Untold (cRun cSyncOp (CSync.new exTwo) [.next false [{ msgs := 1 }], .cancelHandle]).2 :=
  ⟨Or.inr (by decide +kernel), by decide +kernel, by decide +kernel⟩

/-- The buffered event is dropped by `next`, kept by `next_batch`. -/
example : (cRun cSyncOp (CSync.new exTwo) [.next false [{ msgs := 1 }], .cancelAll, .next false [{}], .next false [{}]]).1 =
      [.item (some (.ok ⟨1, default, none⟩)), .item (some (.error .cancelledByUser)), .item none] ∧
    (cRun cSyncOp (CSync.new exTwo) [.next false [{ msgs := 1 }], .cancelAll, .nextBatch false [{}], .nextBatch false [{}]]).1 =
      [.item (some (.ok ⟨1, default, none⟩)), .batch (.ok [⟨2, default, none⟩]), .batch (.error .cancelledByUser)] := by
  decide +kernel

end Uma.Props
