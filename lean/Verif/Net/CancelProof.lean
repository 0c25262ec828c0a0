import Verif.Net.Cancel

/-! Lemmas about cancellation of client streams. -/

namespace Uma.Net

/-- Nothing more is taken from the transport: a signal is there, or the stream has been ended. -/
def Over (c : CAsync) : Prop := c.glob = true ∨ c.loc = true ∨ c.base.ended = true

/-- The part of the response that no signal changes. -/
def SameData (a b : AsyncResp) : Prop := a.stream = b.stream ∧ a.lastHead = b.lastHead

theorem Over.arrive {c : CAsync} (h : Over c) (t : Turn) : Over (c.arrive t) := by
  rcases h with h | h | h
  · exact Or.inl (by simp [CAsync.arrive, h])
  · exact Or.inr (Or.inl (by simp [CAsync.arrive, h]))
  · exact Or.inr (Or.inr h)

theorem arriveAll_base (ts : List Turn) : ∀ c : CAsync, (c.arriveAll ts).base = c.base := by
  induction ts with
  | nil => intro c; rfl
  | cons t ts ih => intro c; exact ih (c.arrive t)

theorem Over.arriveAll (ts : List Turn) : ∀ {c : CAsync}, Over c → Over (c.arriveAll ts) := by
  induction ts with
  | nil => intro c h; exact h
  | cons t ts ih => intro c h; exact ih (h.arrive t)

/-- Outcome of a fetch on a stream that is over. -/
theorem drive_over {c : CAsync} (h : Over c) (timed : Bool) (ts : List Turn) :
    ∃ c' ts', (drive (pollFetch timed) none ts c).2 = (c', ts') ∧ Over c' ∧ SameData c'.base c.base ∧
      c'.base.buffer = c.base.buffer ∧
      ((drive (pollFetch timed) none ts c).1 = none ∧ ts = [] ∨
       (drive (pollFetch timed) none ts c).1 = some (.ok ()) ∧ (c.base.buffer ≠ [] ∨ c.base.ended = true) ∨
       (drive (pollFetch timed) none ts c).1 = some (.error .cancelledByUser) ∧ c.base.buffer = [] ∧ c.base.ended = false ∧
         c'.base.ended = true) := by
  cases ts with
  | nil => exact ⟨c, [], rfl, h, ⟨rfl, rfl⟩, rfl, Or.inl ⟨rfl, rfl⟩⟩
  | cons t ts =>
    have ha := h.arrive t
    simp only [drive, scheduled, if_true]
    unfold pollFetch
    by_cases h1 : (c.arrive t).base.buffer ≠ [] ∨ (c.arrive t).base.ended = true
    · rw [if_pos h1]
      exact ⟨c.arrive t, ts, rfl, ha, ⟨rfl, rfl⟩, rfl, Or.inr (Or.inl ⟨rfl, h1⟩)⟩
    · rw [if_neg h1]
      have hb : c.base.buffer = [] := Classical.byContradiction fun hc => h1 (Or.inl hc)
      have he : c.base.ended = false := by
        cases hc : c.base.ended with
        | false => rfl
        | true => exact absurd (Or.inr hc) h1
      by_cases h2 : (c.arrive t).glob = true
      · rw [if_pos h2]
        exact ⟨_, ts, rfl, Or.inr (Or.inr rfl), ⟨rfl, rfl⟩, rfl, Or.inr (Or.inr ⟨rfl, hb, he, rfl⟩)⟩
      · rw [if_neg h2]
        have h3 : (c.arrive t).loc = true := by
          rcases ha with ha | ha | ha
          · exact absurd ha h2
          · exact ha
          · exact absurd (Or.inr ha) h1
        rw [if_pos h3]
        exact ⟨_, ts, rfl, Or.inr (Or.inr rfl), ⟨rfl, rfl⟩, rfl, Or.inr (Or.inr ⟨rfl, hb, he, rfl⟩)⟩

/-- Events an answer hands over. -/
def received : Out → List SeqEvent
  | .item (some (.ok ev)) => [ev]
  | .batch (.ok l) => l
  | _ => []

/-- What a call on a stream that is over does: no further events, nothing taken from the transport. -/
structure Ends (before after : CAsync) : Prop where
  over : Over after
  data : SameData after.base before.base

theorem Ends.refl {c : CAsync} (h : Over c) : Ends c c := ⟨h, rfl, rfl⟩

theorem cNextBatch_over {c : CAsync} (h : Over c) (timed : Bool) (ts : List Turn)
    {r : Option (Except Err (List SeqEvent))} {c' : CAsync} {ts' : List Turn} (hr : cNextBatch timed ts c = (r, c', ts')) :
    Ends c c' ∧
      (r = none ∧ ts = [] ∧ c.base.buffer = [] ∧ c'.base.buffer = [] ∨
       r = some (.ok c.base.buffer) ∧ c'.base.buffer = [] ∧ (c.base.buffer ≠ [] ∨ c.base.ended = true) ∨
       r = some (.error .cancelledByUser) ∧ c.base.buffer = [] ∧ c'.base.buffer = [] ∧ c'.base.ended = true ∧
         c.base.ended = false) := by
  unfold cNextBatch at hr
  by_cases hb : c.base.buffer ≠ []
  · rw [if_pos hb] at hr
    cases hr
    refine ⟨⟨h, rfl, rfl⟩, Or.inr (Or.inl ⟨rfl, rfl, Or.inl hb⟩)⟩
  · rw [if_neg hb] at hr
    have hb : c.base.buffer = [] := by simpa using hb
    obtain ⟨c1, ts1, h1, h2, h3, h4, h5⟩ := drive_over h timed ts
    rcases hd : drive (pollFetch timed) none ts c with ⟨x, y, z⟩
    rw [hd] at hr h1 h5
    cases h1
    rcases h5 with ⟨h5, h6⟩ | ⟨h5, h6⟩ | ⟨h5, h6, h7, h8⟩
    · simp only at h5; subst h5; simp only at hr; cases hr
      exact ⟨⟨h2, h3⟩, Or.inl ⟨rfl, h6, hb, by rw [h4, hb]⟩⟩
    · simp only at h5; subst h5; simp only at hr; cases hr
      refine ⟨⟨h2, h3⟩, Or.inr (Or.inl ⟨?_, rfl, h6⟩)⟩
      rw [h4]
    · simp only at h5; subst h5; simp only at hr; cases hr
      exact ⟨⟨h2, h3⟩, Or.inr (Or.inr ⟨rfl, hb, by rw [h4, hb], h8, h7⟩)⟩

theorem cHead_over {c : CAsync} (h : Over c) (ts : List Turn)
    {r : Option (Except Err (Option Nat))} {c' : CAsync} {ts' : List Turn} (hr : cHead ts c = (r, c', ts')) :
    Ends c c' ∧ c'.base.buffer = c.base.buffer := by
  unfold cHead at hr
  cases hl : c.base.lastHead with
  | some x => rw [hl] at hr; simp only at hr; cases hr; exact ⟨Ends.refl h, rfl⟩
  | none =>
    rw [hl] at hr
    simp only at hr
    obtain ⟨c1, ts1, h1, h2, h3, h4, h5⟩ := drive_over h false ts
    rcases hd : drive (pollFetch false) none ts c with ⟨x, y, z⟩
    rw [hd] at hr h1 h5
    cases h1
    rcases h5 with ⟨h5, _⟩ | ⟨h5, _⟩ | ⟨h5, _⟩ <;>
      (simp only at h5; subst h5; simp only at hr; cases hr; exact ⟨⟨h2, h3⟩, h4⟩)

theorem cNext_over {c : CAsync} (h : Over c) (ts : List Turn)
    {r : Option (Option (Except Err SeqEvent))} {c' : CAsync} {ts' : List Turn} (hr : cNext ts c = (r, c', ts')) :
    Ends c c' ∧
      (r = none ∧ ts = [] ∧ c' = c ∨
       (r = some (some (.error .cancelledByUser)) ∧ c'.base.buffer = [] ∨ r = some none ∧ c'.base.buffer = [] ∧
         c.glob = false ∧ c.loc = false)) := by
  unfold cNext at hr
  cases ts with
  | nil => simp only [drive] at hr; cases hr; exact ⟨Ends.refl h, Or.inl ⟨rfl, rfl, rfl⟩⟩
  | cons t ts =>
    have ha := h.arrive t
    simp only [drive, scheduled, if_true] at hr
    unfold pollNext CAsync.status at hr
    by_cases h1 : (c.arrive t).glob = true ∨ (c.arrive t).loc = true
    · rw [if_pos h1] at hr
      cases hr
      exact ⟨⟨ha, rfl, rfl⟩, Or.inr (Or.inl ⟨rfl, rfl⟩)⟩
    · rw [if_neg h1] at hr
      have h2 : (c.arrive t).base.ended = true := by
        rcases ha with ha | ha | ha
        · exact absurd (Or.inl ha) h1
        · exact absurd (Or.inr ha) h1
        · exact ha
      rw [if_pos h2] at hr
      cases hr
      refine ⟨⟨ha, rfl, rfl⟩, Or.inr (Or.inr ⟨rfl, rfl, ?_, ?_⟩)⟩
      · cases hg : c.glob with
        | false => rfl
        | true => exact absurd (Or.inl (by simp [CAsync.arrive, hg])) h1
      · cases hg : c.loc with
        | false => rfl
        | true => exact absurd (Or.inr (by simp [CAsync.arrive, hg])) h1

theorem Ends.later {c c' : CAsync} (h : Ends c c') (ts : List Turn) : Ends c (c'.arriveAll ts) :=
  ⟨h.over.arriveAll ts, by rw [arriveAll_base]; exact h.data⟩

/-- What the object still holds. -/
def CSync.held (s : CSync) : List SeqEvent := s.buffer ++ s.inner.base.buffer

theorem cRefill_over {s : CSync} (h : Over s.inner) (hb : s.buffer = []) (timed : Bool) (ts : List Turn)
    {r : Option (Option Err)} {s' : CSync} {ts' : List Turn} (hr : cRefill timed ts s = (r, s', ts')) :
    Ends s.inner s'.inner ∧ s'.inner.base.buffer = [] ∧
      (r = none ∧ ts = [] ∧ s.inner.base.buffer = [] ∧ s'.buffer = [] ∧ s'.finished = s.finished ∨
       r = some none ∧ s'.buffer = s.inner.base.buffer ∧ (s.inner.base.buffer ≠ [] ∨ s.inner.base.ended = true) ∧
         (s.inner.base.buffer = [] → s'.finished = true) ∨
       r = some (some .cancelledByUser) ∧ s.inner.base.buffer = [] ∧ s'.buffer = [] ∧ s'.inner.base.ended = true ∧
         s'.finished = s.finished ∧ s.inner.base.ended = false) := by
  unfold cRefill at hr
  rcases hn : cNextBatch timed ts s.inner with ⟨x, i, z⟩
  rw [hn] at hr
  obtain ⟨h1, h2⟩ := cNextBatch_over h timed ts hn
  rcases h2 with ⟨rfl, h3, h4, h5⟩ | ⟨rfl, h3, h4⟩ | ⟨rfl, h3, h4, h5, h6⟩
  · simp only at hr; cases hr
    exact ⟨h1, h5, Or.inl ⟨rfl, h3, h4, hb, rfl⟩⟩
  · simp only at hr
    by_cases hbe : s.inner.base.buffer = []
    · rw [if_pos hbe] at hr; cases hr
      exact ⟨h1, h3, Or.inr (Or.inl ⟨rfl, by simp [hb, hbe], h4, fun _ => rfl⟩)⟩
    · rw [if_neg hbe] at hr; cases hr
      exact ⟨h1, h3, Or.inr (Or.inl ⟨rfl, rfl, h4, fun hc => absurd hc hbe⟩)⟩
  · simp only at hr; cases hr
    exact ⟨h1, h4, Or.inr (Or.inr ⟨rfl, h3, hb, h5, rfl, h6⟩)⟩

theorem pop_held (s : CSync) : received (.item s.pop.1) ++ s.pop.2.held = s.held ∧ s.pop.2.inner = s.inner := by
  unfold CSync.pop
  cases hb : s.buffer with
  | nil => simp [received, CSync.held, hb]
  | cons ev buf => simp [received, CSync.held, hb]

/-- What the answer of a call, if any, hands over. -/
def handed : Option (Option Out) → List SeqEvent
  | some (some o) => received o
  | _ => []

theorem cSyncOp_over {s : CSync} (h : Over s.inner) (op : COp) {r : Option (Option Out)} {s' : CSync}
    (hr : cSyncOp s op = (r, s')) : Ends s.inner s'.inner ∧ (handed r ++ s'.held).Sublist s.held := by
  have hlater : ∀ (ts : List Turn) (x : CSync), (x.later ts).held = x.held := by
    intro ts x; simp [CSync.held, CSync.later, arriveAll_base]
  have hel : ∀ (ts : List Turn) (x : CSync), Ends s.inner x.inner → Ends s.inner (x.later ts).inner :=
    fun ts x hx => hx.later ts
  cases op with
  | next timed ts =>
    simp only [cSyncOp] at hr
    rcases hn : cSyncNext timed ts s with ⟨x, y, z⟩
    rw [hn] at hr
    have key : Ends s.inner y.inner ∧ (handed (x.map fun o => some (.item o)) ++ y.held).Sublist s.held := by
      unfold cSyncNext at hn
      split at hn
      · cases hn
        exact ⟨Ends.refl h, by simp [handed, received, CSync.held]⟩
      split at hn
      · cases hn
        exact ⟨Ends.refl h, by simp [handed, received, CSync.held]⟩
      split at hn
      · cases hn
        obtain ⟨h1, h2⟩ := pop_held s
        refine ⟨by rw [h2]; exact Ends.refl h, ?_⟩
        simp only [Option.map_some, handed]
        rw [h1]
        exact List.Sublist.refl _
      · rename_i h3
        have hb : s.buffer = [] := Classical.byContradiction fun hc => h3 (Or.inl hc)
        rcases hc : cRefill timed ts s with ⟨a, b, d⟩
        rw [hc] at hn
        obtain ⟨h1, h2, h4⟩ := cRefill_over h hb timed ts hc
        rcases h4 with ⟨rfl, _, h5, h6, _⟩ | ⟨rfl, h5, _⟩ | ⟨rfl, h5, h6, _⟩
        · simp only at hn; cases hn
          exact ⟨h1, by simp [handed, CSync.held, h2, h6]⟩
        · simp only at hn; cases hn
          obtain ⟨p1, p2⟩ := pop_held b
          refine ⟨by rw [p2]; exact h1, ?_⟩
          simp only [Option.map_some, handed]
          rw [p1]
          simp [CSync.held, h2, h5, hb]
        · simp only at hn; cases hn
          exact ⟨h1, by simp [handed, received, CSync.held, h2, h6]⟩
    cases x with
    | none => simp only at hr; cases hr; exact ⟨hel _ _ key.1, by rw [hlater]; exact key.2⟩
    | some o => simp only at hr; cases hr; exact ⟨hel _ _ key.1, by rw [hlater]; exact key.2⟩
  | nextBatch timed ts =>
    simp only [cSyncOp] at hr
    rcases hn : cSyncNextBatch timed ts s with ⟨x, y, z⟩
    rw [hn] at hr
    have key : Ends s.inner y.inner ∧ (handed (x.map fun o => some (.batch o)) ++ y.held).Sublist s.held := by
      unfold cSyncNextBatch at hn
      split at hn
      · cases hn
        exact ⟨Ends.refl h, by simp [handed, received, CSync.held]⟩
      · rename_i h3
        have hb : s.buffer = [] := by simpa using h3
        rcases hc : cRefill timed ts s with ⟨a, b, d⟩
        rw [hc] at hn
        obtain ⟨h1, h2, h4⟩ := cRefill_over h hb timed ts hc
        rcases h4 with ⟨rfl, _, h5, h6, _⟩ | ⟨rfl, h5, _⟩ | ⟨rfl, h5, h6, _⟩
        · simp only at hn; cases hn
          exact ⟨h1, by simp [handed, CSync.held, h2, h6]⟩
        · simp only at hn; cases hn
          exact ⟨h1, by simp [handed, received, CSync.held, h2, h5, hb]⟩
        · simp only at hn; cases hn
          exact ⟨h1, by simp [handed, received, CSync.held, h2, h6]⟩
    cases x with
    | none => simp only at hr; cases hr; exact ⟨hel _ _ key.1, by rw [hlater]; exact key.2⟩
    | some o => simp only at hr; cases hr; exact ⟨hel _ _ key.1, by rw [hlater]; exact key.2⟩
  | head ts =>
    simp only [cSyncOp, cSyncHead] at hr
    rcases hn : cHead ts s.inner with ⟨x, y, z⟩
    rw [hn] at hr
    obtain ⟨h1, h2⟩ := cHead_over h ts hn
    have hs : (CSync.held { s with inner := y }) = s.held := by simp [CSync.held, h2]
    cases x with
    | none =>
      simp only at hr; cases hr
      exact ⟨h1.later _, by rw [hlater, hs]; exact List.Sublist.refl _⟩
    | some o =>
      simp only at hr; cases hr
      refine ⟨h1.later _, ?_⟩
      rw [hlater, hs]
      cases o <;> exact List.Sublist.refl _
  | cancelRead =>
    simp only [cSyncOp] at hr; cases hr
    exact ⟨⟨Or.inr (Or.inl rfl), rfl, rfl⟩, List.Sublist.refl _⟩
  | cancelSubscription =>
    simp only [cSyncOp] at hr; cases hr
    exact ⟨⟨Or.inr (Or.inl rfl), rfl, rfl⟩, List.Sublist.refl _⟩
  | cancelHandle =>
    simp only [cSyncOp] at hr; cases hr
    exact ⟨⟨Or.inr (Or.inl rfl), rfl, rfl⟩, List.Sublist.refl _⟩
  | cancelAll =>
    simp only [cSyncOp] at hr; cases hr
    exact ⟨⟨Or.inl rfl, rfl, rfl⟩, List.Sublist.refl _⟩

theorem cAsyncOp_over {c : CAsync} (h : Over c) (op : COp) {r : Option (Option Out)} {c' : CAsync}
    (hr : cAsyncOp c op = (r, c')) : Ends c c' ∧ (handed r ++ c'.base.buffer).Sublist c.base.buffer := by
  cases op with
  | next timed ts =>
    simp only [cAsyncOp] at hr
    rcases hn : cNext ts c with ⟨x, y, z⟩
    rw [hn] at hr
    obtain ⟨h1, h2⟩ := cNext_over h ts hn
    rcases h2 with ⟨rfl, _, h3⟩ | ⟨rfl, h3⟩ | ⟨rfl, h3, _⟩
    · simp only at hr; cases hr
      refine ⟨h1.later _, ?_⟩
      rw [arriveAll_base, h3]; exact List.Sublist.refl _
    · simp only at hr; cases hr
      refine ⟨h1.later _, ?_⟩
      rw [arriveAll_base, h3]; simp [handed, received]
    · simp only at hr; cases hr
      refine ⟨h1.later _, ?_⟩
      rw [arriveAll_base, h3]; simp [handed, received]
  | nextBatch timed ts =>
    simp only [cAsyncOp] at hr
    rcases hn : cNextBatch timed ts c with ⟨x, y, z⟩
    rw [hn] at hr
    obtain ⟨h1, h2⟩ := cNextBatch_over h timed ts hn
    rcases h2 with ⟨rfl, _, _, h3⟩ | ⟨rfl, h3, _⟩ | ⟨rfl, _, h3, _⟩ <;>
      (simp only at hr; cases hr; refine ⟨h1.later _, ?_⟩; rw [arriveAll_base, h3]; simp [handed, received])
  | head ts =>
    simp only [cAsyncOp] at hr
    rcases hn : cHead ts c with ⟨x, y, z⟩
    rw [hn] at hr
    obtain ⟨h1, h2⟩ := cHead_over h ts hn
    cases x with
    | none =>
      simp only at hr; cases hr
      exact ⟨h1.later _, by rw [arriveAll_base, h2]; exact List.Sublist.refl _⟩
    | some o =>
      simp only at hr; cases hr
      refine ⟨h1.later _, ?_⟩
      rw [arriveAll_base, h2]
      cases o <;> exact List.Sublist.refl _
  | cancelRead => simp only [cAsyncOp] at hr; cases hr; exact ⟨⟨Or.inr (Or.inl rfl), rfl, rfl⟩, List.Sublist.refl _⟩
  | cancelSubscription => simp only [cAsyncOp] at hr; cases hr; exact ⟨⟨Or.inr (Or.inl rfl), rfl, rfl⟩, List.Sublist.refl _⟩
  | cancelHandle => simp only [cAsyncOp] at hr; cases hr; exact ⟨⟨Or.inr (Or.inl rfl), rfl, rfl⟩, List.Sublist.refl _⟩
  | cancelAll => simp only [cAsyncOp] at hr; cases hr; exact ⟨⟨Or.inl rfl, rfl, rfl⟩, List.Sublist.refl _⟩

/-! ## Waiting calls -/

theorem arrive_glob {t : Turn} {c : CAsync} (h : t.glob = true ∨ t.loc = true) :
    (c.arrive t).glob = true ∨ (c.arrive t).loc = true := by
  rcases h with h | h
  · exact Or.inl (by simp [CAsync.arrive, h])
  · exact Or.inr (by simp [CAsync.arrive, h])

/-- A poll of a fetch that sees a signal is ready. -/
theorem pollFetch_signal {c : CAsync} (h : c.glob = true ∨ c.loc = true) (timed : Bool) (t : Turn) :
    ∃ r c', pollFetch timed t c = (.ready r, c') := by
  unfold pollFetch
  split
  · exact ⟨_, _, rfl⟩
  split
  · exact ⟨_, _, rfl⟩
  split
  · exact ⟨_, _, rfl⟩
  · rename_i h1 h2
    exact absurd h (by simp [h1, h2])

theorem pollFetch_pending {c c' : CAsync} {timed : Bool} {t : Turn} {w : List Source}
    (h : pollFetch timed t c = (.pending w, c')) : .glob ∈ w ∧ .loc ∈ w := by
  unfold pollFetch at h
  split at h
  · cases h
  split at h
  · cases h
  split at h
  · cases h
  split at h
  · cases h
  split at h
  · cases h
    cases timed <;> simp
  · cases h

theorem drive_wakes (timed : Bool) : ∀ (ts : List Turn) (w : Option (List Source)) (c : CAsync),
    (∀ l, w = some l → .glob ∈ l ∧ .loc ∈ l) → (∃ t ∈ ts, t.glob = true ∨ t.loc = true) →
    (drive (pollFetch timed) w ts c).1 ≠ none := by
  intro ts
  induction ts with
  | nil => intro w c _ ⟨t, ht, _⟩; cases ht
  | cons t ts ih =>
    intro w c hw ⟨x, hx, hs⟩
    by_cases hsch : scheduled w t = true
    · rcases hp : pollFetch timed t (c.arrive t) with ⟨p, c'⟩
      cases p with
      | ready r => simp [drive, hsch, hp]
      | pending w' =>
        simp only [drive, hsch, if_true, hp]
        refine ih (some w') c' (fun l hl => by cases hl; exact pollFetch_pending hp) ⟨x, ?_, hs⟩
        rcases List.mem_cons.mp hx with rfl | hx
        · obtain ⟨r, c2, h2⟩ := pollFetch_signal (arrive_glob hs) timed x (c := c.arrive x)
          rw [h2] at hp; cases hp
        · exact hx
    · simp only [drive, if_neg hsch]
      refine ih w _ hw ⟨x, ?_, hs⟩
      rcases List.mem_cons.mp hx with rfl | hx
      · refine absurd ?_ hsch
        cases w with
        | none => rfl
        | some l =>
          obtain ⟨h1, h2⟩ := hw l rfl
          simp only [scheduled, List.any_eq_true]
          rcases hs with hs | hs
          · exact ⟨.glob, h1, hs⟩
          · exact ⟨.loc, h2, hs⟩
      · exact hx

theorem cNextBatch_wakes (timed : Bool) (ts : List Turn) (c : CAsync) (h : ∃ t ∈ ts, t.glob = true ∨ t.loc = true) :
    (cNextBatch timed ts c).1 ≠ none := by
  unfold cNextBatch
  split
  · simp
  · have := drive_wakes timed ts none c (by simp) h
    rcases hd : drive (pollFetch timed) none ts c with ⟨x, y, z⟩
    rw [hd] at this
    rcases x with _ | _ | _
    · exact absurd rfl this
    · simp
    · simp

theorem cRefill_wakes (timed : Bool) (ts : List Turn) (s : CSync) (h : ∃ t ∈ ts, t.glob = true ∨ t.loc = true) :
    (cRefill timed ts s).1 ≠ none := by
  unfold cRefill
  have := cNextBatch_wakes timed ts s.inner h
  rcases hd : cNextBatch timed ts s.inner with ⟨x, y, z⟩
  rw [hd] at this
  rcases x with _ | _ | b
  · exact absurd rfl this
  · simp
  · by_cases hb : b = [] <;> simp [hb]

/-- Whatever arrives except items of the stream, a pending `poll_next` stays pending. -/
theorem drive_next_stuck : ∀ (ts : List Turn) (c : CAsync), (∀ t ∈ ts, t.msgs = 0) →
    (drive (fun _ => pollNext) (some [.stream]) ts c).1 = none := by
  intro ts
  induction ts with
  | nil => intro c _; rfl
  | cons t ts ih =>
    intro c h
    have ht : scheduled (some [.stream]) t = false := by simp [scheduled, Turn.happened, h t (by simp)]
    simp only [drive, ht]
    exact ih _ fun x hx => h x (by simp [hx])

/-! ## Without signals -/

def Silent (ts : List Turn) : Prop := ∀ t ∈ ts, t.glob = false ∧ t.loc = false

structure Calm (c : CAsync) : Prop where
  glob : c.glob = false
  loc : c.loc = false

theorem Calm.arrive {c : CAsync} (h : Calm c) {t : Turn} (ht : t.glob = false ∧ t.loc = false) : Calm (c.arrive t) :=
  ⟨by simp [CAsync.arrive, h.glob, ht.1], by simp [CAsync.arrive, h.loc, ht.2]⟩

theorem Calm.arriveAll (ts : List Turn) : ∀ {c : CAsync}, Calm c → Silent ts → Calm (c.arriveAll ts) := by
  induction ts with
  | nil => intro c h _; exact h
  | cons t ts ih => intro c h hs; exact ih (h.arrive (hs t (by simp))) fun x hx => hs x (by simp [hx])

/-- Without signals a fetch does what `fetch` does, for some choice of the timer. -/
theorem drive_calm (timed : Bool) : ∀ (ts : List Turn) (w : Option (List Source)) (c : CAsync), Calm c → Silent ts →
    ∀ {r : Option (Except Err Unit)} {c' : CAsync} {ts' : List Turn}, drive (pollFetch timed) w ts c = (r, c', ts') →
    Calm c' ∧ Silent ts' ∧
      (∀ x, r = some x → ∃ fires, (fires = true → timed = true) ∧ fetch fires c.base = (x, c'.base)) ∧
      (r = none → c'.base = c.base) := by
  intro ts
  induction ts with
  | nil =>
    intro w c hc _ r c' ts' h
    simp only [drive] at h
    cases h
    exact ⟨hc, (by intro t ht; cases ht), by simp, fun _ => rfl⟩
  | cons t ts ih =>
    intro w c hc hs r c' ts' h
    have hca := hc.arrive (hs t (by simp))
    have hst : Silent ts := fun x hx => hs x (by simp [hx])
    simp only [drive] at h
    by_cases hsch : scheduled w t = true
    · rw [if_pos hsch] at h
      rcases hp : pollFetch timed t (c.arrive t) with ⟨p, c1⟩
      rw [hp] at h
      unfold pollFetch at hp
      by_cases h1 : (c.arrive t).base.buffer ≠ [] ∨ (c.arrive t).base.ended = true
      · rw [if_pos h1] at hp
        cases hp; simp only at h; cases h
        refine ⟨hca, hst, fun x hx => ⟨false, by simp, ?_⟩, by simp⟩
        cases hx
        exact if_pos h1
      rw [if_neg h1, if_neg (by simp [hca.glob]), if_neg (by simp [hca.loc])] at hp
      by_cases h2 : timed = true ∧ t.timer = true
      · rw [if_pos h2] at hp
        cases hp; simp only at h; cases h
        refine ⟨hca, hst, fun x hx => ⟨true, fun _ => h2.1, ?_⟩, by simp⟩
        cases hx
        unfold fetch
        rw [if_neg (show ¬ (c.base.buffer ≠ [] ∨ c.base.ended = true) from h1)]; rfl
      rw [if_neg h2] at hp
      by_cases h3 : (c.arrive t).avail = 0
      · rw [if_pos h3] at hp
        cases hp; simp only at h
        exact ih _ _ hca hst h
      · rw [if_neg h3] at hp
        cases hp; simp only at h; cases h
        refine ⟨⟨hca.glob, hca.loc⟩, hst, fun x hx => ⟨false, by simp, ?_⟩, by simp⟩
        cases hx; rfl
    · rw [if_neg hsch] at h
      exact ih _ _ hca hst h

theorem cNextBatch_calm {c : CAsync} (hc : Calm c) (timed : Bool) {ts : List Turn} (hs : Silent ts)
    {r : Option (Except Err (List SeqEvent))} {c' : CAsync} {ts' : List Turn} (h : cNextBatch timed ts c = (r, c', ts')) :
    Calm c' ∧ Silent ts' ∧
      (∀ x, r = some x → ∃ fires, (fires = true → timed = true) ∧ asyncNextBatch fires c.base = (x, c'.base)) ∧
      (r = none → c'.base = c.base) := by
  unfold cNextBatch at h
  by_cases hb : c.base.buffer ≠ []
  · rw [if_pos hb] at h
    cases h
    refine ⟨⟨hc.glob, hc.loc⟩, hs, fun x hx => ⟨false, by simp, ?_⟩, by simp⟩
    cases hx
    unfold asyncNextBatch
    rw [if_pos hb]
  · rw [if_neg hb] at h
    rcases hd : drive (pollFetch timed) none ts c with ⟨x, y, z⟩
    rw [hd] at h
    obtain ⟨h1, h2, h3, h4⟩ := drive_calm timed ts none c hc hs hd
    rcases x with _ | e | u
    · simp only at h; cases h
      exact ⟨h1, h2, by simp, fun _ => h4 rfl⟩
    · simp only at h; cases h
      obtain ⟨f, hf1, hf2⟩ := h3 _ rfl
      refine ⟨h1, h2, fun x hx => ⟨f, hf1, ?_⟩, by simp⟩
      cases hx
      unfold asyncNextBatch
      rw [if_neg hb, hf2]
    · simp only at h; cases h
      obtain ⟨f, hf1, hf2⟩ := h3 _ rfl
      refine ⟨⟨h1.glob, h1.loc⟩, h2, fun x hx => ⟨f, hf1, ?_⟩, by simp⟩
      cases hx
      unfold asyncNextBatch
      rw [if_neg hb, hf2]

theorem cHead_calm {c : CAsync} (hc : Calm c) {ts : List Turn} (hs : Silent ts)
    {r : Option (Except Err (Option Nat))} {c' : CAsync} {ts' : List Turn} (h : cHead ts c = (r, c', ts')) :
    Calm c' ∧ Silent ts' ∧ (∀ x, r = some x → asyncHead c.base = (x, c'.base)) ∧ (r = none → c'.base = c.base) := by
  unfold cHead at h
  cases hl : c.base.lastHead with
  | some v =>
    rw [hl] at h; simp only at h; cases h
    refine ⟨hc, hs, fun x hx => ?_, by simp⟩
    cases hx
    unfold asyncHead; rw [hl]
  | none =>
    rw [hl] at h
    simp only at h
    rcases hd : drive (pollFetch false) none ts c with ⟨x, y, z⟩
    rw [hd] at h
    obtain ⟨h1, h2, h3, h4⟩ := drive_calm false ts none c hc hs hd
    rcases x with _ | e | u
    · simp only at h; cases h
      exact ⟨h1, h2, by simp, fun _ => h4 rfl⟩
    · simp only at h; cases h
      obtain ⟨f, hf1, hf2⟩ := h3 _ rfl
      refine ⟨h1, h2, fun x hx => ?_, by simp⟩
      cases hx
      cases f with
      | true => exact absurd (hf1 rfl) (by simp)
      | false => unfold asyncHead; rw [hl]; simp only [hf2]
    · simp only at h; cases h
      obtain ⟨f, hf1, hf2⟩ := h3 _ rfl
      refine ⟨h1, h2, fun x hx => ?_, by simp⟩
      cases hx
      cases f with
      | true => exact absurd (hf1 rfl) (by simp)
      | false => unfold asyncHead; rw [hl]; simp only [hf2]

theorem pollItems_calm (g l : Bool) : ∀ (n : Nat) (s : Incoming) (h : Option (Option Nat)) {p : Polled (Option (Except Err SeqEvent))}
    {c' : CAsync}, pollItems h g l n s = (p, c') → c'.glob = g ∧ c'.loc = l ∧
      (∀ x, p = .ready x → pollStream h s = (x, c'.base)) ∧
      (∀ w, p = .pending w → w = [.stream] ∧ c'.base.buffer = [] ∧ c'.base.ended = false ∧ c'.avail = 0 ∧
        pollStream c'.base.lastHead c'.base.stream = pollStream h s) := by
  intro n
  induction n with
  | zero =>
    intro s h p c' hp
    simp only [pollItems] at hp
    cases hp
    exact ⟨rfl, rfl, by simp, fun w hw => by cases hw; exact ⟨rfl, rfl, rfl, rfl, rfl⟩⟩
  | succ n ih =>
    intro s h p c' hp
    cases s with
    | nil =>
      simp only [pollItems] at hp; cases hp
      exact ⟨rfl, rfl, fun x hx => by cases hx; rfl, by simp⟩
    | cons m rest =>
      cases m with
      | error st =>
        simp only [pollItems] at hp; cases hp
        exact ⟨rfl, rfl, fun x hx => by cases hx; rfl, by simp⟩
      | ok r =>
        simp only [pollItems] at hp
        simp only [pollStream]
        cases hcv : convertSequenced r.events with
        | error e =>
          rw [hcv] at hp; simp only at hp; cases hp
          exact ⟨rfl, rfl, fun x hx => by cases hx; rfl, by simp⟩
        | ok evs =>
          rw [hcv] at hp
          cases evs with
          | nil => simp only at hp ⊢; exact ih _ _ hp
          | cons ev buf =>
            simp only at hp; cases hp
            exact ⟨rfl, rfl, fun x hx => by cases hx; rfl, by simp⟩

theorem drive_next_calm : ∀ (ts : List Turn) (w : Option (List Source)) (c : CAsync), Calm c → Silent ts →
    ∀ {r : Option (Option (Except Err SeqEvent))} {c' : CAsync} {ts' : List Turn},
    drive (fun _ => pollNext) w ts c = (r, c', ts') →
    Calm c' ∧ Silent ts' ∧ (∀ x, r = some x → asyncNext c.base = (x, c'.base)) ∧
      (r = none → asyncNext c'.base = asyncNext c.base) := by
  intro ts
  induction ts with
  | nil =>
    intro w c hc _ r c' ts' h
    simp only [drive] at h
    cases h
    exact ⟨hc, (by intro t ht; cases ht), by simp, fun _ => rfl⟩
  | cons t ts ih =>
    intro w c hc hs r c' ts' h
    have hca := hc.arrive (hs t (by simp))
    have hst : Silent ts := fun x hx => hs x (by simp [hx])
    simp only [drive] at h
    by_cases hsch : scheduled w t = true
    · rw [if_pos hsch] at h
      rcases hp : pollNext (c.arrive t) with ⟨p, c1⟩
      rw [hp] at h
      unfold pollNext CAsync.status at hp
      rw [if_neg (by simp [hca.glob, hca.loc])] at hp
      by_cases h1 : (c.arrive t).base.ended = true
      · rw [if_pos h1] at hp
        cases hp; simp only at h; cases h
        refine ⟨⟨hca.glob, hca.loc⟩, hst, fun x hx => ?_, by simp⟩
        cases hx
        unfold asyncNext
        rw [if_pos (show c.base.ended = true from h1)]; rfl
      · rw [if_neg h1] at hp
        simp only at hp
        have hun : asyncNext c.base = match c.base.buffer with
            | ev :: buf => (some (.ok ev), { c.base with buffer := buf })
            | [] => pollStream c.base.lastHead c.base.stream := by
          unfold asyncNext; rw [if_neg (show ¬ c.base.ended = true from h1)]; rfl
        cases hb : (c.arrive t).base.buffer with
        | cons ev buf =>
          rw [hb] at hp
          cases hp; simp only at h; cases h
          refine ⟨⟨hca.glob, hca.loc⟩, hst, fun x hx => ?_, by simp⟩
          cases hx
          rw [hun]
          have hb' : c.base.buffer = ev :: buf := hb
          simp only [hb']; rfl
        | nil =>
          rw [hb] at hp
          simp only at hp
          have hb' : c.base.buffer = [] := hb
          obtain ⟨i1, i2, i3, i4⟩ := pollItems_calm _ _ _ _ _ hp
          rw [hb'] at hun
          simp only at hun
          cases p with
          | ready x =>
            simp only at h; cases h
            refine ⟨⟨i1.trans hca.glob, i2.trans hca.loc⟩, hst, fun y hy => ?_, by simp⟩
            cases hy
            rw [hun]; exact i3 x rfl
          | pending w' =>
            simp only at h
            obtain ⟨_, j2, j3, _, j5⟩ := i4 w' rfl
            obtain ⟨k1, k2, k3, k4⟩ := ih _ _ ⟨i1.trans hca.glob, i2.trans hca.loc⟩ hst h
            have he : asyncNext c1.base = asyncNext c.base := by
              rw [hun]
              unfold asyncNext
              rw [if_neg (by simp [j3]), j2]
              exact j5
            exact ⟨k1, k2, fun x hx => by rw [← he]; exact k3 x hx, fun hn => by rw [← he]; exact k4 hn⟩
    · rw [if_neg hsch] at h
      exact ih _ _ hca hst h

/-- The object without the channels. -/
def CSync.plain (s : CSync) : SyncResp := ⟨s.finished, s.buffer, s.inner.base⟩

theorem cRefill_calm {s : CSync} (hc : Calm s.inner) (timed : Bool) {ts : List Turn} (hs : Silent ts)
    {r : Option (Option Err)} {s' : CSync} {ts' : List Turn} (h : cRefill timed ts s = (r, s', ts')) :
    Calm s'.inner ∧ Silent ts' ∧
      (∀ x, r = some x → ∃ fires, (fires = true → timed = true) ∧ refill fires s.plain = (x, s'.plain)) := by
  unfold cRefill at h
  rcases hn : cNextBatch timed ts s.inner with ⟨x, i, z⟩
  rw [hn] at h
  obtain ⟨h1, h2, h3, h4⟩ := cNextBatch_calm hc timed hs hn
  rcases x with _ | e | b
  · simp only at h; cases h
    exact ⟨h1, h2, by simp⟩
  · simp only at h; cases h
    obtain ⟨f, f1, f2⟩ := h3 _ rfl
    refine ⟨h1, h2, fun y hy => ⟨f, f1, ?_⟩⟩
    cases hy
    unfold refill CSync.plain
    simp only [f2]
  · obtain ⟨f, f1, f2⟩ := h3 _ rfl
    simp only at h
    by_cases hb : b = []
    · rw [if_pos hb] at h; cases h
      refine ⟨h1, h2, fun y hy => ⟨f, f1, ?_⟩⟩
      cases hy
      unfold refill CSync.plain
      simp only [f2, hb, if_true]
    · rw [if_neg hb] at h; cases h
      refine ⟨h1, h2, fun y hy => ⟨f, f1, ?_⟩⟩
      cases hy
      unfold refill CSync.plain
      simp only [f2, if_neg hb]

theorem pop_plain (s : CSync) : popFront s.plain = (s.pop.1, s.pop.2.plain) := by
  unfold popFront CSync.pop CSync.plain
  cases hb : s.buffer <;> simp [hb]

theorem status_calm {c : CAsync} (hc : Calm c) : c.status ≠ .cancelled ∧ (c.status = .stopped ↔ c.base.ended = true) := by
  unfold CAsync.status
  rw [if_neg (by simp [hc.glob, hc.loc])]
  by_cases h : c.base.ended = true <;> simp [h]

theorem cSyncNext_calm {s : CSync} (hc : Calm s.inner) (timed : Bool) {ts : List Turn} (hs : Silent ts)
    {r : Option (Option (Except Err SeqEvent))} {s' : CSync} {ts' : List Turn} (h : cSyncNext timed ts s = (r, s', ts')) :
    Calm s'.inner ∧ Silent ts' ∧
      (∀ x, r = some x → ∃ fires, (fires = true → timed = true) ∧ syncNext fires s.plain = (x, s'.plain)) := by
  obtain ⟨hst1, hst2⟩ := status_calm hc
  unfold cSyncNext at h
  rw [if_neg (fun hc => hst1 hc.2)] at h
  by_cases h1 : s.finished = false ∧ s.inner.status = .stopped
  · rw [if_pos h1] at h
    cases h
    refine ⟨hc, hs, fun x hx => ⟨false, by simp, ?_⟩⟩
    cases hx
    unfold syncNext
    rw [if_pos ⟨h1.1, hst2.mp h1.2⟩]
    rfl
  rw [if_neg h1] at h
  have h1' : ¬ (s.plain.finished = false ∧ s.plain.inner.ended = true) := fun hc => h1 ⟨hc.1, hst2.mpr hc.2⟩
  by_cases h2 : s.buffer ≠ [] ∨ s.finished = true
  · rw [if_pos h2] at h
    cases h
    refine ⟨by rw [(pop_held s).2]; exact hc, hs, fun x hx => ⟨false, by simp, ?_⟩⟩
    cases hx
    unfold syncNext
    rw [if_neg h1', if_pos (show s.plain.buffer ≠ [] ∨ s.plain.finished = true from h2), pop_plain]
  rw [if_neg h2] at h
  rcases hr : cRefill timed ts s with ⟨a, b, d⟩
  rw [hr] at h
  obtain ⟨i1, i2, i3⟩ := cRefill_calm hc timed hs hr
  rcases a with _ | _ | e
  · simp only at h; cases h
    exact ⟨i1, i2, by simp⟩
  · simp only at h; cases h
    obtain ⟨f, f1, f2⟩ := i3 _ rfl
    refine ⟨by rw [(pop_held b).2]; exact i1, i2, fun x hx => ⟨f, f1, ?_⟩⟩
    cases hx
    unfold syncNext
    rw [if_neg h1', if_neg (show ¬ (s.plain.buffer ≠ [] ∨ s.plain.finished = true) from h2), f2]
    simp only [pop_plain]
  · simp only at h; cases h
    obtain ⟨f, f1, f2⟩ := i3 _ rfl
    refine ⟨i1, i2, fun x hx => ⟨f, f1, ?_⟩⟩
    cases hx
    unfold syncNext
    rw [if_neg h1', if_neg (show ¬ (s.plain.buffer ≠ [] ∨ s.plain.finished = true) from h2), f2]

theorem cSyncNextBatch_calm {s : CSync} (hc : Calm s.inner) (timed : Bool) {ts : List Turn} (hs : Silent ts)
    {r : Option (Except Err (List SeqEvent))} {s' : CSync} {ts' : List Turn} (h : cSyncNextBatch timed ts s = (r, s', ts')) :
    Calm s'.inner ∧ Silent ts' ∧
      (∀ x, r = some x → ∃ fires, (fires = true → timed = true) ∧ syncNextBatch fires s.plain = (x, s'.plain)) := by
  unfold cSyncNextBatch at h
  by_cases h2 : s.buffer ≠ []
  · rw [if_pos h2] at h
    cases h
    refine ⟨hc, hs, fun x hx => ⟨false, by simp, ?_⟩⟩
    cases hx
    unfold syncNextBatch
    rw [if_pos (show s.plain.buffer ≠ [] from h2)]
    rfl
  rw [if_neg h2] at h
  rcases hr : cRefill timed ts s with ⟨a, b, d⟩
  rw [hr] at h
  obtain ⟨i1, i2, i3⟩ := cRefill_calm hc timed hs hr
  rcases a with _ | _ | e
  · simp only at h; cases h
    exact ⟨i1, i2, by simp⟩
  · simp only at h; cases h
    obtain ⟨f, f1, f2⟩ := i3 _ rfl
    refine ⟨i1, i2, fun x hx => ⟨f, f1, ?_⟩⟩
    cases hx
    unfold syncNextBatch
    rw [if_neg (show ¬ s.plain.buffer ≠ [] from h2), f2]
    rfl
  · simp only at h; cases h
    obtain ⟨f, f1, f2⟩ := i3 _ rfl
    refine ⟨i1, i2, fun x hx => ⟨f, f1, ?_⟩⟩
    cases hx
    unfold syncNextBatch
    rw [if_neg (show ¬ s.plain.buffer ≠ [] from h2), f2]

end Uma.Net
