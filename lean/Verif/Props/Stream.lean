import Verif.Server.SubProof
import Verif.Props.Append

/-!
# Properties of streams: C33, C34, C35

`Rounds L dbs log0`: the databases seen by the successive rounds of one Read call; the first holds `log0`, every later
one a log of which `log0` is a prefix (events may be appended at any moment).
`History L log p cs log' p' quiet`: a course of writer and subscriber steps, see `Verif/Server/SubProof.lean`.
-/

namespace Uma.Props
open Uma.Spec Uma.Db Uma.Server

variable {δ σ υ ι : Type} {B : Backend δ σ υ ι} {valid : Record → Prop}

theorem batchSizeOf_pos (b : Option Nat) : 0 < batchSizeOf b ∧ batchSizeOf b ≤ 4096 := by
  unfold batchSizeOf; omega

theorem todo_length_le (log : Log) (q : Query) (b : Bool) (start : Option Nat) :
    (todo log q b start).length ≤ log.length := by
  unfold todo Server.ordered
  refine Nat.le_trans (List.length_filter_le _ _) ?_
  have h : ((sequenced log).filter fun e => decide (Matches q e.event)).length ≤ log.length := by
    refine Nat.le_trans (List.length_filter_le _ _) (Nat.le_of_eq ?_)
    have := congrArg List.length (C07_positions log).1
    simpa using this
  split
  · simpa using h
  · exact h

/-- C33: what a Read call has delivered, at any moment and also if it is cut off, is a beginning of the result of one
read of the log at the start of the stream; if it is not cut off it ends after finitely many rounds having delivered all
of it. -/
theorem C33_stream_is_one_read {env : Env} (he : EnvOk env) (L : Lawful B env.H valid) {dbs : Nat → δ} {log0 : Log}
    (R : Rounds L dbs log0) (query : Option Query) (start : Option Nat) (backwards : Option Bool)
    (limit batchSize : Option Nat) (gone : Nat → Bool) (cs : Nat → Cancel) (fuel : Nat) :
    let out := readCall B env query start backwards limit batchSize dbs gone cs fuel
    let want := Spec.read log0 (query.getD ⟨[]⟩) start (backwards.getD false) limit
    delivered out.1 <+: want ∧
    ((∀ k, gone k = false) → (∀ k j, cs k j = false) → log0.length < fuel → out.2 = true ∧ delivered out.1 = want) := by
  intro out want
  have hb := batchSizeOf_pos batchSize
  obtain ⟨h1, _, h3⟩ := readTask_spec he L R ⟨query, start, backwards.getD false, limit, batchSizeOf batchSize⟩
    hb.1 hb.2 gone cs fuel 0 _ (streamInv_init _ log0)
  have hw : owed ⟨query, start, backwards.getD false, limit, batchSizeOf batchSize⟩
      (ReadState.init ⟨query, start, backwards.getD false, limit, batchSizeOf batchSize⟩)
      (todo log0 (query.getD ⟨[]⟩) (backwards.getD false) start) = want := by
    simp only [want, read_eq_todo, owed, ReadState.init]
    cases limit <;> simp [applyLimit]
  simp only [ReadState.init] at h1 h3 hw
  rw [hw] at h1 h3
  refine ⟨h1, fun g1 g2 g3 => ?_⟩
  obtain ⟨i1, i2, _⟩ := h3 g1 g2 (Nat.lt_of_le_of_lt (todo_length_le _ _ _ _) g3)
  exact ⟨i1, i2⟩

/-- C33: no message of a stream is an error, and every message tells the right head: that of the log at the start of the
stream, or with a limit the position of its own last event. -/
theorem C33_heads {env : Env} (he : EnvOk env) (L : Lawful B env.H valid) {dbs : Nat → δ} {log0 : Log}
    (R : Rounds L dbs log0) (query : Option Query) (start : Option Nat) (backwards : Option Bool)
    (limit batchSize : Option Nat) (gone : Nat → Bool) (cs : Nat → Cancel) (fuel : Nat) :
    ∀ m ∈ (readCall B env query start backwards limit batchSize dbs gone cs fuel).1, ∃ r, m = .ok r ∧
      r.head = if limit.isSome then r.events.getLast?.map (·.position)
        else if log0 = [] then none else some log0.length := by
  have hb := batchSizeOf_pos batchSize
  exact (readTask_spec he L R ⟨query, start, backwards.getD false, limit, batchSizeOf batchSize⟩
    hb.1 hb.2 gone cs fuel 0 _ (streamInv_init _ log0)).2.1

/-- C33: an uninterrupted stream sends at least one message (so the head is always known), unless the limit is 0. -/
theorem C33_some_message {env : Env} (he : EnvOk env) (L : Lawful B env.H valid) {dbs : Nat → δ} {log0 : Log}
    (R : Rounds L dbs log0) (query : Option Query) (start : Option Nat) (backwards : Option Bool)
    (limit batchSize : Option Nat) (gone : Nat → Bool) (cs : Nat → Cancel) (fuel : Nat) (hl : limit ≠ some 0)
    (hg : ∀ k, gone k = false) (hc : ∀ k j, cs k j = false) (hf : log0.length < fuel) :
    (readCall B env query start backwards limit batchSize dbs gone cs fuel).1 ≠ [] := by
  have hb := batchSizeOf_pos batchSize
  obtain ⟨_, _, h3⟩ := readTask_spec he L R ⟨query, start, backwards.getD false, limit, batchSizeOf batchSize⟩
    hb.1 hb.2 gone cs fuel 0 _ (streamInv_init _ log0)
  refine (h3 hg hc (Nat.lt_of_le_of_lt (todo_length_le _ _ _ _) hf)).2.2 rfl ?_
  cases limit with
  | none => simp
  | some n => simp [ReadState.init]; intro h; exact hl (by rw [h])

/-- How many events the messages of a Read call carry: the number asked for, 1024 if none was, at least 1 and at most
4096.  (Written apart from `batchSizeOf`.) -/
def messageSize : Option Nat → Nat
  | none => 1024
  | some b => if b = 0 then 1 else if 4096 < b then 4096 else b

theorem batchSizeOf_eq (b : Option Nat) : batchSizeOf b = messageSize b := by
  cases b with
  | none => rfl
  | some b => 
    simp only [batchSizeOf, messageSize, Option.getD_some]
    split
    · omega
    · split <;> omega

theorem onRead_sizes (a : ReadArgs) (st : ReadState) (hb : a.batch ≤ 4096) (hn : a.limit = none → st.remaining = u32Max)
    (res : Except Err (List SeqEvent × Option Nat))
    (hres : ∀ p, res = .ok p → p.1.length ≤ min st.remaining a.batch) :
    let out := onRead a st (min st.remaining a.batch) res
    (∀ r, out.1 = some (.ok r) → r.events.length ≤ a.batch) ∧
    (∀ st', out.2 = some st' → (∃ r, out.1 = some (.ok r) ∧ r.events.length = a.batch) ∧
      (a.limit = none → st'.remaining = u32Max)) := by
  cases res with
  | error e => cases e <;> simp [onRead]
  | ok p =>
    obtain ⟨events, dbHead⟩ := p
    have hle := hres _ rfl
    simp only at hle
    have hk : ∀ f : SeqEvent → Bool, (events.filter f).length ≤ events.length := fun f => List.length_filter_le _ _
    unfold onRead
    simp only
    generalize (if st.haveCaptured = true then st.captured else dbHead) = cap
    have hkc := hk (withinHead cap)
    cases hlast : (events.filter (withinHead cap)).getLast? with
    | none =>
      simp only
      refine ⟨?_, by simp⟩
      intro r hr
      split at hr
      · simp at hr
      · simp only [Option.some.injEq, Except.ok.injEq] at hr; subst hr; simp
    | some last =>
      simp only
      generalize (if a.limit.isSome = true then some last.position else cap) = hd
      generalize hrem' : (if a.limit.isSome = true then
        st.remaining - (events.filter (withinHead cap)).length % 2 ^ 32 else st.remaining) = rem
      by_cases hgo : events.length % 2 ^ 32 < min st.remaining a.batch ∨
        cap.isSome = true ∧ (events.filter (withinHead cap)).length < events.length
      · rw [if_pos hgo]
        refine ⟨?_, by simp⟩
        intro r hr; simp only [Option.some.injEq, Except.ok.injEq] at hr; subst hr; simp only; omega
      · rw [if_neg hgo]
        split
        · refine ⟨?_, by simp⟩
          intro r hr; simp only [Option.some.injEq, Except.ok.injEq] at hr; subst hr; simp only; omega
        · rename_i hrem
          have hm : events.length % 2 ^ 32 = events.length := Nat.mod_eq_of_lt (by omega)
          have hall : (events.filter (withinHead cap)).length = events.length := by
            cases cap with
            | none => rw [List.filter_eq_self.mpr (by intro e _; rfl)]
            | some h =>
              have : ¬ ((events.filter (withinHead (some h))).length < events.length) := fun h' => hgo (.inr ⟨rfl, h'⟩)
              omega
          have hfull : min st.remaining a.batch ≤ events.length := by
            have : ¬ (events.length % 2 ^ 32 < min st.remaining a.batch) := fun h' => hgo (.inl h')
            omega
          have hbatch : events.length = a.batch := by
            cases hl : a.limit with
            | none =>
              have := hn hl
              have hu : u32Max = 4294967295 := rfl
              omega
            | some n =>
              simp only [hl, Option.isSome_some, if_true, true_and] at hrem hrem'
              rw [hall, hm] at hrem'
              omega
          refine ⟨?_, ?_⟩
          · intro r hr; simp only [Option.some.injEq, Except.ok.injEq] at hr; subst hr; simp only; omega
          · intro st' hst'
            simp only [Option.some.injEq] at hst'
            subst hst'
            refine ⟨⟨_, rfl, by simp only; omega⟩, ?_⟩
            intro hl
            rw [← hrem']
            simp [hl, hn hl]

theorem readTask_sizes (env : Env) (a : ReadArgs) (hb : a.batch ≤ 4096) (dbs : Nat → δ) (gone : Nat → Bool)
    (cs : Nat → Cancel)
    (hread : ∀ k start rl p, handlerRead B env (dbs k) a.query start a.backwards (some rl) (cs k) = .ok p →
      p.1.length ≤ rl) (fuel k : Nat) (st : ReadState) (hn : a.limit = none → st.remaining = u32Max)
    (pre : List (Except Err Response)) (r : Response) (post : List (Except Err Response))
    (h : (readTask B env a dbs gone cs fuel k st).1 = pre ++ .ok r :: post) :
    r.events.length ≤ a.batch ∧ (post ≠ [] → r.events.length = a.batch) := by
  induction fuel generalizing k st pre with
  | zero => simp [readTask] at h
  | succ fuel ih =>
    rw [readTask] at h
    split at h
    · simp at h
    have hs : (∀ r, (readRound B env a st (dbs k) (cs k)).1 = some (.ok r) → r.events.length ≤ a.batch) ∧
        (∀ st', (readRound B env a st (dbs k) (cs k)).2 = some st' →
          (∃ r, (readRound B env a st (dbs k) (cs k)).1 = some (.ok r) ∧ r.events.length = a.batch) ∧
          (a.limit = none → st'.remaining = u32Max)) := by
      unfold readRound
      simp only
      split
      · simp
      · exact onRead_sizes a st hb hn _ fun p hp => hread _ _ _ _ hp
    generalize readRound B env a st (dbs k) (cs k) = out at h hs
    obtain ⟨m, o⟩ := out
    cases o with
    | none =>
      simp only at h hs
      cases m with
      | none => simp at h
      | some x =>
        simp only [Option.toList_some] at h
        cases pre with
        | nil =>
          simp only [List.nil_append, List.cons.injEq] at h
          obtain ⟨h1, h2⟩ := h
          subst h1; subst h2
          exact ⟨hs.1 r rfl, by simp⟩
        | cons y ys => simp at h
    | some st' =>
      simp only at h hs
      obtain ⟨⟨r', hr', hl'⟩, hn'⟩ := hs.2 st' rfl
      subst hr'
      simp only [Option.toList_some] at h
      cases pre with
      | nil =>
        simp only [List.nil_append, List.cons_append, List.cons.injEq, Except.ok.injEq] at h
        obtain ⟨h1, _⟩ := h
        subst h1
        exact ⟨by omega, fun _ => hl'⟩
      | cons y ys =>
        simp only [List.cons_append, List.nil_append, List.cons.injEq] at h
        exact ih _ _ hn' ys h.2

/-- C33: every message of a Read call carries at most as many events as the call asked for (1024 if it did not say, never
more than 4096), and every message but the last exactly that many. -/
theorem C33_message_sizes {env : Env} (he : EnvOk env) (L : Lawful B env.H valid) {dbs : Nat → δ} {log0 : Log}
    (R : Rounds L dbs log0) (query : Option Query) (start : Option Nat) (backwards : Option Bool)
    (limit batchSize : Option Nat) (gone : Nat → Bool) (cs : Nat → Cancel) (fuel : Nat)
    (pre : List (Except Err Response)) (r : Response) (post : List (Except Err Response))
    (h : (readCall B env query start backwards limit batchSize dbs gone cs fuel).1 = pre ++ .ok r :: post) :
    r.events.length ≤ messageSize batchSize ∧ (post ≠ [] → r.events.length = messageSize batchSize) := by
  rw [← batchSizeOf_eq]
  refine readTask_sizes env ⟨query, start, backwards.getD false, limit, batchSizeOf batchSize⟩
    (batchSizeOf_pos batchSize).2 dbs gone cs ?_ fuel 0 _ ?_ pre r post h
  · intro k start rl p hp
    rcases handlerRead_spec he L (R.rep k) query start (backwards.getD false) (some rl) (cs k) with hr | ⟨hr, _⟩
    · rw [hr] at hp
      cases hp
      simp only [read_eq_todo, applyLimit, List.length_take]
      omega
    · rw [hr] at hp; cases hp
  · intro hl
    simp only at hl
    simp [ReadState.init, hl]

example : messageSize none = 1024 ∧ messageSize (some 7) = 7 ∧ messageSize (some 0) = 1 ∧
    messageSize (some 5000) = 4096 := by decide

/-- A message without events. -/
def EmptyMsg (m : Except Err Response) : Prop := ∃ r, m = .ok r ∧ r.events = []

theorem onRead_shape (a : ReadArgs) (st : ReadState) (rl : Nat) (res : Except Err (List SeqEvent × Option Nat)) :
    (∀ st', (onRead a st rl res).2 = some st' → st'.sentAny = true ∧ ∀ m ∈ (onRead a st rl res).1, ¬ EmptyMsg m) ∧
    (st.sentAny = true → ∀ m ∈ (onRead a st rl res).1, ¬ EmptyMsg m) := by
  cases res with
  | error e => cases e <;> simp [onRead, EmptyMsg]
  | ok p =>
    obtain ⟨events, dbHead⟩ := p
    simp only [onRead]
    generalize hk' : events.filter (withinHead (if st.haveCaptured then st.captured else dbHead)) = kept
    generalize (if st.haveCaptured then st.captured else dbHead) = captured
    cases hk : kept.getLast? with
    | none => exact ⟨by simp, fun h => by simp [h]⟩
    | some last =>
      have hne : ∀ h, ¬ EmptyMsg (.ok ⟨kept, h⟩) := by
        rintro h ⟨r, hr, h'⟩
        cases hr
        simp only at h'
        rw [h'] at hk; cases hk
      simp only
      by_cases h1 : events.length % 2 ^ 32 < rl ∨ (captured.isSome = true ∧ kept.length < events.length)
      · rw [if_pos h1]
        exact ⟨by simp, fun _ m hm => by cases hm; exact hne _⟩
      · rw [if_neg h1]
        generalize (if a.limit.isSome = true then st.remaining - kept.length % 2 ^ 32 else st.remaining) = remaining
        generalize (if a.limit.isSome = true then some last.position else captured) = h
        by_cases h2 : a.limit.isSome = true ∧ remaining = 0
        · rw [if_pos h2]
          exact ⟨by simp, fun _ m hm => by cases hm; exact hne _⟩
        · rw [if_neg h2]
          exact ⟨fun st' h => ⟨by cases h; rfl, fun m hm => by cases hm; exact hne _⟩,
            fun _ m hm => by cases hm; exact hne _⟩

theorem readTask_shape (env : Env) (a : ReadArgs) (dbs : Nat → δ) (gone : Nat → Bool) (cs : Nat → Cancel)
    (fuel k : Nat) (st : ReadState) :
    let ms := (readTask B env a dbs gone cs fuel k st).1
    (st.sentAny = true → ∀ m ∈ ms, ¬ EmptyMsg m) ∧ ((∀ m ∈ ms, ¬ EmptyMsg m) ∨ ∃ m, ms = [m]) := by
  induction fuel generalizing k st with
  | zero => simp [readTask]
  | succ fuel ih =>
    simp only [readTask]
    by_cases hg : gone k = true
    · simp [hg]
    rw [if_neg hg]
    have hsh : (∀ st', (readRound B env a st (dbs k) (cs k)).2 = some st' →
        st'.sentAny = true ∧ ∀ m ∈ (readRound B env a st (dbs k) (cs k)).1, ¬ EmptyMsg m) ∧
        (st.sentAny = true → ∀ m ∈ (readRound B env a st (dbs k) (cs k)).1, ¬ EmptyMsg m) := by
      unfold readRound
      simp only
      split
      · simp
      · exact onRead_shape _ _ _ _
    match hr : readRound B env a st (dbs k) (cs k) with
    | (m, none) =>
      rw [hr] at hsh
      simp only
      refine ⟨fun h x hx => hsh.2 h x (by simpa using hx), ?_⟩
      cases m with
      | none => simp
      | some x => exact Or.inr ⟨x, rfl⟩
    | (m, some st') =>
      rw [hr] at hsh
      simp only
      obtain ⟨h1, h2⟩ := hsh.1 st' rfl
      have h3 := (ih (k + 1) st').1 h1
      have : ∀ x ∈ m.toList ++ (readTask B env a dbs gone cs fuel (k + 1) st').1, ¬ EmptyMsg x := by
        intro x hx
        rcases List.mem_append.mp hx with hx | hx
        · exact h2 x (by simpa using hx)
        · exact h3 x hx
      exact ⟨fun _ => this, Or.inl this⟩

/-- C33: a message without events is the only message of its stream. -/
theorem C33_empty_message_alone (env : Env) (query : Option Query) (start : Option Nat) (backwards : Option Bool)
    (limit batchSize : Option Nat) (dbs : Nat → δ) (gone : Nat → Bool) (cs : Nat → Cancel) (fuel : Nat) (r : Response)
    (h : .ok r ∈ (readCall B env query start backwards limit batchSize dbs gone cs fuel).1) (he : r.events = []) :
    (readCall B env query start backwards limit batchSize dbs gone cs fuel).1 = [.ok r] := by
  rcases (readTask_shape (B := B) env ⟨query, start, backwards.getD false, limit, batchSizeOf batchSize⟩ dbs gone cs
    fuel 0 (ReadState.init ⟨query, start, backwards.getD false, limit, batchSizeOf batchSize⟩)).2 with h1 | ⟨m, h1⟩
  · exact absurd ⟨r, rfl, he⟩ (h1 _ h)
  · have h1 : (readCall B env query start backwards limit batchSize dbs gone cs fuel).1 = [m] := h1
    rw [h1] at h ⊢
    simp at h
    rw [h]

theorem readTask_ended (env : Env) (a : ReadArgs) (dbs : Nat → δ) (gone : Nat → Bool) (cs : Nat → Cancel) (more : Nat) : ∀ (fuel k : Nat) (st : ReadState),
    (readTask B env a dbs gone cs fuel k st).2 = true →
    readTask B env a dbs gone cs (fuel + more) k st = readTask B env a dbs gone cs fuel k st := by
  intro fuel
  induction fuel with
  | zero => intro k st h; simp [readTask] at h
  | succ fuel ih =>
    intro k st h
    rw [Nat.add_right_comm]
    simp only [readTask] at h ⊢
    split
    · rfl
    · rename_i hg
      rw [if_neg hg] at h
      cases hr : readRound B env a st (dbs k) (cs k) with
      | mk m nx =>
        rw [hr] at h
        cases nx with
        | none => rfl
        | some st' => dsimp only at h ⊢; rw [ih (k + 1) st' h]

/-- C33.  A Read call told to have ended has ended: more rounds change nothing. -/
theorem C33_ended (env : Env) (query : Option Query) (start : Option Nat) (backwards : Option Bool) (limit batchSize : Option Nat)
    (dbs : Nat → δ) (gone : Nat → Bool) (cs : Nat → Cancel) (fuel more : Nat)
    (h : (readCall B env query start backwards limit batchSize dbs gone cs fuel).2 = true) :
    readCall B env query start backwards limit batchSize dbs gone cs (fuel + more) =
      readCall B env query start backwards limit batchSize dbs gone cs fuel := readTask_ended env _ dbs gone cs more fuel 0 _ h

/-- Matching events after `a`, oldest first. -/
def matchingAfter (log : Log) (q : Query) (after : Option Nat) : List SeqEvent :=
  (sequenced log).filter fun e => after.all (fun a => decide (a < e.position)) && decide (Matches q e.event)

/-- C34: whatever the schedule, what a subscription has delivered is a beginning of the list of matching committed events
after `a`, oldest first: in order, nothing missing in between, nothing twice. -/
theorem C34_subscription_prefix {env : Env} (he : EnvOk env) (L : Lawful B env.H valid) (query : Option Query)
    (batchSize : Option Nat) {d : δ} {s : Spec.Db} (hd : L.RepD d s) (hs : s.log.length < u64Max) (after : Option Nat)
    (ha : ∀ a ∈ after, a ≤ u64Max) (v : Nat) {cs : List (Choice δ)} {log' : Log} {p' quiet : Bool}
    (hh : History L s.log false cs log' p' quiet) :
    (runWorld B env query (batchSizeOf batchSize) (subscribeCall d after v) cs).delivered <+:
      matchingAfter log' (query.getD ⟨[]⟩) after := by
  by_cases hm : after = some u64Max
  · have : ∀ (cs : List (Choice δ)) (w : World δ), w.phase = .ended →
        (runWorld B env query (batchSizeOf batchSize) w cs).delivered = w.delivered := by
      intro cs
      induction cs with
      | nil => intro w _; rfl
      | cons c cs ih =>
        intro w hw
        rw [runWorld, List.foldl_cons]
        have h1 : (worldStep B env query (batchSizeOf batchSize) w c).phase = .ended ∧
            (worldStep B env query (batchSizeOf batchSize) w c).delivered = w.delivered := by
          cases c with
          | commit d => simp only [worldStep]; split <;> simp [hw]
          | announce => simp only [worldStep]; split <;> simp [hw]
          | sub c => simp [worldStep, subStep, hw]
        rw [← h1.2]
        exact ih _ h1.1
    rw [this cs _ (by simp [subscribeCall, hm])]
    simp [subscribeCall, hm]
  · have hlt : ∀ a ∈ after, a < u64Max := by
      intro a h
      refine Nat.lt_of_le_of_ne (ha a h) ?_
      rintro rfl; exact hm h
    have := subInv_run he L query _ (batchSizeOf batchSize) (batchSizeOf_pos batchSize).1 hh
      (subInv_init L (query.getD ⟨[]⟩) (batchSizeOf batchSize) hd hs after hm v)
    have hp := this.prefx
    rwa [todo_after _ _ this.small _ hlt] at hp

/-- C34: positions delivered are strictly increasing and above `a`. -/
theorem C34_increasing (log : Log) (q : Query) (after : Option Nat) {l : List SeqEvent}
    (h : l <+: matchingAfter log q after) :
    (l.map (·.position)).Pairwise (· < ·) ∧ ∀ e ∈ l, ∀ a ∈ after, a < e.position := by
  have hp : ((matchingAfter log q after).map (·.position)).Pairwise (· < ·) := by
    refine List.Pairwise.sublist (List.Sublist.map _ (List.filter_sublist)) ?_
    rw [(C07_positions log).1]
    exact List.pairwise_lt_range'
  refine ⟨List.Pairwise.sublist (h.sublist.map _) hp, ?_⟩
  intro e he a ha
  have := (List.mem_filter.mp (h.subset he)).2
  cases after with
  | none => cases ha
  | some b => simp at ha; subst ha; simp at this; exact this.1

/-- C35: no lost wake-up.  If the subscriber can make no step of its own, it was not cancelled and the writer has
announced its commits, then every matching committed event after `a` has been delivered. -/
theorem C35_no_lost_wakeup {env : Env} (he : EnvOk env) (L : Lawful B env.H valid) (query : Option Query)
    (batchSize : Option Nat) {d : δ} {s : Spec.Db} (hd : L.RepD d s) (hs : s.log.length < u64Max) (after : Option Nat)
    (ha : ∀ a ∈ after, a < u64Max) (v : Nat) {cs : List (Choice δ)} {log' : Log}
    (hh : History L s.log false cs log' false true)
    (hblocked : subStep B env query (batchSizeOf batchSize) Cancel.never
      (runWorld B env query (batchSizeOf batchSize) (subscribeCall d after v) cs) = none) :
    (runWorld B env query (batchSizeOf batchSize) (subscribeCall d after v) cs).delivered =
      matchingAfter log' (query.getD ⟨[]⟩) after := by
  have hm : after ≠ some u64Max := by intro h; exact absurd (ha _ h) (Nat.lt_irrefl _)
  have hw := subInv_run he L query _ (batchSizeOf batchSize) (batchSizeOf_pos batchSize).1 hh
      (subInv_init L (query.getD ⟨[]⟩) (batchSizeOf batchSize) hd hs after hm v)
  generalize runWorld B env query (batchSizeOf batchSize) (subscribeCall d after v) cs = w at hblocked hw ⊢
  have hph := hw.phase
  unfold subStep at hblocked
  cases hphase : w.phase with
  | top => rw [hphase] at hblocked; cases hblocked
  | armed seen =>
    rw [hphase] at hblocked
    simp only at hblocked
    split at hblocked <;> cases hblocked
  | got seen events =>
    rw [hphase] at hblocked
    simp only at hblocked
    split at hblocked
    · cases hblocked
    · split at hblocked <;> cases hblocked
  | waiting seen =>
    rw [hphase] at hblocked
    simp only at hblocked
    have hv : w.version = seen := by
      by_cases h : w.version = seen
      · exact h
      · rw [if_neg h] at hblocked; cases hblocked
    rw [hphase] at hph
    simp only at hph
    obtain ⟨snap, ⟨_, _, hf⟩, hnil⟩ := hph
    have hsnap : snap = log' := by
      rcases hf with h | h | h
      · exact h
      · rw [hw.pend] at h; cases h
      · omega
    subst hsnap
    have := cursor_todo hw.small hw.prefx (hw.cursor (by simp [hphase]))
    rw [hnil, List.append_nil] at this
    rw [← this]
    exact todo_after _ _ hw.small _ ha
  | ended => rw [hphase] at hph; cases hph

/-- C35: a subscriber that is not cancelled never ends by itself, so being blocked means waiting for a commit. -/
theorem C35_blocked_is_waiting {env : Env} (he : EnvOk env) (L : Lawful B env.H valid) (query : Option Query)
    (batchSize : Option Nat) {d : δ} {s : Spec.Db} (hd : L.RepD d s) (hs : s.log.length < u64Max) (after : Option Nat)
    (ha : ∀ a ∈ after, a < u64Max) (v : Nat) {cs : List (Choice δ)} {log' : Log} {p' : Bool}
    (hh : History L s.log false cs log' p' true) :
    (runWorld B env query (batchSizeOf batchSize) (subscribeCall d after v) cs).phase ≠ .ended := by
  have hm : after ≠ some u64Max := by intro h; exact absurd (ha _ h) (Nat.lt_irrefl _)
  have hw := subInv_run he L query _ (batchSizeOf batchSize) (batchSizeOf_pos batchSize).1 hh
      (subInv_init L (query.getD ⟨[]⟩) (batchSizeOf batchSize) hd hs after hm v)
  intro h
  have hph := hw.phase
  rw [h] at hph
  cases hph

/-! ## Concrete cases -/

section Examples

/-- The database grows between the rounds: round 0 sees two events, later rounds three. -/
def exGrow : Nat → MemDb
  | 0 => ⟨3, exLog.take 2, [(7, 1), (7, 2)], []⟩
  | _ => exDb

/-- Batch size 1: two messages, the third event is not delivered although round 2 sees it; head is that of the start. -/
example : readCall (memBackend fun _ => true) exEnv none none none none (some 1) exGrow (fun _ => false)
      (fun _ => Cancel.never) 5 =
    ([.ok ⟨[⟨1, exEvent "a" ["x", "y"], none⟩], some 2⟩, .ok ⟨[⟨2, exEvent "b" ["x"], none⟩], some 2⟩], true) := by
  decide +kernel

/-- Backwards with limit 2 and batch size 1. -/
example : readCall (memBackend fun _ => true) exEnv none none (some true) (some 2) (some 1) (fun _ => exDb)
      (fun _ => false) (fun _ => Cancel.never) 5 =
    ([.ok ⟨[⟨3, exEvent "a" ["y", "x"], none⟩], some 3⟩, .ok ⟨[⟨2, exEvent "b" ["x"], none⟩], some 2⟩], true) := by
  decide +kernel

/-- Nothing to deliver: one message, without events. -/
example : readCall (memBackend fun _ => true) exEnv none (some 9) none none none (fun _ => exDb)
      (fun _ => false) (fun _ => Cancel.never) 5 = ([.ok ⟨[], some 3⟩], true) := by
  decide +kernel

/-- The commit falls between the subscriber's snapshot and its decision to wait; the announcement wakes it up. -/
def exSchedule : List (Choice MemDb) :=
  let c := Cancel.never
  [.sub c, .sub c, .sub c, .sub c, .sub c, .commit exDb, .sub c, .announce, .sub c, .sub c, .sub c, .sub c, .sub c, .sub c, .sub c]

example : (runWorld (memBackend fun _ => true) exEnv none 4 (subscribeCall (exGrow 0) (some 1) 0) exSchedule).phase =
      .waiting 1 ∧
    (runWorld (memBackend fun _ => true) exEnv none 4 (subscribeCall (exGrow 0) (some 1) 0) exSchedule).delivered =
      [⟨2, exEvent "b" ["x"], none⟩, ⟨3, exEvent "a" ["y", "x"], none⟩] := by
  decide +kernel

theorem exRep0 : (memLawful exEnv.H (fun _ => true)).RepD (exGrow 0) ⟨exLog.take 2, fun _ => none⟩ where
  next := rfl
  log := rfl
  idx h p := by
    constructor
    · intro hm
      simp only [exGrow, List.mem_cons, Prod.mk.injEq, List.not_mem_nil, or_false] at hm
      rcases hm with ⟨rfl, rfl⟩ | ⟨rfl, rfl⟩
      · exact mem_idxOf.mpr ⟨_, by simp [numberFrom, exLog]; exact rfl, "x", by simp [exEvent], rfl⟩
      · exact mem_idxOf.mpr ⟨_, by simp [numberFrom, exLog]; exact rfl, "x", by simp [exEvent], rfl⟩
    · intro hm
      obtain ⟨r, hp, t, ht, rfl⟩ := mem_idxOf.mp hm
      simp only [exLog, numberFrom, List.take_succ_cons, List.take_zero, List.mem_cons, Prod.mk.injEq,
        List.not_mem_nil, or_false] at hp
      rcases hp with ⟨rfl, _⟩ | ⟨rfl, _⟩ <;> simp [exGrow, exEnv]
  track s := rfl

/-- The hypotheses of C33 are met by `exGrow`, those of C34 and C35 by `exSchedule`. -/
def exRounds : Rounds (memLawful exEnv.H (fun _ => true)) exGrow (exLog.take 2) where
  ss k := match k with
    | 0 => ⟨exLog.take 2, fun _ => none⟩
    | _ + 1 => ⟨exLog, fun s => if s = "src" then some 5 else none⟩
  rep k := by cases k with
    | zero => exact exRep0
    | succ k => exact exRep
  first := rfl
  grow k := by cases k with
    | zero => exact List.prefix_refl _
    | succ k => exact List.take_prefix _ _
  small k := by cases k <;> simp [exLog, u64Max]

example : History (memLawful exEnv.H (fun _ => true)) (exLog.take 2) false exSchedule exLog false true := by
  have hc : ∀ j, Cancel.never j = false := fun _ => rfl
  refine .sub (.sub (.sub (.sub (.sub (.commit exRep (List.take_prefix _ _) (by decide) ?_) hc) hc) hc) hc) hc
  exact .sub (.announce (.sub (.sub (.sub (.sub (.sub (.sub (.sub .nil hc) hc) hc) hc) hc) hc) hc)) hc

end Examples

end Uma.Props
