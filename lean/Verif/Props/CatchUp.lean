import Verif.Props.Resume
import Verif.Props.Collect

/-!
# C83: reading first, then subscribing

A program that builds a view reads what is recorded, notes the head it is told, and subscribes after it.
-/

namespace Uma.Props
open Uma.Spec Uma.Db Uma.Page Uma.Codec Uma.Server Uma.Net

/-- The place to read from after `m`: positions are 64-bit numbers. -/
def from_ (m : Option Nat) : Option Nat := m.map fun a => min (a + 1) u64Max

section
variable {c : Conf} {kw : Nat}

/-- An answer of `read_with_head`, forwards from `start`: by the embedded database `d`, or over the network with one of the clients while the
writer commits (`dbs`).  With a limit the server may have cut the stream off; without it has not. -/
inductive Replied (hc : ConfOk c kw) (env : Env) (hH : ∀ t, Codec.NormalizedTo kw (env.H t)) (query : Option Query) (start limit : Option Nat)
    (d : PDb) (log : Log) : PDb → Log → List SeqEvent × Option Nat → Prop
  | embedded {ans} : localReadWithHead (pageBackend c) env d query start false limit = .ok ans → Replied hc env hH query start limit d log d log ans
  | remote {dbs ans} (R : Rounds (pageLawful hc hH) dbs log) (batchSize : Option Nat) (gone : Nat → Bool) (cs : Nat → Cancel) (fuel turns k : Nat) :
      dbs 0 = d → log.length < fuel → log.length < turns →
      (limit = none → (∀ k, gone k = false) ∧ ∀ k, cs k = Cancel.never) →
      (asyncCollect turns (wire (oks (readCall (pageBackend c) env query start (some false) limit batchSize dbs gone cs fuel).1) none) = some (.ok ans) ∨
        syncCollect turns (wire (oks (readCall (pageBackend c) env query start (some false) limit batchSize dbs gone cs fuel).1) none) = some (.ok ans)) →
      Replied hc env hH query start limit d log (dbs k) (R.ss k).log ans

/-- A program that has received `got` and goes on after `m`.  It reads or subscribes, in any order and as often as it likes; what it keeps of a
reading is all of it, of a subscription any beginning.  The position it begins after, if any, is one that has been reached. -/
inductive Consumer (hc : ConfOk c kw) (env : Env) (hH : ∀ t, Codec.NormalizedTo kw (env.H t)) (query : Option Query) (after0 : Option Nat) :
    PDb → Log → List SeqEvent → Option Nat → Prop
  | start {d s} : (pageLawful hc hH).RepD d s → (∀ a ∈ after0, a ≤ s.log.length) → Consumer hc env hH query after0 d s.log [] after0
  | between {d log got m d' s'} : Consumer hc env hH query after0 d log got m → Happens c env d d' → (pageLawful hc hH).RepD d' s' →
      Consumer hc env hH query after0 d' s'.log got m
  | read {d log got m d' log'} {ans : List SeqEvent × Option Nat} (limit : Option Nat) : Consumer hc env hH query after0 d log got m →
      log.length < u64Max → Replied hc env hH query (from_ m) limit d log d' log' ans →
      Consumer hc env hH query after0 d' log' (got ++ ans.1) (ans.2.or m)
  | session {d log got m cs log' p quiet r} (batchSize : Option Nat) (v : Nat) : Consumer hc env hH query after0 d log got m →
      log.length < u64Max → Server.History (pageLawful hc hH) log false cs log' p quiet →
      r <+: (runWorld (pageBackend c) env query (batchSizeOf batchSize) (subscribeCall d m v) cs).delivered →
      Consumer hc env hH query after0
        (runWorld (pageBackend c) env query (batchSizeOf batchSize) (subscribeCall d m v) cs).db log' (got ++ r) (resumeAt m r)

theorem read_after {log : Log} (q : Query) (hl : log.length < u64Max) {m : Option Nat} (hm : ∀ a ∈ m, a < u64Max) (limit : Option Nat) :
    Spec.read log q (from_ m) false limit = applyLimit limit (matchingAfter log q m) := by
  rw [read_eq_todo]
  exact congrArg _ (todo_after log q hl m hm)

/-- The records, without their positions. -/
theorem sequenced_forget (log : Log) : (sequenced log).map (fun e => (⟨e.event, e.tracking⟩ : Record)) = log := by
  suffices h : ∀ (l : Log) n, ((numberFrom n l).map toSeq).map (fun e => (⟨e.event, e.tracking⟩ : Record)) = l from h log 1
  intro l
  induction l with
  | nil => intro n; rfl
  | cons r l ih => intro n; simp [numberFrom, toSeq]; simpa using ih (n + 1)

theorem matchingAfter_all {log ext : Log} (q : Query) {m : Option Nat} (hm : ∀ a ∈ m, a ≤ log.length) :
    matchingAfter (log ++ ext) q m = matchingAfter log q m ++ matchingAfter (log ++ ext) q (some log.length) := by
  unfold matchingAfter
  rw [sequenced_append, List.filter_append, List.filter_append]
  have h1 : (sequenced log).filter (fun e => (some log.length).all (fun a => decide (a < e.position)) && decide (Matches q e.event)) = [] := by
    refine List.filter_eq_nil_iff.mpr fun e he => ?_
    have := (Server.mem_sequenced he).2
    simp; omega
  rw [h1, List.nil_append]
  refine congrArg _ (List.filter_congr fun e he => ?_)
  have hp : log.length < e.position := by
    obtain ⟨⟨p, r⟩, h, rfl⟩ := List.mem_map.mp he
    have := (mem_numberFrom.mp h).1
    simp only [toSeq]; omega
  cases m with
  | none => simp [hp]
  | some a =>
    have := hm a rfl
    simp [hp, show a < e.position by omega]

/-- The answer of a reading is the one at its start; with a limit it may be that for a smaller one. -/
theorem Replied.spec {hc : ConfOk c kw} {env : Env} {hH : ∀ t, Codec.NormalizedTo kw (env.H t)} (he : EnvOk env) {query : Option Query}
    {start limit : Option Nat} {d d' : PDb} {s : Spec.Db} {log' : Log} {ans : List SeqEvent × Option Nat} (hd : (pageLawful hc hH).RepD d s)
    (h : Replied hc env hH query start limit d s.log d' log' ans) :
    (∃ l, l.isSome = limit.isSome ∧ ans = answer s.log (query.getD ⟨[]⟩) start false l) ∧ s.log <+: log' ∧
      (s.log.length < u64Max → log'.length < u64Max) ∧ ∃ s', (pageLawful hc hH).RepD d' s' ∧ s'.log = log' := by
  cases h with
  | embedded h =>
    refine ⟨⟨limit, rfl, ?_⟩, List.prefix_refl _, id, s, hd, rfl⟩
    rw [C78_local he (pageLawful hc hH) hd] at h
    exact (Except.ok.inj h).symm
  | @remote dbs ans R batchSize gone cs fuel turns k h0 hf ht hcut h =>
    refine ⟨?_, R.grow k, fun _ => R.small k, R.ss k, R.rep k, rfl⟩
    cases limit with
    | none =>
      obtain ⟨h1, h2⟩ := hcut rfl
      obtain rfl : gone = fun _ => false := funext h1
      obtain rfl : cs = fun _ => Cancel.never := funext h2
      obtain ⟨a, rfl, -, h3⟩ := C78_remote_partial he (pageLawful hc hH) R query start false none batchSize fuel turns hf ht
      have := h3 _ rfl
      refine ⟨none, rfl, ?_⟩
      rcases h with h | h
      · rw [this.1] at h; exact (Except.ok.inj (Option.some.inj h)).symm
      · rw [this.2] at h; exact (Except.ok.inj (Option.some.inj h)).symm
    | some n =>
      obtain ⟨j, -, h3⟩ := C78_limited he (pageLawful hc hH) R query start false n batchSize gone cs fuel turns ht
      have := h3 _ rfl
      refine ⟨some j, rfl, ?_⟩
      rcases h with h | h
      · rw [this.1] at h; exact (Except.ok.inj (Option.some.inj h)).symm
      · rw [this.2] at h; exact (Except.ok.inj (Option.some.inj h)).symm

theorem resumeAt_reached {log : Log} {q : Query} {m : Option Nat} {got : List SeqEvent} (hm : ∀ a ∈ m, a ≤ log.length)
    (h : got <+: matchingAfter log q m) : ∀ a ∈ resumeAt m got, a ≤ log.length := by
  unfold resumeAt
  cases hg : got.getLast? with
  | none => exact hm
  | some e =>
    rintro a ha'
    cases ha'
    exact (Server.mem_sequenced (List.mem_filter.mp (h.subset (List.mem_of_getLast? hg))).1).2

variable {hc : ConfOk c kw} {env : Env} {hH : ∀ t, Codec.NormalizedTo kw (env.H t)} {query : Option Query} {after0 : Option Nat}

theorem Consumer.inv (he : EnvOk env) {d : PDb} {log : Log} {got : List SeqEvent} {m : Option Nat}
    (h : Consumer hc env hH query after0 d log got m) :
    (∃ s, (pageLawful hc hH).RepD d s ∧ s.log = log) ∧ (∀ a ∈ m, a ≤ log.length) ∧
      ∀ log', log <+: log' → log'.length < u64Max →
        matchingAfter log' (query.getD ⟨[]⟩) after0 = got ++ matchingAfter log' (query.getD ⟨[]⟩) m := by
  induction h with
  | start h ha => exact ⟨⟨_, h, rfl⟩, ha, fun _ _ _ => rfl⟩
  | @between d log got m d' s' _ h1 h2 ih =>
    obtain ⟨⟨s, k1, rfl⟩, k2, k3⟩ := ih
    obtain ⟨s1, k4, k5⟩ := happens_grown he hc hH h1 k1
    have hlog : sequenced s1.log <+: sequenced s'.log := ((shows he hc hH k4).later (shows he hc hH h2)).1
    have hp : s.log <+: s'.log := k5.1.trans (by
      rw [← sequenced_forget s1.log, ← sequenced_forget s'.log]
      exact hlog.map _)
    exact ⟨⟨s', h2, rfl⟩, fun a ha => (k2 a ha).trans hp.length_le, fun log' h3 h4 => k3 log' (hp.trans h3) h4⟩
  | @read d log got m d' log' ans limit _ hlen hr ih =>
    obtain ⟨⟨s, k1, rfl⟩, k2, k3⟩ := ih
    obtain ⟨⟨l, hl, rfl⟩, h2, h3, h4⟩ := hr.spec he k1
    have hm : ∀ a ∈ m, a < u64Max := fun a ha => Nat.lt_of_le_of_lt (k2 a ha) hlen
    have hread := read_after (query.getD ⟨[]⟩) hlen hm
    refine ⟨h4, ?_⟩
    cases l with
    | none =>
      by_cases hz : s.log = []
      · refine ⟨?_, ?_⟩
        · intro a ha
          have : a ≤ s.log.length := k2 a (by simpa [answer, hz] using ha)
          exact this.trans h2.length_le
        · intro log'' hg hs
          rw [k3 log'' (h2.trans hg) hs]
          simp [answer, hz, Spec.read, sequenced, numberFrom, applyLimit]
      · refine ⟨?_, ?_⟩
        · intro a ha
          simp [answer, hz] at ha
          subst ha
          exact h2.length_le
        · intro log'' hg hs
          rw [k3 log'' (h2.trans hg) hs]
          obtain ⟨ext, rfl⟩ := h2.trans hg
          simp only [answer, hread, hz, Option.isSome_none, Bool.false_eq_true, if_false, Option.some_or, applyLimit, List.append_assoc]
          rw [matchingAfter_all _ k2]
    | some n =>
      have e1 : (answer s.log (query.getD ⟨[]⟩) (from_ m) false (some n)).2.or m =
          resumeAt m (answer s.log (query.getD ⟨[]⟩) (from_ m) false (some n)).1 := by
        simp only [answer, resumeAt, Option.isSome_some, if_true]
        cases (Spec.read s.log (query.getD ⟨[]⟩) (from_ m) false (some n)).getLast? <;> rfl
      have e2 : (answer s.log (query.getD ⟨[]⟩) (from_ m) false (some n)).1 <+: matchingAfter s.log (query.getD ⟨[]⟩) m := by
        simp only [answer, hread, applyLimit]
        exact List.take_prefix _ _
      rw [e1]
      refine ⟨fun a ha => (resumeAt_reached k2 e2 a ha).trans h2.length_le, fun log'' hg hs => ?_⟩
      rw [k3 log'' (h2.trans hg) hs, List.append_assoc]
      exact congrArg _ (matchingAfter_split hs hm (e2.trans (matchingAfter_grow (h2.trans hg) _ _)))
  | @session d log got m cs log' p quiet r batchSize v _ hlen hh hr ih =>
    obtain ⟨⟨s, k1, rfl⟩, k2, k3⟩ := ih
    have hm : ∀ a ∈ m, a < u64Max := fun a ha => Nat.lt_of_le_of_lt (k2 a ha) hlen
    have k4 := hr.trans (C34_subscription_prefix he (pageLawful hc hH) query batchSize k1 hlen _ (fun a h => Nat.le_of_lt (hm a h)) v hh)
    refine ⟨session_rep hh query _ (subscribeCall_db _ _ _).2 ⟨s, by rw [(subscribeCall_db _ _ _).1]; exact k1, rfl⟩, ?_, ?_⟩
    · exact resumeAt_reached (fun a ha => (k2 a ha).trans (history_grows hh).length_le) k4
    · intro log'' hg hs
      rw [k3 log'' ((history_grows hh).trans hg) hs, List.append_assoc]
      exact congrArg _ (matchingAfter_split hs hm (k4.trans (matchingAfter_grow hg _ _)))

/-- C83, what holds: whatever a program reads and subscribes to, going on each time after the head or the event it has been told, what it has
received altogether is a beginning of the list of matching committed events after `after0`, oldest first: nothing twice, nothing left out. -/
theorem C83_received_partial (he : EnvOk env) {d : PDb} {log : Log} {got : List SeqEvent} {m : Option Nat}
    (h : Consumer hc env hH query after0 d log got m) (hlen : log.length < u64Max) :
    ReadsAll (pageBackend c) env d (sequenced log) ∧ got <+: matchingAfter log (query.getD ⟨[]⟩) after0 := by
  obtain ⟨⟨s, h1, h2⟩, -, h3⟩ := h.inv he
  exact ⟨h2 ▸ readsAll he (pageLawful hc hH) h1, h3 log (List.prefix_refl _) hlen ▸ List.prefix_append _ _⟩

/-- C83.  After a reading without limit it has all that was recorded when the reading began. -/
theorem C83_read_partial (he : EnvOk env) {d d' : PDb} {log log' : Log} {got : List SeqEvent} {m : Option Nat} {ans : List SeqEvent × Option Nat}
    (h : Consumer hc env hH query after0 d log got m) (hlen : log.length < u64Max) (hr : Replied hc env hH query (from_ m) none d log d' log' ans) :
    got ++ ans.1 = matchingAfter log (query.getD ⟨[]⟩) after0 := by
  obtain ⟨⟨s, h1, rfl⟩, h2, h3⟩ := h.inv he
  obtain ⟨⟨l, hl, rfl⟩, -⟩ := hr.spec he h1
  cases l with
  | some n => cases hl
  | none =>
    rw [h3 _ (List.prefix_refl _) hlen]
    simp only [answer, read_after _ hlen (fun a ha => Nat.lt_of_le_of_lt (h2 a ha) hlen), applyLimit]

/-- C83.  When the last subscription has nothing more to send, it has received all of them. -/
theorem C83_complete_partial (he : EnvOk env) {d : PDb} {log : Log} {got : List SeqEvent} {m : Option Nat}
    (h : Consumer hc env hH query after0 d log got m) (hlen : log.length < u64Max) (batchSize : Option Nat) (v : Nat) {cs : List (Choice PDb)}
    {log' : Log} (hh : Server.History (pageLawful hc hH) log false cs log' false true)
    (hblocked : subStep (pageBackend c) env query (batchSizeOf batchSize) Cancel.never
      (runWorld (pageBackend c) env query (batchSizeOf batchSize) (subscribeCall d m v) cs) = none) :
    got ++ (runWorld (pageBackend c) env query (batchSizeOf batchSize) (subscribeCall d m v) cs).delivered =
      matchingAfter log' (query.getD ⟨[]⟩) after0 := by
  obtain ⟨⟨s, h1, rfl⟩, h2, h3⟩ := h.inv he
  rw [C35_no_lost_wakeup he (pageLawful hc hH) query batchSize h1 hlen _ (fun a ha => Nat.lt_of_le_of_lt (h2 a ha) hlen) v hh hblocked]
  exact (h3 _ (history_grows hh) (history_small hh hlen)).symm

/-- C83.  Subscribing after the head alone gives what is recorded from then on and nothing older. -/
theorem C83_from_head {δ σ υ ι : Type} {B : Backend δ σ υ ι} {valid : Record → Prop} (he : EnvOk env) (L : Lawful B env.H valid) {d : δ} {s : Spec.Db}
    (hd : L.RepD d s) (hlen : s.log.length < u64Max) (batchSize : Option Nat) (v : Nat) {cs : List (Choice δ)} {log' : Log} {p quiet : Bool}
    (hh : Server.History L s.log false cs log' p quiet) :
    (runWorld B env query (batchSizeOf batchSize) (subscribeCall d (Db.head B d) v) cs).delivered <+:
      ((sequenced log').drop s.log.length).filter fun e => decide (Matches (query.getD ⟨[]⟩) e.event) := by
  have hhead := C11_head L hd
  have hsm : ∀ a ∈ Db.head B d, a ≤ u64Max := by
    rw [hhead]
    intro a ha
    split at ha <;> simp at ha
    omega
  refine (C34_subscription_prefix he L query batchSize hd hlen _ hsm v hh).trans (?_ : matchingAfter log' (query.getD ⟨[]⟩) (Db.head B d) <+: _)
  obtain ⟨ext, rfl⟩ := history_grows hh
  have hl : (sequenced s.log).length = s.log.length := by rw [← List.length_map, sequenced_forget]
  refine ⟨[], (List.append_nil _).trans ?_⟩
  rw [hhead]
  by_cases hz : s.log = []
  · simp [hz, matchingAfter]
  · rw [if_neg hz]
    unfold matchingAfter
    rw [sequenced_append, List.filter_append, List.drop_left' hl]
    have h1 : (sequenced s.log).filter (fun e => (some s.log.length).all (fun a => decide (a < e.position)) &&
        decide (Matches (query.getD ⟨[]⟩) e.event)) = [] := by
      refine List.filter_eq_nil_iff.mpr fun e he => ?_
      have := (Server.mem_sequenced he).2
      simp; omega
    rw [h1, List.nil_append]
    refine List.filter_congr fun e he => ?_
    obtain ⟨⟨p, r⟩, h, rfl⟩ := List.mem_map.mp he
    have := (mem_numberFrom.mp h).1
    simp [toSeq, show s.log.length < p by omega]

end

/-! ## A reading cut off at shutdown; concrete cases -/

section Examples

/-- C83 does not hold in general.  A reading is cut off at shutdown (`C78_shutdown_false`): the client gets two of three events as a success, and
the head 3.  It subscribes after 3 when the server is up again and is sent nothing; the server waits for new events.  The third event is never
delivered. -/
theorem C83_shutdown_false :
    asyncCollect 9 (wire exCut none) = some (.ok ([⟨1, exEvent "a" ["x", "y"], none⟩, ⟨2, exEvent "b" ["x"], none⟩], some 3)) ∧
    (runWorld (memBackend fun _ => true) exEnv none (batchSizeOf none) (subscribeCall exDb (some 3) 0) exTurn).delivered = [] ∧
    subStep (memBackend fun _ => true) exEnv none (batchSizeOf none) Cancel.never
      (runWorld (memBackend fun _ => true) exEnv none (batchSizeOf none) (subscribeCall exDb (some 3) 0) exTurn) = none ∧
    (matchingAfter exLog ⟨[]⟩ none).map (·.position) = [1, 2, 3] := by
  rw [exCut_eq]
  decide +kernel

/-- A position that has not been reached must not be given up for the head: a reading after 5 in a log of three events tells the head 3, and after
it the fourth event comes, which nobody asked for. -/
example : (answer exLog ⟨[]⟩ (from_ (some 5)) false none) = ([], some 3) ∧
    (matchingAfter (exLog ++ exLog) ⟨[]⟩ (some 3)).map (·.position) = [4, 5, 6] ∧
    (matchingAfter (exLog ++ exLog) ⟨[]⟩ (some 5)).map (·.position) = [6] := by
  decide +kernel

/-- Two events are recorded.  The program reads one of them with a limit, the server crashes and is started again, the program reads the rest,
and subscribes; the subscription sends nothing and waits. -/
example : ∃ (d : PDb) (got : List SeqEvent), Consumer exConf_ok exConstEnv exConstEnv_width none none d exAfter.log got (some 2) ∧
    got = sequenced exAfter.log ∧ got.length = 2 := by
  obtain ⟨d0, dA, -, -, h3, h4⟩ := exBegun
  have he : EnvOk exConstEnv := ⟨fun l => List.Perm.refl l⟩
  have hlen : exAfter.log.length < u64Max := by decide +kernel
  have hc : ∀ j, Cancel.never j = false := fun _ => rfl
  have s0 := Consumer.start (env := exConstEnv) (query := none) (after0 := none) h3 (by simp)
  have s1 := Consumer.read (some 1) s0 hlen (.embedded (C78_local he (pageLawful exConf_ok exConstEnv_width) h3 none (from_ none) false (some 1)))
  have e1 : (answer exAfter.log ⟨[]⟩ (from_ none) false (some 1)) = ((sequenced exAfter.log).take 1, some 1) := by decide +kernel
  obtain ⟨_, _, _, _, _, _, _, _, _, S⟩ := id h3
  have hf : Crash exConf dA dA.file := crash_self S
  obtain ⟨-, dB, h5, -, h6, -⟩ := C20_crash_at_rest he exConf_ok exConstEnv_width h3 h4 hf (kw0 := 8) (by decide)
  have s2 := Consumer.between s1 (.crash (.nothing dA) h4 hf (by decide) h5) h6
  have s3 := Consumer.read none s2 hlen (.embedded (C78_local he (pageLawful exConf_ok exConstEnv_width) h6 none _ false none))
  simp only [Option.getD_none, e1] at s3
  have e2 : (answer exAfter.log ⟨[]⟩ (from_ (some 1)) false none) = ((sequenced exAfter.log).drop 1, some 2) := by decide +kernel
  simp only [Option.some_or, e2] at s3
  have hist : Server.History (pageLawful exConf_ok exConstEnv_width) exAfter.log false exTurn exAfter.log false true :=
    .sub (.sub (.sub .nil hc) hc) hc
  have s4 := Consumer.session (r := []) none 0 s3 hlen hist List.nil_prefix
  exact ⟨_, _, s4, by decide +kernel, by decide +kernel⟩

end Examples

end Uma.Props
