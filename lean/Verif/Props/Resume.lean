import Verif.Props.Stream
import Verif.Props.Recency
import Verif.Props.Share
import Verif.Props.Check

/-!
# C77: subscribing again

A subscription ends with the connection or with the server; the client subscribes again after the last event it has received.
-/

namespace Uma.Props
open Uma.Spec Uma.Db Uma.Page Uma.Codec Uma.Server

/-- Where to go on: after the last event received, at first after `after0`. -/
def resumeAt (after0 : Option Nat) (got : List SeqEvent) : Option Nat :=
  match got.getLast? with
  | none => after0
  | some e => some e.position

section
variable {c : Conf} {kw : Nat}

open Classical in
/-- A client that subscribes, is cut off, and subscribes again: it has received `got`, the database is `d` with the events `log`.
In a session any part of what the server sends reaches the client (`r`), the writer commits at the same time.  Between sessions anything happens:
appends, crashes, restarts. -/
inductive Subscriber (hc : ConfOk c kw) (env : Env) (hH : ∀ t, Codec.NormalizedTo kw (env.H t)) (query : Option Query) (after0 : Option Nat) :
    PDb → Log → List SeqEvent → Prop
  | start {d s} : (pageLawful hc hH).RepD d s → Subscriber hc env hH query after0 d s.log []
  | between {d log got d' s'} : Subscriber hc env hH query after0 d log got → Happens c env d d' → (pageLawful hc hH).RepD d' s' →
      Subscriber hc env hH query after0 d' s'.log got
  | session {d log got cs log' p quiet r} (batchSize : Option Nat) (v : Nat) : Subscriber hc env hH query after0 d log got →
      log.length < u64Max → Server.History (pageLawful hc hH) log false cs log' p quiet →
      r <+: (runWorld (pageBackend c) env query (batchSizeOf batchSize) (subscribeCall d (resumeAt after0 got) v) cs).delivered →
      Subscriber hc env hH query after0
        (runWorld (pageBackend c) env query (batchSizeOf batchSize) (subscribeCall d (resumeAt after0 got) v) cs).db log' (got ++ r)

/-- What has been received and what is still to come make up all. -/
theorem matchingAfter_split {log : Log} {q : Query} {after0 : Option Nat} {got : List SeqEvent} (hl : log.length < u64Max)
    (ha : ∀ a ∈ after0, a < u64Max) (h : got <+: matchingAfter log q after0) :
    matchingAfter log q after0 = got ++ matchingAfter log q (resumeAt after0 got) := by
  unfold resumeAt
  cases hg : got.getLast? with
  | none => rw [List.getLast?_eq_none_iff.mp hg]; rfl
  | some e =>
    obtain ⟨pre, hpre⟩ := List.getLast?_eq_some_iff.mp hg
    obtain ⟨t, ht⟩ := h
    have h1 : todo log q false (after0.map fun a => min (a + 1) u64Max) = pre ++ e :: t := by
      rw [todo_after log q hl after0 ha]
      show matchingAfter log q after0 = _
      rw [← ht, hpre]; simp
    have h2 := todo_advance hl h1
    have he : e.position < u64Max := by
      have hm : e ∈ matchingAfter log q after0 := by rw [← ht, hpre]; simp
      have := (Server.mem_sequenced (List.mem_filter.mp hm).1).2
      omega
    have h3 := todo_after log q hl (some e.position) (by rintro a ha; cases ha; exact he)
    have h4 : matchingAfter log q (some e.position) = t := h3.symm.trans h2
    show matchingAfter log q after0 = got ++ matchingAfter log q (some e.position)
    rw [h4, ht]

theorem matchingAfter_grow {log log' : Log} (h : log <+: log') (q : Query) (after : Option Nat) :
    matchingAfter log q after <+: matchingAfter log' q after := by
  obtain ⟨l, rfl⟩ := h
  unfold matchingAfter
  rw [sequenced_append, List.filter_append]
  exact List.prefix_append _ _

theorem resumeAt_small {log : Log} {q : Query} {after0 : Option Nat} {got : List SeqEvent} (hl : log.length < u64Max)
    (ha : ∀ a ∈ after0, a < u64Max) (h : got <+: matchingAfter log q after0) : ∀ a ∈ resumeAt after0 got, a < u64Max := by
  unfold resumeAt
  cases hg : got.getLast? with
  | none => exact ha
  | some e =>
    rintro a ha'
    cases ha'
    have := (Server.mem_sequenced (List.mem_filter.mp (h.subset (List.mem_of_getLast? hg))).1).2
    omega

theorem history_grows {δ σ υ ι : Type} {B : Backend δ σ υ ι} {valid : Record → Prop} {H : String → TagHash} {L : Lawful B H valid} {log log' : Log}
    {p p' quiet : Bool} {cs : List (Choice δ)} (h : Server.History L log p cs log' p' quiet) : log <+: log' := by
  induction h with
  | nil => exact List.prefix_refl _
  | commit _ h1 _ _ ih => exact h1.trans ih
  | announce _ ih => exact ih
  | sub _ _ ih => exact ih
  | subCancel _ ih => exact ih

theorem history_small {δ σ υ ι : Type} {B : Backend δ σ υ ι} {valid : Record → Prop} {H : String → TagHash} {L : Lawful B H valid} {log log' : Log}
    {p p' quiet : Bool} {cs : List (Choice δ)} (h : Server.History L log p cs log' p' quiet) : log.length < u64Max → log'.length < u64Max := by
  induction h with
  | nil => exact id
  | commit _ _ h3 _ ih => exact fun _ => ih h3
  | announce _ ih => exact ih
  | sub _ _ ih => exact ih
  | subCancel _ ih => exact ih

theorem subStep_keeps {δ σ υ ι : Type} {B : Backend δ σ υ ι} {env : Env} (query : Option Query) (batch : Nat) (c : Cancel) (w : Server.World δ) :
    (worldStep B env query batch w (.sub c)).db = w.db ∧ (worldStep B env query batch w (.sub c)).pending = w.pending := by
  unfold worldStep subStep
  dsimp only
  (repeat' split) <;> simp

/-- After a session the database holds what it should. -/
theorem session_rep {δ σ υ ι : Type} {B : Backend δ σ υ ι} {valid : Record → Prop} {env : Env} {L : Lawful B env.H valid} {log log' : Log}
    {p' quiet : Bool} {cs : List (Choice δ)} {p : Bool} (h : Server.History L log p cs log' p' quiet) (query : Option Query) (batch : Nat) :
    ∀ {w : Server.World δ}, w.pending = p → (∃ s, L.RepD w.db s ∧ s.log = log) →
      ∃ s, L.RepD (runWorld B env query batch w cs).db s ∧ s.log = log' := by
  induction h with
  | nil => intro w _ hs; exact hs
  | @commit log d s' cs log' p' qt h1 h2 h3 _ ih =>
    intro w hp hs
    refine ih (w := worldStep B env query batch w (.commit d)) ?_ ⟨s', ?_, rfl⟩ <;> simp [worldStep, hp, h1]
  | @announce log cs log' p' qt _ ih =>
    intro w hp hs
    refine ih (w := worldStep B env query batch w .announce) ?_ ?_ <;> simp [worldStep, hp, hs]
  | @sub log p c cs log' p' qt _ _ ih =>
    intro w hp hs
    have := subStep_keeps (B := B) (env := env) query batch c w
    exact ih (w := worldStep B env query batch w (.sub c)) (by rw [this.2, hp]) (by rw [this.1]; exact hs)
  | @subCancel log p c cs log' p' qt _ ih =>
    intro w hp hs
    have := subStep_keeps (B := B) (env := env) query batch c w
    exact ih (w := worldStep B env query batch w (.sub c)) (by rw [this.2, hp]) (by rw [this.1]; exact hs)

theorem subscribeCall_db {δ : Type} (d : δ) (after : Option Nat) (v : Nat) : (subscribeCall d after v).db = d ∧ (subscribeCall d after v).pending = false := by
  unfold subscribeCall
  split <;> exact ⟨rfl, rfl⟩

variable {hc : ConfOk c kw} {env : Env} {hH : ∀ t, Codec.NormalizedTo kw (env.H t)} {query : Option Query} {after0 : Option Nat}

theorem Subscriber.inv (he : EnvOk env) (ha : ∀ a ∈ after0, a < u64Max) {d : PDb} {log : Log} {got : List SeqEvent}
    (h : Subscriber hc env hH query after0 d log got) :
    (∃ s, (pageLawful hc hH).RepD d s ∧ s.log = log) ∧ got <+: matchingAfter log (query.getD ⟨[]⟩) after0 := by
  induction h with
  | start h => exact ⟨⟨_, h, rfl⟩, List.nil_prefix⟩
  | @between d log got d' s' _ h1 h2 ih =>
    obtain ⟨⟨s, k1, rfl⟩, k2⟩ := ih
    obtain ⟨s1, k3, k4⟩ := happens_grown he hc hH h1 k1
    have hlog : sequenced s1.log <+: sequenced s'.log := ((shows he hc hH k3).later (shows he hc hH h2)).1
    exact ⟨⟨s', h2, rfl⟩, (k2.trans (matchingAfter_grow k4.1 _ _)).trans (hlog.filter _)⟩
  | @session d log got cs log' p quiet r batchSize v _ hlen hh hr ih =>
    obtain ⟨⟨s, k1, rfl⟩, k2⟩ := ih
    have k3 := k2.trans (matchingAfter_grow (history_grows hh) _ _)
    have hsmall := resumeAt_small hlen ha k2
    have hmax : ∀ a ∈ resumeAt after0 got, a ≤ u64Max := fun a h => Nat.le_of_lt (hsmall a h)
    have k4 := hr.trans (C34_subscription_prefix he (pageLawful hc hH) query batchSize k1 hlen _ hmax v hh)
    refine ⟨session_rep hh query _ (subscribeCall_db _ _ _).2 ⟨s, by rw [(subscribeCall_db _ _ _).1]; exact k1, rfl⟩, ?_⟩
    have hlen' : log'.length < u64Max := history_small hh hlen
    rw [matchingAfter_split hlen' ha k3]
    exact (List.prefix_append_right_inj _).mpr k4

/-- C77.  However often the client is cut off and subscribes again, what it has received altogether is a beginning of the list of matching
committed events after `after0`, oldest first: nothing twice, nothing left out, in order. -/
theorem C77_resumed (he : EnvOk env) (ha : ∀ a ∈ after0, a < u64Max) {d : PDb} {log : Log} {got : List SeqEvent}
    (h : Subscriber hc env hH query after0 d log got) :
    ReadsAll (pageBackend c) env d (sequenced log) ∧ got <+: matchingAfter log (query.getD ⟨[]⟩) after0 := by
  obtain ⟨⟨s, h1, h2⟩, h3⟩ := h.inv he ha
  exact ⟨h2 ▸ readsAll he (pageLawful hc hH) h1, h3⟩

/-- C77.  If the client keeps its last connection until the server has nothing more to send, it has received all of them. -/
theorem C77_complete (he : EnvOk env) (ha : ∀ a ∈ after0, a < u64Max) {d : PDb} {log : Log} {got : List SeqEvent}
    (h : Subscriber hc env hH query after0 d log got) (hlen : log.length < u64Max) (batchSize : Option Nat) (v : Nat) {cs : List (Choice PDb)}
    {log' : Log} (hh : Server.History (pageLawful hc hH) log false cs log' false true)
    (hblocked : subStep (pageBackend c) env query (batchSizeOf batchSize) Cancel.never
      (runWorld (pageBackend c) env query (batchSizeOf batchSize) (subscribeCall d (resumeAt after0 got) v) cs) = none) :
    got ++ (runWorld (pageBackend c) env query (batchSizeOf batchSize) (subscribeCall d (resumeAt after0 got) v) cs).delivered =
      matchingAfter log' (query.getD ⟨[]⟩) after0 := by
  obtain ⟨⟨s, h1, rfl⟩, h3⟩ := h.inv he ha
  rw [C35_no_lost_wakeup he (pageLawful hc hH) query batchSize h1 hlen _ (resumeAt_small hlen ha h3) v hh hblocked]
  have hlen' : log'.length < u64Max := history_small hh hlen
  exact (matchingAfter_split hlen' ha (h3.trans (matchingAfter_grow (history_grows hh) _ _))).symm

/-- The first event a subscription after `m` delivers is the next one after `m` of the source, also in view of everything that comes later: the
step that C76 asks of workers. -/
theorem C77_next {log log' : Log} {q : Query} {m : Option Nat} {e : SeqEvent} {l : List SeqEvent} (h : e :: l <+: matchingAfter log q m)
    (hg : log <+: log') : (matchingAfter log' q m).head?.map (·.position) = some e.position := by
  obtain ⟨t, ht⟩ := h.trans (matchingAfter_grow hg q m)
  rw [← ht]
  rfl

end

/-! ## Concrete cases -/

section Examples

/-- Three steps of the subscriber: clear the notification, read, send. -/
def exTurn {δ : Type} : List (Choice δ) := [.sub Cancel.never, .sub Cancel.never, .sub Cancel.never]

theorem exTurn_sends {δ σ υ ι : Type} {B : Backend δ σ υ ι} {valid : Record → Prop} {env : Env} (he : EnvOk env) (L : Lawful B env.H valid) {d : δ}
    {s : Spec.Db} (hd : L.RepD d s) (after : Option Nat) (ha : after ≠ some u64Max) (v : Nat) :
    (runWorld B env none (batchSizeOf none) (subscribeCall d after v) exTurn).delivered =
      Spec.read s.log ⟨[]⟩ (after.map fun a => min (a + 1) u64Max) false (some (batchSizeOf none)) := by
  have hr : handlerRead B env d none (after.map fun a => min (a + 1) u64Max) false (some (batchSizeOf none)) Cancel.never =
      .ok (Spec.read s.log ⟨[]⟩ (after.map fun a => min (a + 1) u64Max) false (some (batchSizeOf none)), Spec.head s.log) := by
    rcases handlerRead_spec he L hd none (after.map fun a => min (a + 1) u64Max) false (some (batchSizeOf none)) Cancel.never with h | ⟨-, j, h⟩
    · exact h
    · cases h
  simp only [runWorld, exTurn, List.foldl, subscribeCall, if_neg ha, worldStep, subStep, Option.getD_some, hr]
  cases hl : (Spec.read s.log ⟨[]⟩ (after.map fun a => min (a + 1) u64Max) false (some (batchSizeOf none))).getLast? with
  | none => rw [List.getLast?_eq_none_iff.mp hl]; rfl
  | some e => dsimp only; split <;> simp

/-- Two events are recorded.  The first session is cut off after one of them has arrived; the server crashes and is started again; the second
session brings the other. -/
example : ∃ (d : PDb) (got : List SeqEvent), Subscriber exConf_ok exConstEnv exConstEnv_width none none d exAfter.log got ∧
    got = sequenced exAfter.log ∧ got.length = 2 := by
  obtain ⟨d0, dA, -, -, h3, h4⟩ := exBegun
  have he : EnvOk exConstEnv := ⟨fun l => List.Perm.refl l⟩
  have hlen : exAfter.log.length < u64Max := by decide +kernel
  have hc : ∀ j, Cancel.never j = false := fun _ => rfl
  have hist : Server.History (pageLawful exConf_ok exConstEnv_width) exAfter.log false exTurn exAfter.log false true :=
    .sub (.sub (.sub .nil hc) hc) hc
  have s0 := Subscriber.start (env := exConstEnv) (query := none) (after0 := none) h3
  have hdb : ∀ (d : PDb) after v, (runWorld (pageBackend exConf) exConstEnv none (batchSizeOf none) (subscribeCall d after v) exTurn).db = d := by
    intro d after v
    simp only [runWorld, exTurn, List.foldl]
    rw [(subStep_keeps _ _ _ _).1, (subStep_keeps _ _ _ _).1, (subStep_keeps _ _ _ _).1, (subscribeCall_db _ _ _).1]
  have e1 := exTurn_sends he (pageLawful exConf_ok exConstEnv_width) h3 none (by simp) 0
  have s1 := Subscriber.session (r := (sequenced exAfter.log).take 1) none 0 s0 hlen hist (by
    show _ <+: (runWorld _ _ none _ (subscribeCall dA none 0) exTurn).delivered
    rw [e1]
    exact ⟨(sequenced exAfter.log).drop 1, by decide +kernel⟩)
  rw [hdb] at s1
  obtain ⟨_, _, _, _, _, _, _, _, _, S⟩ := id h3
  have hf : Crash exConf dA dA.file := crash_self S
  obtain ⟨-, dB, h5, -, h6, -⟩ := C20_crash_at_rest he exConf_ok exConstEnv_width h3 h4 hf (kw0 := 8) (by decide)
  have s2 := Subscriber.between s1 (.crash (.nothing dA) h4 hf (by decide) h5) h6
  have hres : resumeAt none ((sequenced exAfter.log).take 1) = some 1 := by decide +kernel
  have e2 := exTurn_sends he (pageLawful exConf_ok exConstEnv_width) h6 (some 1) (by decide +kernel) 0
  have s3 := Subscriber.session (r := (sequenced exAfter.log).drop 1) none 0 s2 hlen hist (by
    rw [List.nil_append, hres, e2]
    exact ⟨[], by decide +kernel⟩)
  exact ⟨_, _, s3, by decide +kernel, by decide +kernel⟩

end Examples

end Uma.Props
