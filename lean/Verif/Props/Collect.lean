import Verif.Net.Collect
import Verif.Props.Net

/-!
# C78: read_with_head, embedded and over the network

The answer of a read together with the head is what a program decides on (C75).
-/

namespace Uma.Props
open Uma.Spec Uma.Db Uma.Server Uma.Net

/-- The answer to a read: the events, and the position to use in a condition: without limit that of the last event recorded, with a limit that
of the last event of the answer. -/
def answer (log : Log) (q : Query) (start : Option Nat) (backwards : Bool) (limit : Option Nat) : List SeqEvent × Option Nat :=
  let events := Spec.read log q start backwards limit
  (events, if limit.isSome then events.getLast?.map (·.position) else if log = [] then none else some log.length)

section
variable {δ σ υ ι : Type} {B : Backend δ σ υ ι} {valid : Record → Prop}

/-- The head told by the last message, if there is one. -/
def lastTold (lh : Option (Option Nat)) (rs : List Response) : Option (Option Nat) := rs.foldl (fun _ r => some r.head) lh

theorem lastTold_append (lh : Option (Option Nat)) (rs : List Response) (r : Response) : lastTold lh (rs ++ [r]) = some r.head := by
  simp [lastTold]

/-- What `collect_with_head` makes of messages `rs`, and of a failure after them. -/
def collected (out : List SeqEvent) (lh : Option (Option Nat)) (rs : List Response) (fail : Option Status) :
    Except Err (List SeqEvent × Option Nat) :=
  match fail with
  | some s => .error (errOfStatus s)
  | none => .ok (out ++ rs.flatMap (·.events), (lastTold lh rs).getD none)

theorem asyncHead_ended (lh : Option (Option Nat)) (inc : Incoming) : (asyncHead ⟨inc, [], lh, true⟩).1 = .ok (lh.getD none) := by
  cases lh <;> simp [asyncHead, fetch]

theorem collect_async (fail : Option Status) : ∀ (rs : List Response) (buf : List SeqEvent) (lh : Option (Option Nat)) (out : List SeqEvent) (n : Nat),
    buf.length + (rs.flatMap (·.events)).length < n →
    collectLoop asyncNext asyncHead n ⟨wire rs fail, buf, lh, false⟩ out = some (collected (out ++ buf) lh rs fail) := by
  intro rs
  induction rs with
  | nil =>
    intro buf
    induction buf with
    | nil =>
      intro lh out n hn
      obtain ⟨n, rfl⟩ : ∃ m, n = m + 1 := ⟨n - 1, by omega⟩
      cases fail with
      | some s => simp [collectLoop, asyncNext, wire, pollStream, collected]
      | none =>
        have h := asyncHead_ended lh []
        rcases hh : asyncHead ⟨[], [], lh, true⟩ with ⟨r, a⟩
        rw [hh] at h
        simp only at h
        subst h
        simp [collectLoop, asyncNext, wire, pollStream, collected, hh, lastTold]
    | cons e buf ih =>
      intro lh out n hn
      obtain ⟨n, rfl⟩ : ∃ m, n = m + 1 := ⟨n - 1, by omega⟩
      simp only [collectLoop, asyncNext, Bool.false_eq_true, if_false]
      rw [ih lh (out ++ [e]) n (by simp at hn ⊢; omega)]
      simp
  | cons r rs ih =>
    intro buf
    induction buf with
    | nil =>
      intro lh out n hn
      obtain ⟨n, rfl⟩ : ∃ m, n = m + 1 := ⟨n - 1, by omega⟩
      cases hr : r.events with
      | nil =>
        have hskip : asyncNext ⟨wire (r :: rs) fail, [], lh, false⟩ = asyncNext ⟨wire rs fail, [], some r.head, false⟩ := by
          simp only [asyncNext, Bool.false_eq_true, if_false, wire_cons, pollStream, convert_roundtrip, hr]
        have := ih [] (some r.head) out (n + 1) (by simp [hr] at hn ⊢; omega)
        simp only [collectLoop] at this ⊢
        rw [hskip, this]
        simp [collected, hr, lastTold]
      | cons e buf =>
        have hstep : asyncNext ⟨wire (r :: rs) fail, [], lh, false⟩ = (some (.ok e), ⟨wire rs fail, buf, some r.head, false⟩) := by
          simp only [asyncNext, Bool.false_eq_true, if_false, wire_cons, pollStream, convert_roundtrip, hr]
        simp only [collectLoop]
        rw [hstep]
        simp only
        rw [ih buf (some r.head) (out ++ [e]) n (by simp [hr] at hn ⊢; omega)]
        simp [collected, hr, lastTold]
    | cons e buf ih' =>
      intro lh out n hn
      obtain ⟨n, rfl⟩ : ∃ m, n = m + 1 := ⟨n - 1, by omega⟩
      simp only [collectLoop, asyncNext, Bool.false_eq_true, if_false]
      rw [ih' lh (out ++ [e]) n (by simp at hn ⊢; omega)]
      simp

theorem collect_sync (fail : Option Status) : ∀ (rs : List Response) (buf : List SeqEvent) (lh : Option (Option Nat)) (out : List SeqEvent) (n : Nat),
    Shape fail rs → buf.length + (rs.flatMap (·.events)).length < n →
    collectLoop (syncNext false) syncHead n ⟨false, buf, ⟨wire rs fail, [], lh, false⟩⟩ out = some (collected (out ++ buf) lh rs fail) := by
  intro rs
  induction rs with
  | nil =>
    intro buf
    induction buf with
    | nil =>
      intro lh out n _ hn
      obtain ⟨n, rfl⟩ : ∃ m, n = m + 1 := ⟨n - 1, by omega⟩
      cases fail with
      | some s => simp [collectLoop, syncNext, refill, asyncNextBatch, fetch, wire, collected]
      | none =>
        have h := asyncHead_ended lh []
        rcases hh : asyncHead ⟨[], [], lh, true⟩ with ⟨r, a⟩
        rw [hh] at h
        simp only at h
        subst h
        simp [collectLoop, syncNext, refill, asyncNextBatch, fetch, wire, popFront, syncHead, collected, hh, lastTold]
    | cons e buf ih =>
      intro lh out n hs hn
      obtain ⟨n, rfl⟩ : ∃ m, n = m + 1 := ⟨n - 1, by omega⟩
      have hstep : syncNext false ⟨false, e :: buf, ⟨wire [] fail, [], lh, false⟩⟩ = (some (.ok e), ⟨false, buf, ⟨wire [] fail, [], lh, false⟩⟩) := by
        simp [syncNext, popFront]
      simp only [collectLoop]
      rw [hstep]
      simp only
      rw [ih lh (out ++ [e]) n hs (by simp at hn ⊢; omega)]
      simp
  | cons r rs ih =>
    intro buf
    induction buf with
    | nil =>
      intro lh out n hs hn
      obtain ⟨n, rfl⟩ : ∃ m, n = m + 1 := ⟨n - 1, by omega⟩
      cases hr : r.events with
      | nil =>
        obtain ⟨rfl, rfl⟩ := hs.1 hr
        have hstep : syncNext false ⟨false, [], ⟨wire [r] none, [], lh, false⟩⟩ = (none, ⟨true, [], ⟨wire [] none, [], some r.head, false⟩⟩) := by
          simp [syncNext, refill, asyncNextBatch, fetch, wire_cons, convert_roundtrip, popFront]
          simp [hr]
        simp only [collectLoop]
        rw [hstep]
        simp [syncHead, asyncHead, collected, hr, lastTold]
      | cons e buf =>
        have hstep : syncNext false ⟨false, [], ⟨wire (r :: rs) fail, [], lh, false⟩⟩ =
            (some (.ok e), ⟨false, buf, ⟨wire rs fail, [], some r.head, false⟩⟩) := by
          simp [syncNext, refill, asyncNextBatch, fetch, wire_cons, convert_roundtrip, popFront]
          simp [hr]
        simp only [collectLoop]
        rw [hstep]
        simp only
        rw [ih buf (some r.head) (out ++ [e]) n hs.2 (by simp [hr] at hn ⊢; omega)]
        simp [collected, hr, lastTold]
    | cons e buf ih' =>
      intro lh out n hs hn
      obtain ⟨n, rfl⟩ : ∃ m, n = m + 1 := ⟨n - 1, by omega⟩
      have hstep : syncNext false ⟨false, e :: buf, ⟨wire (r :: rs) fail, [], lh, false⟩⟩ =
          (some (.ok e), ⟨false, buf, ⟨wire (r :: rs) fail, [], lh, false⟩⟩) := by
        simp [syncNext, popFront]
      simp only [collectLoop]
      rw [hstep]
      simp only
      rw [ih' lh (out ++ [e]) n hs (by simp at hn ⊢; omega)]
      simp

/-- Messages of a Read call: one without events is the only one. -/
theorem read_shape (env : Env) (query : Option Query) (start : Option Nat) (backwards : Option Bool) (limit batchSize : Option Nat) (dbs : Nat → δ)
    (gone : Nat → Bool) (cs : Nat → Cancel) (fuel : Nat) :
    (∀ r ∈ oks (readCall B env query start backwards limit batchSize dbs gone cs fuel).1, r.events ≠ []) ∨
    ∃ r, oks (readCall B env query start backwards limit batchSize dbs gone cs fuel).1 = [r] := by
  by_cases hx : ∃ r ∈ oks (readCall B env query start backwards limit batchSize dbs gone cs fuel).1, r.events = []
  · obtain ⟨r, hr, hre⟩ := hx
    right
    have hmem : .ok r ∈ (readCall B env query start backwards limit batchSize dbs gone cs fuel).1 := by
      simp only [oks, List.mem_filterMap] at hr
      obtain ⟨m, hm, hmr⟩ := hr
      cases m with
      | error e => simp at hmr
      | ok r' => simp at hmr; subst hmr; exact hm
    exact ⟨r, by rw [C33_empty_message_alone env query start backwards limit batchSize dbs _ _ fuel r hmem hre]; simp [oks]⟩
  · left; intro r hr hc; exact hx ⟨r, hr, hc⟩

theorem shape_none {rs : List Response} (h : (∀ r ∈ rs, r.events ≠ []) ∨ ∃ r, rs = [r]) : Shape none rs := by
  rcases h with h | ⟨r, rfl⟩
  · induction rs with
    | nil => trivial
    | cons r rs ih => exact ⟨fun hc => absurd hc (h r (by simp)), ih fun r hr => h r (by simp [hr])⟩
  · exact ⟨fun _ => ⟨rfl, rfl⟩, trivial⟩

/-- C78.  If the stream breaks with an error, wherever that is, the call ends with this error; there is no answer. -/
theorem C78_broken (rs : List Response) (s : Status) (turns : Nat) (ht : (rs.flatMap (·.events)).length < turns) :
    asyncCollect turns (wire rs (some s)) = some (.error (errOfStatus s)) ∧
    ((∀ r ∈ rs, r.events ≠ []) → syncCollect turns (wire rs (some s)) = some (.error (errOfStatus s))) := by
  refine ⟨?_, fun h => ?_⟩
  · exact collect_async (some s) rs [] none [] turns (by simpa using ht)
  · refine collect_sync (some s) rs [] none [] turns ?_ (by simpa using ht)
    clear ht
    induction rs with
    | nil => trivial
    | cons r rs ih => exact ⟨fun hc => absurd hc (h r (by simp)), ih fun r hr => h r (by simp [hr])⟩

/-- C78.  What the clients make of the messages of a Read call whose stream ends without error, also if the server has cut it off: the
beginning of the answer that was sent, and the head of the log at the start of the stream, with a limit the position of the last event
received. -/
theorem C78_ended {env : Env} (he : EnvOk env) (L : Lawful B env.H valid) {dbs : Nat → δ} {log0 : Log} (R : Rounds L dbs log0)
    (query : Option Query) (start : Option Nat) (backwards : Bool) (limit batchSize : Option Nat) (gone : Nat → Bool) (cs : Nat → Cancel)
    (fuel turns : Nat) (ht : log0.length < turns) :
    ∃ evs, evs <+: (answer log0 (query.getD ⟨[]⟩) start backwards limit).1 ∧
      evs = delivered (readCall B env query start (some backwards) limit batchSize dbs gone cs fuel).1 ∧
      ∀ inc, inc = wire (oks (readCall B env query start (some backwards) limit batchSize dbs gone cs fuel).1) none →
        let h := if limit.isSome then evs.getLast?.map (·.position)
          else if (readCall B env query start (some backwards) limit batchSize dbs gone cs fuel).1 = [] ∨ log0 = [] then none else some log0.length
        asyncCollect turns inc = some (.ok (evs, h)) ∧ syncCollect turns inc = some (.ok (evs, h)) := by
  have hpre := (C33_stream_is_one_read he L R query start (some backwards) limit batchSize gone cs fuel).1
  have hheads := C33_heads he L R query start (some backwards) limit batchSize gone cs fuel
  have hshape := read_shape (B := B) env query start (some backwards) limit batchSize dbs gone cs fuel
  generalize hout : (readCall B env query start (some backwards) limit batchSize dbs gone cs fuel).1 = out at hpre hheads hshape ⊢
  refine ⟨_, hpre, rfl, ?_⟩
  rintro inc rfl h
  have hlen : ((oks out).flatMap (·.events)).length < turns := by
    rw [oks_events]
    refine Nat.lt_of_le_of_lt (Nat.le_trans hpre.length_le ?_) ht
    have h1 : (todo log0 (query.getD ⟨[]⟩) ((some backwards).getD false) start).length ≤ log0.length := todo_length_le _ _ _ _
    rw [read_eq_todo]
    cases limit with
    | none => exact h1
    | some k => exact Nat.le_trans (by simp only [applyLimit, List.length_take]; omega) h1
  have hcol : collected ([] ++ []) none (oks out) none = .ok (delivered out, h) := by
    simp only [collected, List.append_nil, List.nil_append, oks_events]
    congr 2
    rcases List.eq_nil_or_concat (oks out) with hn | ⟨rs, r, hr⟩
    · have hnil : out = [] := by
        cases out with
        | nil => rfl
        | cons m out =>
          obtain ⟨r, rfl, -⟩ := hheads m (by simp)
          simp [oks] at hn
      subst hnil
      simp [oks, lastTold, h, delivered]
    · rw [List.concat_eq_append] at hr
      have hm : .ok r ∈ out := by
        have : r ∈ oks out := by rw [hr]; simp
        simp only [oks, List.mem_filterMap] at this
        obtain ⟨m, hm, hmr⟩ := this
        cases m with
        | error e => simp at hmr
        | ok r' => simp at hmr; subst hmr; exact hm
      obtain ⟨r', hr', hh⟩ := hheads _ hm
      cases hr'
      have hne : out ≠ [] := List.ne_nil_of_mem hm
      rw [hr, lastTold_append]
      simp only [Option.getD_some, hh, h]
      cases limit with
      | none => simp [hne]
      | some k =>
        simp only [Option.isSome_some, if_true]
        rw [← oks_events, hr]
        rcases hshape with hs | ⟨r0, hs⟩
        · have : r.events ≠ [] := hs r (by rw [hr]; simp)
          simp only [List.flatMap_append, List.flatMap_cons, List.flatMap_nil, List.append_nil]
          rw [List.getLast?_append, List.getLast?_eq_some_getLast this]
          rfl
        · have : rs = [] := by
            have := congrArg List.length (hr.symm.trans hs)
            simpa using this
          subst this
          simp
  refine ⟨?_, ?_⟩
  · exact (collect_async none (oks out) [] none [] turns (by simpa using hlen)).trans (congrArg some hcol)
  · exact (collect_sync none (oks out) [] none [] turns (shape_none hshape) (by simpa using hlen)).trans (congrArg some hcol)

/-- The embedded database gives the answer. -/
theorem C78_local {env : Env} (he : EnvOk env) (L : Lawful B env.H valid) {d : δ} {s : Spec.Db} (hd : L.RepD d s) (query : Option Query)
    (start : Option Nat) (backwards : Bool) (limit : Option Nat) :
    localReadWithHead B env d query start backwards limit = .ok (answer s.log (query.getD ⟨[]⟩) start backwards limit) := by
  unfold localReadWithHead Db.read
  rcases readConditional_correct env.H env.ord he.ord _ _ (L.snapR hd) (query.getD ⟨[]⟩) start backwards limit false Cancel.never with h | ⟨-, j, h⟩
  · rw [h]
    simp only [LocalResp.collect, answer, L.nextPosR hd]
    cases limit with
    | none => cases hl : s.log <;> simp [headOfNext]
    | some k => rfl
  · cases h

/-- One call on the embedded response. -/
def localOp (r : LocalResp) : Op → Out × LocalResp
  | .next | .nextTimeout _ => let (x, r') := r.next; (.item x, r')
  | .nextBatch | .nextBatchTimeout _ => let (x, r') := r.nextBatch; (.batch x, r')
  | .head => let (x, r') := r.getHead; (.head x, r')

/-- C78.  The embedded response hands out the events in order, none lost or repeated, whatever the calls; once it has told the end all have been
handed out; every `head` answers the head. -/
theorem C78_local_iterate (evs : List SeqEvent) (h : Option Nat) (ops : List Op) :
    ∃ rest, evs.map .ok = (runOps localOp ⟨evs, h⟩ ops).1.flatMap got ++ rest.map .ok ∧
      (runOps localOp ⟨evs, h⟩ ops).2.collect.1 = .ok (rest, h) ∧
      ((∃ o ∈ (runOps localOp ⟨evs, h⟩ ops).1, SaysEnd o) → rest = []) ∧ ∀ x, .head x ∈ (runOps localOp ⟨evs, h⟩ ops).1 → x = .ok h := by
  induction ops generalizing evs with
  | nil => exact ⟨evs, by simp [runOps], rfl, by simp [runOps], by simp [runOps]⟩
  | cons op ops ih =>
    have hnil : ∀ {X : List (Except Err SeqEvent)} {rest : List SeqEvent}, ([] : List SeqEvent).map Except.ok = X ++ rest.map .ok → rest = [] := by
      intro X rest hx
      simpa using (List.append_eq_nil_iff.mp hx.symm).2
    have hitem : ∀ r : Option (Except Err SeqEvent) × LocalResp, r = LocalResp.next ⟨evs, h⟩ →
        ∃ rest, evs.map .ok = (Out.item r.1 :: (runOps localOp r.2 ops).1).flatMap got ++ rest.map .ok ∧
          (runOps localOp r.2 ops).2.collect.1 = .ok (rest, h) ∧
          ((∃ o ∈ Out.item r.1 :: (runOps localOp r.2 ops).1, SaysEnd o) → rest = []) ∧
          ∀ x, .head x ∈ Out.item r.1 :: (runOps localOp r.2 ops).1 → x = .ok h := by
      rintro r rfl
      cases evs with
      | nil =>
        obtain ⟨rest, h1, h2, h3, h4⟩ := ih []
        exact ⟨rest, by simpa [LocalResp.next, got] using h1, h2, fun _ => hnil h1, by simpa [LocalResp.next] using h4⟩
      | cons e evs =>
        obtain ⟨rest, h1, h2, h3, h4⟩ := ih evs
        refine ⟨rest, by simpa [LocalResp.next, got] using h1, h2, ?_, by simpa [LocalResp.next] using h4⟩
        rintro ⟨o, ho, hs⟩
        rcases List.mem_cons.mp ho with rfl | ho
        · simp [LocalResp.next, SaysEnd] at hs
        · exact h3 ⟨o, ho, hs⟩
    have hbatch : ∃ rest, evs.map .ok = (Out.batch (.ok evs) :: (runOps localOp ⟨[], h⟩ ops).1).flatMap got ++ rest.map .ok ∧
        (runOps localOp ⟨[], h⟩ ops).2.collect.1 = .ok (rest, h) ∧
        ((∃ o ∈ Out.batch (.ok evs) :: (runOps localOp ⟨[], h⟩ ops).1, SaysEnd o) → rest = []) ∧
        ∀ x, .head x ∈ Out.batch (.ok evs) :: (runOps localOp ⟨[], h⟩ ops).1 → x = .ok h := by
      obtain ⟨rest, h1, h2, h3, h4⟩ := ih []
      obtain rfl := hnil h1
      refine ⟨[], ?_, h2, fun _ => rfl, by simpa using h4⟩
      have h1 : ([] : List (Except Err SeqEvent)) = (runOps localOp ⟨[], h⟩ ops).1.flatMap got := by simpa using h1
      simp only [List.flatMap_cons, got, List.map_nil, List.append_nil, ← h1]
    cases op with
    | next => exact hitem _ rfl
    | nextTimeout _ => exact hitem _ rfl
    | nextBatch => exact hbatch
    | nextBatchTimeout _ => exact hbatch
    | head =>
      obtain ⟨rest, h1, h2, h3, h4⟩ := ih evs
      refine ⟨rest, h1, h2, ?_, ?_⟩
      · rintro ⟨o, ho, hs⟩
        rcases List.mem_cons.mp ho with rfl | ho
        · simp [SaysEnd] at hs
        · exact h3 ⟨o, ho, hs⟩
      · intro x hx
        rcases List.mem_cons.mp hx with hx | hx
        · simpa [LocalResp.getHead] using hx
        · exact h4 x hx

/-- C78, what holds: if the server does not cut the stream off, `read_with_head` gives over the network, with both clients, what it gives on the
database itself at the time when the first part was read, whatever is appended meanwhile. -/
theorem C78_remote_partial {env : Env} (he : EnvOk env) (L : Lawful B env.H valid) {dbs : Nat → δ} {log0 : Log} (R : Rounds L dbs log0)
    (query : Option Query) (start : Option Nat) (backwards : Bool) (limit batchSize : Option Nat) (fuel turns : Nat) (hf : log0.length < fuel)
    (ht : log0.length < turns) :
    ∃ ans, ans = answer log0 (query.getD ⟨[]⟩) start backwards limit ∧
      localReadWithHead B env (dbs 0) query start backwards limit = .ok ans ∧
      ∀ inc, inc = wire (oks (readCall B env query start (some backwards) limit batchSize dbs (fun _ => false) (fun _ => Cancel.never) fuel).1) none →
        asyncCollect turns inc = some (.ok ans) ∧ syncCollect turns inc = some (.ok ans) := by
  refine ⟨_, rfl, ?_, ?_⟩
  · have := C78_local he L (R.rep 0) query start backwards limit
    rwa [R.first] at this
  intro inc hinc
  obtain ⟨evs, -, h2, h3⟩ := C78_ended he L R query start backwards limit batchSize (fun _ => false) (fun _ => Cancel.never) fuel turns ht
  have hall := ((C33_stream_is_one_read he L R query start (some backwards) limit batchSize (fun _ => false)
    (fun _ => Cancel.never) fuel).2 (fun _ => rfl) (fun _ _ => rfl) hf).2
  have hsome := C33_some_message he L R query start (some backwards) limit batchSize (fun _ => false) (fun _ => Cancel.never) fuel
  have h4 := h3 inc hinc
  dsimp only at h4
  rw [hall] at h2
  subst h2
  have hh : answer log0 (query.getD ⟨[]⟩) start backwards limit = (Spec.read log0 (query.getD ⟨[]⟩) start ((some backwards).getD false) limit,
      if limit.isSome then (Spec.read log0 (query.getD ⟨[]⟩) start ((some backwards).getD false) limit).getLast?.map (·.position)
      else if (readCall B env query start (some backwards) limit batchSize dbs (fun _ => false) (fun _ => Cancel.never) fuel).1 = [] ∨ log0 = []
        then none else some log0.length) := by
    cases limit with
    | some k => rfl
    | none =>
      have := hsome (by simp) (fun _ => rfl) (fun _ _ => rfl) hf
      simp [answer, this]
  rw [hh]
  exact h4

/-- C78.  With a limit a stream that was cut off still gives the answer to a read: one with a smaller limit. -/
theorem C78_limited {env : Env} (he : EnvOk env) (L : Lawful B env.H valid) {dbs : Nat → δ} {log0 : Log} (R : Rounds L dbs log0)
    (query : Option Query) (start : Option Nat) (backwards : Bool) (limit : Nat) (batchSize : Option Nat) (gone : Nat → Bool) (cs : Nat → Cancel)
    (fuel turns : Nat) (ht : log0.length < turns) :
    ∃ k, k ≤ limit ∧
      ∀ inc, inc = wire (oks (readCall B env query start (some backwards) (some limit) batchSize dbs gone cs fuel).1) none →
        asyncCollect turns inc = some (.ok (answer log0 (query.getD ⟨[]⟩) start backwards (some k))) ∧
        syncCollect turns inc = some (.ok (answer log0 (query.getD ⟨[]⟩) start backwards (some k))) := by
  obtain ⟨evs, h1, -, h3⟩ := C78_ended he L R query start backwards (some limit) batchSize gone cs fuel turns ht
  have hk : evs.length ≤ limit ∧ evs = Spec.read log0 (query.getD ⟨[]⟩) start backwards (some evs.length) := by
    simp only [answer, read_eq_todo, applyLimit] at h1 ⊢
    refine ⟨Nat.le_trans h1.length_le (by simp; omega), ?_⟩
    exact List.prefix_iff_eq_take.mp (h1.trans (List.take_prefix _ _))
  refine ⟨evs.length, hk.1, fun inc hinc => ?_⟩
  have h4 := h3 inc hinc
  dsimp only at h4
  have ha : answer log0 (query.getD ⟨[]⟩) start backwards (some evs.length) = (evs, evs.getLast?.map (·.position)) := by
    simp only [answer, ← hk.2]
    rfl
  rw [ha]
  exact h4

/-! ## A stream cut off at shutdown -/

section Examples

/-- Two rounds with one event each, then the server is told to stop. -/
def exCut : List Response :=
  oks (readCall (memBackend fun _ => true) exEnv none none (some false) none (some 1) (fun _ => exDb) (fun k => decide (2 ≤ k)) (fun _ => Cancel.never) 9).1

theorem exCut_eq : exCut = [⟨[⟨1, exEvent "a" ["x", "y"], none⟩], some 3⟩, ⟨[⟨2, exEvent "b" ["x"], none⟩], some 3⟩] := by decide +kernel

/-- C78 does not hold in general.  At shutdown the task of a Read call stops sending and the stream ends as if it were complete (server 502-505,
546-550).  The client gets two of the three events as a success, with the position of the third; and when the server is up again, an append
with this position in its condition is accepted although an event it did not get matches. -/
theorem C78_shutdown_false :
    asyncCollect 9 (wire exCut none) = some (.ok ([⟨1, exEvent "a" ["x", "y"], none⟩, ⟨2, exEvent "b" ["x"], none⟩], some 3)) ∧
    syncCollect 9 (wire exCut none) = some (.ok ([⟨1, exEvent "a" ["x", "y"], none⟩, ⟨2, exEvent "b" ["x"], none⟩], some 3)) ∧
    localReadWithHead (memBackend fun _ => true) exEnv exDb none none false none =
      .ok ([⟨1, exEvent "a" ["x", "y"], none⟩, ⟨2, exEvent "b" ["x"], none⟩, ⟨3, exEvent "a" ["y", "x"], none⟩], some 3) ∧
    (Db.append (memBackend fun _ => true) exEnv ⟨[exEvent "c" []], some ⟨⟨[]⟩, some 3⟩, none⟩ .good exDb).1 = .ok 4 := by
  rw [exCut_eq]
  decide +kernel

/-- Asked for the head before the events have been taken, a response with a limit tells the position of the last event of the first message; the
embedded database tells that of the last event of the answer. -/
theorem C78_early_head_false :
    let rs := oks (readCall (memBackend fun _ => true) exEnv none none (some false) (some 3) (some 1) (fun _ => exDb) (fun _ => false)
      (fun _ => Cancel.never) 9).1
    (asyncHead (AsyncResp.new (wire rs none))).1 = .ok (some 1) ∧ (syncHead (SyncResp.new (wire rs none))).1 = .ok (some 1) ∧
    localReadWithHead (memBackend fun _ => true) exEnv exDb none none false (some 3) = .ok (sequenced exLog, some 3) := by
  decide +kernel

/-- An event arrives while the stream is being read (batch size 1): the answer is that at the start. -/
example : ∀ inc, inc = wire (oks (readCall (memBackend fun _ => true) exEnv none none (some false) none (some 1) exGrow (fun _ => false)
      (fun _ => Cancel.never) 9).1) none →
    syncCollect 9 inc = some (.ok ([⟨1, exEvent "a" ["x", "y"], none⟩, ⟨2, exEvent "b" ["x"], none⟩], some 2)) := by
  intro inc hinc
  obtain ⟨ans, rfl, -, h⟩ := C78_remote_partial ⟨fun l => List.Perm.refl l⟩ (memLawful exEnv.H (fun _ => true)) exRounds none none false none (some 1) 9 9
    (by decide) (by decide)
  rw [(h inc hinc).2]
  decide +kernel

/-- Two messages arrive, then the connection breaks. -/
example : syncCollect 9 (wire exCut (some ⟨.internal, "gone", none⟩)) = some (.error (errOfStatus ⟨.internal, "gone", none⟩)) :=
  (C78_broken exCut _ 9 (by rw [exCut_eq]; decide)).2 (by rw [exCut_eq]; decide)

/-- Backwards with limit 3, cut off after two events. -/
example : ∀ inc, inc = wire (oks (readCall (memBackend fun _ => true) exEnv none none (some true) (some 3) (some 1) (fun _ => exDb)
      (fun k => decide (2 ≤ k)) (fun _ => Cancel.never) 9).1) none →
    asyncCollect 9 inc = some (.ok (answer exLog ⟨[]⟩ none true (some 2))) := by
  rintro inc rfl
  decide +kernel

example : (LocalResp.next ⟨sequenced exLog, some 3⟩).1 = some (.ok ⟨1, exEvent "a" ["x", "y"], none⟩) ∧
    (LocalResp.nextBatch (LocalResp.next ⟨sequenced exLog, some 3⟩).2).1 =
      .ok [⟨2, exEvent "b" ["x"], none⟩, ⟨3, exEvent "a" ["y", "x"], none⟩] ∧
    (LocalResp.getHead (LocalResp.next ⟨sequenced exLog, some 3⟩).2).1 = .ok (some 3) := by
  decide +kernel

end Examples

end

end Uma.Props
