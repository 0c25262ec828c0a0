import Verif.Server.HubStreams
import Verif.Props.Stream
import Verif.Props.Wire

/-!
# Calls that scan the database, side by side: C67, and shutdown: C68

`(Hub.init d limit).run B env ms`: the server with `limit` permits after the moves `ms` (calls arriving, clients leaving or
taking messages, commits and announcements of the writer, steps of the tasks and of the blocking threads, shutdown), in any order
whatsoever.  `Course env L h log ms log'`: the commits among the moves extend the log from `log` to `log'`.
-/

namespace Uma.Props
open Uma.Spec Uma.Db Uma.Server

variable {δ σ υ ι : Type} {B : Backend δ σ υ ι} {valid : Record → Prop} {env : Env}

/-! ## Permits -/

/-- The task, or its closure on a blocking thread, has a permit. -/
def hasPermit (t : Task) : Bool :=
  match t.place with
  | .holding | .pending | .running | .lost => true
  | _ => false

def isAsking (t : Task) : Bool :=
  match t.place with
  | .asking => true
  | _ => false

def isRunning (t : Task) : Bool :=
  match t.place with
  | .running => true
  | _ => false

theorem hasPermit_cls (t : Task) : hasPermit t = decide (t.place.cls = .holds) := by
  unfold hasPermit
  cases t.place <;> rfl

theorem isAsking_cls (t : Task) : isAsking t = decide (t.place.cls = .asks) := by
  unfold isAsking
  cases t.place <;> rfl

theorem permits_cls (h : Hub δ) : h.tasks.countP hasPermit = h.gate.cls.countP (· = .holds) := by
  simp only [Hub.gate, List.countP_map]
  congr 1
  funext t
  exact hasPermit_cls t

/-- C67: no permit is ever lost or made: those free and those held add up to the limit. -/
theorem C67_permits (d : δ) (limit : Nat) (ms : List (Move δ)) :
    let h := (Hub.init d limit).run B env ms
    h.free + h.tasks.countP hasPermit = limit := by
  intro h
  have := (gok_run (B := B) (env := env) (gok_init d limit) ms).sum
  rw [permits_cls]
  exact this

/-- C67: so no more than `limit` scans run at any moment. -/
theorem C67_scans (d : δ) (limit : Nat) (ms : List (Move δ)) :
    ((Hub.init d limit).run B env ms).tasks.countP isRunning ≤ limit := by
  have h := C67_permits (B := B) (env := env) d limit ms
  simp only at h
  have h2 : ((Hub.init d limit).run B env ms).tasks.countP isRunning ≤
      ((Hub.init d limit).run B env ms).tasks.countP hasPermit := by
    apply List.countP_mono_left
    intro t _ ht
    unfold isRunning at ht
    unfold hasPermit
    split at ht
    · rename_i hp; rw [hp]
    · cases ht
  omega

/-- C67: the queue holds exactly the tasks that wait for a permit, each once, and nobody waits while a permit is free. -/
theorem C67_queue (d : δ) (limit : Nat) (ms : List (Move δ)) :
    let h := (Hub.init d limit).run B env ms
    h.queue.Nodup ∧ (∀ i, i ∈ h.queue ↔ ∃ t, h.tasks[i]? = some t ∧ isAsking t = true) ∧
    (0 < h.free → ∀ t ∈ h.tasks, isAsking t = false) := by
  intro h
  have hg : GOk limit h.gate := gok_run (B := B) (env := env) (gok_init d limit) ms
  have hq : ∀ i, i ∈ h.queue ↔ ∃ t, h.tasks[i]? = some t ∧ isAsking t = true := by
    intro i
    rw [show h.queue = h.gate.queue from rfl, hg.asks i]
    simp only [Hub.gate, List.getElem?_map, Option.map_eq_some_iff, isAsking_cls, decide_eq_true_eq]
  refine ⟨hg.nodup, hq, ?_⟩
  intro hf t ht
  obtain ⟨i, hi⟩ := List.getElem?_of_mem ht
  cases ha : isAsking t with
  | false => rfl
  | true =>
    have := (hq i).mpr ⟨t, hi, ha⟩
    have he : h.queue = [] := hg.idle hf
    rw [he] at this
    cases this

/-! ## Order -/

/-- Permits given back from one hub to the next. -/
def permitsBack (h h' : Hub δ) : Nat :=
  (List.range h.tasks.length).countP fun i => h.tasks[i]?.any hasPermit && !h'.tasks[i]?.any hasPermit

def permitsBackIn (B : Backend δ σ υ ι) (env : Env) : Hub δ → List (Move δ) → Nat
  | _, [] => 0
  | h, m :: ms => permitsBack h (h.step B env m) + permitsBackIn B env (h.step B env m) ms

theorem permitsBack_gate (h h' : Hub δ) : permitsBack h h' = h.gate.returned h'.gate := by
  have hx : ∀ (h : Hub δ) (j : Nat), h.tasks[j]?.any hasPermit = decide (h.gate.cls[j]? = some .holds) := by
    intro h j
    simp only [Hub.gate, List.getElem?_map]
    cases h.tasks[j]? with
    | none => rfl
    | some t => simp [hasPermit_cls]
  unfold permitsBack Gate.returned
  simp only [hx]
  simp [Hub.gate]

/-- C67: permits are given in the order of asking: as long as task `i` waits, those before it were before it from the start
(nobody overtakes), and every permit given back shortens their number.  So when one more permit has come back than there were
tasks before it, it waits no longer. -/
theorem C67_order (d : δ) (limit : Nat) (ms0 : List (Move δ)) (l r : List Nat) (i : Nat)
    (hq : ((Hub.init d limit).run B env ms0).queue = l ++ i :: r) (ms : List (Move δ))
    (hw : ∀ ms', ms' <+: ms → i ∈ (((Hub.init d limit).run B env ms0).run B env ms').queue) :
    ∃ l' r', (((Hub.init d limit).run B env ms0).run B env ms).queue = l' ++ i :: r' ∧ l'.Sublist l ∧
      l'.length + permitsBackIn B env ((Hub.init d limit).run B env ms0) ms ≤ l.length := by
  have hg : GOk limit ((Hub.init d limit).run B env ms0).gate := gok_run (B := B) (env := env) (gok_init d limit) ms0
  generalize (Hub.init d limit).run B env ms0 = h at hq hw hg ⊢
  induction ms generalizing h l r with
  | nil => exact ⟨l, r, hq, List.Sublist.refl _, by simp [permitsBackIn]⟩
  | cons m ms ih =>
    have hs := step_gate (B := B) (env := env) h m
    have h1 : i ∈ (h.step B env m).gate.queue := by
      have := hw [m] (by simp)
      rwa [run_cons] at this
    obtain ⟨l1, r1, e1, e2, e3⟩ := gate_order hg hs (l := l) (r := r) hq h1
    obtain ⟨l2, r2, f1, f2, f3⟩ := ih l1 r1 (h.step B env m) e1 (by
      intro ms' hp
      have := hw (m :: ms') (List.cons_prefix_cons.mpr ⟨rfl, hp⟩)
      rwa [run_cons] at this) (hg.step hs)
    refine ⟨l2, r2, by rw [run_cons]; exact f1, f2.trans e2, ?_⟩
    simp only [permitsBackIn, permitsBack_gate]
    omega

/-- C67: whoever leaves the queue has got a permit, except a `get_tracking_info` whose client has disconnected. -/
theorem C67_granted (d : δ) (limit : Nat) (ms : List (Move δ)) (m : Move δ) (i : Nat)
    (hi : i ∈ ((Hub.init d limit).run B env ms).queue) (hi' : i ∉ (((Hub.init d limit).run B env ms).step B env m).queue) :
    (∃ t, (((Hub.init d limit).run B env ms).step B env m).tasks[i]? = some t ∧ hasPermit t = true) ∨
    (∃ t s, ((Hub.init d limit).run B env ms).tasks[i]? = some t ∧ t.job = .track s ∧ t.gone = true) := by
  have hg : GOk limit ((Hub.init d limit).run B env ms).gate := gok_run (B := B) (env := env) (gok_init d limit) ms
  generalize (Hub.init d limit).run B env ms = h at hi hi' hg ⊢
  have hg' := hg.step (step_gate (B := B) (env := env) h m)
  obtain ⟨_, h2, h3⟩ := step_change (B := B) (env := env) hg m
  have hasks := (hg.asks i).mp hi
  obtain ⟨t, ht⟩ : ∃ t, h.tasks[i]? = some t := by
    simp only [Hub.gate, List.getElem?_map, Option.map_eq_some_iff] at hasks
    exact ⟨hasks.choose, hasks.choose_spec.1⟩
  have hp := queue_asking hg hi ht
  have hlt := (List.getElem?_eq_some_iff.mp ht).1
  obtain ⟨t', ht'⟩ : ∃ t', (h.step B env m).tasks[i]? = some t' := ⟨_, List.getElem?_eq_getElem (by omega)⟩
  have hna : t'.place ≠ .asking := by
    intro ha
    exact hi' ((hg'.asks i).mpr (by simp [Hub.gate, ht', ha, Place.cls]))
  rcases h3 i t' ht' with ⟨o, u, hu, hc⟩ | ⟨hle, _⟩
  · rw [ht] at hu
    cases hu
    cases hc with
    | same => exact absurd hp hna
    | gone => exact absurd hp hna
    | recv => exact absurd hp hna
    | granted _ => exact Or.inl ⟨_, ht', rfl⟩
    | quit hl _ ha =>
      obtain ⟨s, hs⟩ := ha hp
      exact Or.inr ⟨t, s, ht, hs, hl.2 s hs⟩
    | spent h' => rw [hp] at h'; cases h'
    | ask h' => rw [hp] at h'; cases h'
    | take h' => rw [hp] at h'; cases h'
    | arm h' => rw [hp] at h'; cases h'
    | spawn h' => rw [hp] at h'; cases h'
    | lose _ h' => rw [hp] at h'; rcases h' with h' | h' <;> cases h'
    | start h' => rw [hp] at h'; cases h'
    | drop h' => rw [hp] at h'; cases h'
    | scan _ h' => rw [hp] at h'; cases h'
    | settle h' => rw [hp] at h'; cases h'
    | sendLast h' => rw [hp] at h'; cases h'
    | send h' => rw [hp] at h'; cases h'
    | wake h' => rw [hp] at h'; cases h'
  · omega

/-! ## Progress -/

/-- Only tasks with a permit move, and every move does something. -/
inductive Holding (B : Backend δ σ υ ι) (env : Env) : Hub δ → List (Move δ) → Hub δ → Prop
  | nil {h} : Holding B env h [] h
  | pool {h h' h'' i c ms} : h.step? B env (.pool i c) = some h' → Holding B env h' ms h'' →
      Holding B env h (.pool i c :: ms) h''
  | task {h h' h'' i quit t ms} : h.tasks[i]? = some t → t.place = .holding → h.step? B env (.task i quit) = some h' →
      Holding B env h' ms h'' → Holding B env h (.task i quit :: ms) h''

theorem total_owes_le (h : Hub δ) : h.total Task.owes ≤ 4 * h.tasks.countP fun t => hasPermit t || isAsking t := by
  unfold Hub.total
  induction h.tasks with
  | nil => simp
  | cons t ts ih =>
    rw [List.map_cons, List.sum_cons, List.countP_cons]
    have : t.owes ≤ if (hasPermit t || isAsking t) = true then 4 else 0 := by
      unfold Task.owes hasPermit isAsking
      cases t.place <;> simp
    split at this <;> split <;> first | omega | contradiction

/-- C67: waiting comes to an end.  Let only the tasks that have permits move (whatever their clients do, and without any help of
others): at most four moves per task that has or waits for a permit are possible, and when no such move is left, nobody waits
and all permits are free. -/
theorem C67_progress (d : δ) (limit : Nat) (hl : 0 < limit) (ms0 ms : List (Move δ)) (h' : Hub δ)
    (hw : Holding B env ((Hub.init d limit).run B env ms0) ms h') :
    ms.length ≤ 4 * ((Hub.init d limit).run B env ms0).tasks.countP (fun t => hasPermit t || isAsking t) ∧
    ((∀ m h'', ¬ Holding B env h' [m] h'') → h'.queue = [] ∧ h'.free = limit) := by
  have hg : GOk limit ((Hub.init d limit).run B env ms0).gate := gok_run (B := B) (env := env) (gok_init d limit) ms0
  generalize (Hub.init d limit).run B env ms0 = h at hg hw ⊢
  have hmain : GOk limit h'.gate ∧ ms.length + h'.total Task.owes ≤ h.total Task.owes := by
    induction hw with
    | nil => exact ⟨hg, by simp⟩
    | pool hs _ ih =>
      obtain ⟨h1, h2⟩ := ih (hg.step (step?_gate hs))
      have := pool_total hg hs
      exact ⟨h1, by simp only [List.length_cons]; omega⟩
    | task hi hp hs _ ih =>
      obtain ⟨h1, h2⟩ := ih (hg.step (step?_gate hs))
      have := holding_total hg hi hp hs
      exact ⟨h1, by simp only [List.length_cons]; omega⟩
  refine ⟨by have := total_owes_le h; omega, ?_⟩
  intro hno
  have hg' := hmain.1
  have hz : h'.gate.cls.countP (· = .holds) = 0 := by
    apply List.countP_eq_zero.mpr
    intro c hc hh
    simp at hh
    subst hh
    obtain ⟨k, hk⟩ := List.getElem?_of_mem hc
    simp only [Hub.gate, List.getElem?_map, Option.map_eq_some_iff] at hk
    obtain ⟨t, ht, htc⟩ := hk
    rcases holder_moves (B := B) (env := env) ht htc with ⟨hp, hm⟩ | hm
    · obtain ⟨h'', hx⟩ := Option.isSome_iff_exists.mp hm
      exact hno (.task k false) h'' (.task ht hp hx .nil)
    · obtain ⟨h'', hx⟩ := Option.isSome_iff_exists.mp (hm Cancel.never)
      exact hno (.pool k Cancel.never) h'' (.pool hx .nil)
  have hs := hg'.sum
  have hf : h'.free = limit := by
    have : h'.gate.free = h'.free := rfl
    omega
  exact ⟨hg'.idle (by show 0 < h'.free; omega), hf⟩

/-! ## What each call delivers -/

theorem arrive_task (h : Hub δ) (v : Visit) : (h.step B env (.arrive v)).tasks[h.tasks.length]? = some v.task := by
  simp [Hub.step, Hub.step?]

theorem reached_board {d : δ} {limit : Nat} {s : Spec.Db} {L : Lawful B env.H valid} (hd : L.RepD d s)
    (hs : s.log.length < Server.u64Max) {ms0 : List (Move δ)} {log1 : Log}
    (hc0 : Course env L (Hub.init d limit) s.log ms0 log1) (v : Visit) :
    GOk limit (((Hub.init d limit).run B env ms0).step B env (.arrive v)).gate ∧
    BoardOk L (((Hub.init d limit).run B env ms0).step B env (.arrive v)).board log1 := by
  have hg : GOk limit ((Hub.init d limit).run B env ms0).gate := gok_run (B := B) (env := env) (gok_init d limit) ms0
  exact ⟨hg.step (step_gate _ _), course_board (gok_init d limit) ⟨⟨s, hd, rfl⟩, hs⟩ hc0⟩

/-- C67: a Read call among any number of others.  What it has sent so far is a beginning of one read of the log as it was at one
moment between its arrival and now, in messages of at most the batch size, each telling the head of that moment; if it has ended
although its client is there and the server is not shutting down, it has sent all of it. -/
theorem C67_read (he : EnvOk env) (L : Lawful B env.H valid) {d : δ} {s : Spec.Db} {limit : Nat} (hd : L.RepD d s)
    (hs : s.log.length < Server.u64Max) {ms0 ms : List (Move δ)} {log1 log : Log}
    (hc0 : Course env L (Hub.init d limit) s.log ms0 log1) (query : Option Query) (start : Option Nat)
    (backwards : Option Bool) (lim batchSize : Option Nat)
    (hc : Course env L (((Hub.init d limit).run B env ms0).step B env (.arrive (.read query start backwards lim batchSize)))
      log1 ms log) :
    let h := (((Hub.init d limit).run B env ms0).step B env (.arrive (.read query start backwards lim batchSize))).run B env ms
    ∃ t, h.tasks[((Hub.init d limit).run B env ms0).tasks.length]? = some t ∧
    ∃ snap, log1 <+: snap ∧ snap <+: log ∧
      delivered t.sent <+: Spec.read snap (query.getD ⟨[]⟩) start (backwards.getD false) lim ∧
      (∀ m ∈ t.sent, ∃ r, m = .ok r ∧ r.events.length ≤ messageSize batchSize ∧
        r.head = if lim.isSome then r.events.getLast?.map (·.position) else if snap = [] then none else some snap.length) ∧
      (t.place = .done → t.gone = false → h.stop = false →
        delivered t.sent = Spec.read snap (query.getD ⟨[]⟩) start (backwards.getD false) lim ∧
        (lim ≠ some 0 → t.sent ≠ [])) := by
  intro h
  obtain ⟨hg, hb⟩ := reached_board hd hs hc0 (.read query start backwards lim batchSize)
  obtain ⟨hb', t, hi, hinv⟩ := course_task hg hb
    (fun _ b log t => ReadInv env L ⟨query, start, backwards.getD false, lim, batchSizeOf batchSize⟩ log1 b log t)
    (fun _ _ _ _ _ _ h => h) (fun _ _ _ _ _ _ h ht => readInv_turn h ht)
    (fun _ _ _ _ _ _ _ hb h hc => readInv_change hb h hc) (arrive_task _ _)
    ⟨_, [], rfl, .nil (List.prefix_refl _), by simp, rfl⟩ hc
  refine ⟨t, hi, ?_⟩
  obtain ⟨snap, dbs, cs, fuel, ⟨R⟩, h1, h2, h3, h4⟩ := readInv_stream hb' hinv
  have hcall : ∀ fuel, readTask B env ⟨query, start, backwards.getD false, lim, batchSizeOf batchSize⟩ dbs (fun _ => false) cs fuel 0
      (ReadState.init ⟨query, start, backwards.getD false, lim, batchSizeOf batchSize⟩) =
      readCall B env query start backwards lim batchSize dbs (fun _ => false) cs fuel := fun _ => rfl
  rw [hcall] at h3 h4
  obtain ⟨rest, hrest⟩ := h3
  refine ⟨snap, h1, h2, ?_, ?_, ?_⟩
  · refine List.IsPrefix.trans ?_ (C33_stream_is_one_read he L R query start backwards lim batchSize (fun _ => false) cs fuel).1
    rw [← hrest]
    simp [delivered]
  · intro m hm
    obtain ⟨r, rfl, hr⟩ := C33_heads he L R query start backwards lim batchSize (fun _ => false) cs fuel m
      (by rw [← hrest]; exact List.mem_append_left _ hm)
    refine ⟨r, rfl, ?_, hr⟩
    obtain ⟨pre, post, hsplit⟩ := List.append_of_mem hm
    exact (C33_message_sizes he L R query start backwards lim batchSize (fun _ => false) cs fuel pre r (post ++ rest)
      (by rw [← hrest, hsplit]; simp)).1
  · intro hp hgone hstop
    obtain ⟨h5, h6⟩ := h4 hp (by simp only [away, hgone, Bool.false_or]; exact hstop)
    have hmore : readCall B env query start backwards lim batchSize dbs (fun _ => false) cs (fuel + (snap.length + 1)) =
        (t.sent, true) := by
      have := readTask_more (B := B) (env := env) ⟨query, start, backwards.getD false, lim, batchSizeOf batchSize⟩ dbs
        (fun _ => false) cs fuel (snap.length + 1) 0 (ReadState.init ⟨query, start, backwards.getD false, lim, batchSizeOf batchSize⟩)
        (by rw [hcall, h5])
      rw [hcall, hcall, h5] at this
      exact this
    have h7 := (C33_stream_is_one_read he L R query start backwards lim batchSize (fun _ => false) cs
      (fuel + (snap.length + 1))).2 (fun _ => rfl) h6 (by omega)
    rw [hmore] at h7
    refine ⟨h7.2, ?_⟩
    intro hlim
    have := C33_some_message he L R query start backwards lim batchSize (fun _ => false) cs (fuel + (snap.length + 1)) hlim
      (fun _ => rfl) h6 (by omega)
    rwa [hmore] at this

/-- C67: a Subscribe call among any number of others.  What it has sent is a beginning of the matching events after `after`
committed by now; it does not end while its client is there and the server is not shutting down; and when neither it nor its
closure can do anything, all commits have been announced, it does not wait for a permit and its channel is not full, it has
sent all of them (no wake-up is lost). -/
theorem C67_subscribe (he : EnvOk env) (L : Lawful B env.H valid) {d : δ} {s : Spec.Db} {limit : Nat} (hd : L.RepD d s)
    (hs : s.log.length < Server.u64Max) {ms0 ms : List (Move δ)} {log1 log : Log}
    (hc0 : Course env L (Hub.init d limit) s.log ms0 log1) (query : Option Query) (after batchSize : Option Nat)
    (ha : ∀ a ∈ after, a < Server.u64Max)
    (hc : Course env L (((Hub.init d limit).run B env ms0).step B env (.arrive (.subscribe query after batchSize))) log1 ms log) :
    let h := (((Hub.init d limit).run B env ms0).step B env (.arrive (.subscribe query after batchSize))).run B env ms
    let i := ((Hub.init d limit).run B env ms0).tasks.length
    ∃ t, h.tasks[i]? = some t ∧
      delivered t.sent <+: matchingAfter log (query.getD ⟨[]⟩) after ∧
      (t.gone = false → h.stop = false → t.place ≠ .done ∧
        ((∀ quit, h.taskStep i quit = none) → (∀ c, h.poolStep B env i c = none) → h.pending = false →
          isAsking t = false → t.queued < 2048 → delivered t.sent = matchingAfter log (query.getD ⟨[]⟩) after)) := by
  intro h i
  obtain ⟨hg, hb⟩ := reached_board hd hs hc0 (.subscribe query after batchSize)
  have hbt := (batchSizeOf_pos batchSize).1
  have hne : after ≠ some Server.u64Max := by
    intro hx; exact Nat.lt_irrefl _ (ha _ hx)
  have htask : (Visit.subscribe query after batchSize).task =
      ⟨.sub query (batchSizeOf batchSize) (after.map fun a => min (a + 1) Server.u64Max), .top, 0, false, 0, [], none⟩ := by
    simp only [Visit.task, if_neg hne]
  obtain ⟨hb', t, hi, hinv⟩ := course_task hg hb
    (fun _ b log t => SubTask L query (after.map fun a => min (a + 1) Server.u64Max) (batchSizeOf batchSize) b log t)
    (fun _ _ _ _ _ _ h => h) (fun _ _ _ _ _ _ h ht => subTask_turn he hbt h ht)
    (fun _ _ _ _ _ _ _ hb h hc => subTask_change he hbt hb h hc) (arrive_task _ _)
    (by
      rw [htask]
      refine ⟨_, rfl, List.nil_prefix, Or.inr ⟨.top, rfl, ?_⟩⟩
      exact ⟨hb.rep, hb.small, rfl, List.nil_prefix, fun _ => Or.inl ⟨rfl, rfl⟩, trivial⟩) hc
  obtain ⟨x, hj, hpre, hst⟩ := hinv
  refine ⟨t, hi, ?_, ?_⟩
  · rw [todo_after log _ hb'.small after ha] at hpre
    exact hpre
  · intro hgone hstop
    have haw : away t h.board = false := by simp only [away, hgone, Bool.false_or]; exact hstop
    rcases hst with ⟨hx, _⟩ | ⟨ph, hph, hsub⟩
    · have hx : away t h.board = true := hx
      rw [haw] at hx; cases hx
    · refine ⟨?_, ?_⟩
      · intro hp; simp only [PhaseOf, hp] at hph
      · intro ht1 ht2 hpend hask hfull
        have ht1 := ht1 false
        have hi' : h.tasks[i]? = some t := hi
        simp only [Hub.taskStep, hi', Bool.false_and] at ht1
        have hstop' : h.stop = false := hstop
        cases hp : t.place with
        | top => simp [hp, hj, hgone, hstop'] at ht1
        | asking => simp [isAsking, hp] at hask
        | holding => simp [hp, hj] at ht1
        | pending => have := ht2 Cancel.never; simp [Hub.poolStep, hi', hp] at this
        | running => have := ht2 Cancel.never; simp [Hub.poolStep, hi', hp] at this
        | found f => simp [hp] at ht1
        | sending m next =>
          simp only [hp, hgone, Bool.false_eq_true, if_false, if_pos hfull] at ht1
          cases next <;> simp at ht1
        | waiting =>
          simp only [hp, hgone, hstop'] at ht1
          simp only [PhaseOf, hp] at hph
          subst hph
          have hv : h.version = t.seen := by
            by_cases hv : h.version = t.seen
            · exact hv
            · simp [hv] at ht1
          obtain ⟨snap, ⟨f1, f2, f3⟩, f4⟩ := hsub.phase
          have hsnap : snap = log := by
            rcases f3 with f3 | f3 | f3
            · exact f3
            · have f3 : h.pending = true := f3
              rw [hpend] at f3; cases f3
            · have f3 : t.seen < h.version := f3
              omega
          rw [hsnap] at f4
          have hcur := cursor_todo hb'.small hsub.prefx (hsub.cursor (by simp [worldOf]))
          have f4 : todo log (query.getD ⟨[]⟩) false (worldOf h.board t x (.waiting t.seen)).next = [] := f4
          have hd' : (worldOf h.board t x (.waiting t.seen)).delivered = delivered t.sent := rfl
          rw [show (((Hub.init d limit).run B env ms0).step B env (.arrive (.subscribe query after batchSize))).run B env ms = h
            from rfl, f4, List.append_nil, hd', todo_after log _ hb'.small after ha] at hcur
          exact hcur.symm
        | lost => simp only [PhaseOf, hp] at hph
        | done => simp only [PhaseOf, hp] at hph

/-- What every move keeps and every call starts with holds of every task ever reached. -/
theorem every_task (P : Task → Prop) (hv : ∀ v : Visit, P v.task)
    (hc : ∀ b o t t', P t → Change B env b o t t' → P t') (d : δ) (limit : Nat) (ms : List (Move δ)) :
    ∀ t ∈ ((Hub.init d limit).run B env ms).tasks, P t := by
  have hg : GOk limit (Hub.init d limit).gate := gok_init d limit
  have h0 : ∀ t ∈ (Hub.init d limit).tasks, P t := by intro t ht; cases ht
  generalize Hub.init d limit = h at hg h0 ⊢
  induction ms generalizing h with
  | nil => exact h0
  | cons m ms ih =>
    rw [run_cons]
    refine ih _ (hg.step (step_gate _ _)) ?_
    intro t' ht'
    obtain ⟨j, hj⟩ := List.getElem?_of_mem ht'
    rcases (step_change (B := B) (env := env) hg m).2.2 j t' hj with ⟨o, u, hu, hch⟩ | ⟨_, v, _, rfl⟩
    · exact hc _ o u t' (h0 u (List.mem_of_getElem? hu)) hch
    · exact hv v

/-- C67: a subscription after the largest position has ended from the start, and sends nothing. -/
theorem C67_subscribe_end (query : Option Query) (batchSize : Option Nat) (d : δ) (limit : Nat) (ms0 ms : List (Move δ)) :
    ∃ t, ((((Hub.init d limit).run B env ms0).step B env (.arrive (.subscribe query (some Server.u64Max) batchSize))).run
        B env ms).tasks[((Hub.init d limit).run B env ms0).tasks.length]? = some t ∧ t.place = .done ∧ t.sent = [] := by
  have hg : GOk limit ((Hub.init d limit).run B env ms0).gate := gok_run (B := B) (env := env) (gok_init d limit) ms0
  generalize (Hub.init d limit).run B env ms0 = h at hg ⊢
  have h0 := arrive_task (B := B) (env := env) h (.subscribe query (some Server.u64Max) batchSize)
  have hg0 := hg.step (step_gate (B := B) (env := env) h (.arrive (.subscribe query (some Server.u64Max) batchSize)))
  generalize h.tasks.length = i at h0 ⊢
  obtain ⟨t, ht, hp, hsent⟩ : ∃ t, (h.step B env (.arrive (.subscribe query (some Server.u64Max) batchSize))).tasks[i]? = some t ∧
      t.place = .done ∧ t.sent = [] := ⟨_, h0, by simp [Visit.task], rfl⟩
  clear h0
  generalize h.step B env (.arrive (.subscribe query (some Server.u64Max) batchSize)) = h1 at hg0 ht ⊢
  induction ms generalizing h1 t with
  | nil => exact ⟨t, ht, hp, hsent⟩
  | cons m ms ih =>
    rw [run_cons]
    obtain ⟨_, h2, h3⟩ := step_change (B := B) (env := env) hg0 m
    have hlt := (List.getElem?_eq_some_iff.mp ht).1
    obtain ⟨t', ht'⟩ : ∃ t', (h1.step B env m).tasks[i]? = some t' := ⟨_, List.getElem?_eq_getElem (by omega)⟩
    have hx : t'.place = .done ∧ t'.sent = [] := by
      rcases h3 i t' ht' with ⟨o, u, hu, hc⟩ | ⟨hle, _⟩
      · rw [ht] at hu
        cases hu
        cases hc with
        | same => exact ⟨hp, hsent⟩
        | gone => exact ⟨hp, hsent⟩
        | recv => exact ⟨hp, hsent⟩
        | quit _ _ _ => exact ⟨rfl, hsent⟩
        | granted h' => rw [hp] at h'; cases h'
        | spent h' => rw [hp] at h'; cases h'
        | ask h' => rw [hp] at h'; cases h'
        | take h' => rw [hp] at h'; cases h'
        | arm h' => rw [hp] at h'; cases h'
        | spawn h' => rw [hp] at h'; cases h'
        | lose _ h' => rw [hp] at h'; rcases h' with h' | h' <;> cases h'
        | start h' => rw [hp] at h'; cases h'
        | drop h' => rw [hp] at h'; cases h'
        | scan _ h' => rw [hp] at h'; cases h'
        | settle h' => rw [hp] at h'; cases h'
        | sendLast h' => rw [hp] at h'; cases h'
        | send h' => rw [hp] at h'; cases h'
        | wake h' => rw [hp] at h'; cases h'
      · omega
    exact ih t' hx.1 hx.2 _ (hg0.step (step_gate _ _)) ht'

/-- C67: `get_tracking_info` among any number of others: its answer is the position recorded in the database at one moment
between its arrival and now, and it does not end without an answer while its client is there. -/
theorem C67_track (L : Lawful B env.H valid) {d : δ} {s : Spec.Db} {limit : Nat} (hd : L.RepD d s)
    (hs : s.log.length < Server.u64Max) {ms0 ms : List (Move δ)} {log1 log : Log}
    (hc0 : Course env L (Hub.init d limit) s.log ms0 log1) (source : String)
    (hc : Course env L (((Hub.init d limit).run B env ms0).step B env (.arrive (.track source))) log1 ms log) :
    let h1 := ((Hub.init d limit).run B env ms0).step B env (.arrive (.track source))
    ∃ t, (h1.run B env ms).tasks[((Hub.init d limit).run B env ms0).tasks.length]? = some t ∧
      (∀ r, t.answer = some r → ∃ ms' s', ms' <+: ms ∧ L.RepD (h1.run B env ms').db s' ∧ r = .ok (s'.track source)) ∧
      (t.place = .done → t.gone = false → t.answer.isSome = true) := by
  intro h1
  obtain ⟨hg, hb⟩ := reached_board hd hs hc0 (.track source)
  obtain ⟨hb', t, hi, hj, _, hans, hplace⟩ := course_task hg hb
    (fun past _ _ t => TrackTask L source past t)
    (by
      intro past past' _ _ t hp ⟨a1, a2, a3, a4⟩
      refine ⟨a1, a2, fun r hr => ?_, ?_⟩
      · obtain ⟨d, s, b1, b2⟩ := a3 r hr
        exact ⟨d, s, hp d b1, b2⟩
      · revert a4
        cases t.place <;> try exact id
        rintro ⟨d, s, b1, b2⟩
        exact ⟨d, s, hp d b1, b2⟩)
    (fun _ _ _ _ _ _ h _ => h) (fun _ _ _ _ _ _ hp hb h hc => trackTask_change hp hb h hc) (arrive_task _ _)
    ⟨rfl, rfl, by simp [Visit.task], trivial⟩ hc
  refine ⟨t, hi, ?_, ?_⟩
  · intro r hr
    obtain ⟨d', s', ⟨ms', hp, hdb⟩, hrep, hrr⟩ := hans r hr
    exact ⟨ms', s', hp, by rw [hdb]; exact hrep, hrr⟩
  · intro hp
    simp only [hp] at hplace
    exact hplace

/-! ## The limit -/

theorem parse_digits (n : Nat) (h : n < 2 ^ 64) : parseUsize (Nat.toDigits 10 n) = some n ∧
    parseUsize ('+' :: Nat.toDigits 10 n) = some n := by
  have h1 : (Nat.toDigits 10 n).all Char.isDigit = true := by
    rw [List.all_eq_true]
    intro c hc
    exact Nat.isDigit_of_mem_toDigits (by decide) (by decide) hc
  have h2 : (Nat.toDigits 10 n).foldl (fun n c => 10 * n + (c.toNat - 48)) 0 = n := by
    have := Nat.ofDigitChars_ten_toDigits (n := n)
    rw [Nat.ofDigitChars_eq_foldl] at this
    exact this
  have h3 : Nat.toDigits 10 n ≠ [] := Nat.toDigits_ne_nil
  have hcore : parseUsize ('+' :: Nat.toDigits 10 n) = some n := by
    simp only [parseUsize, h1, h2]
    simp [h]
  refine ⟨?_, hcore⟩
  have hne : ∀ ds, Nat.toDigits 10 n ≠ '+' :: ds := by
    intro ds hx
    have : '+' ∈ Nat.toDigits 10 n := by rw [hx]; simp
    have := Nat.isDigit_of_mem_toDigits (by decide) (by decide) this
    exact absurd this (by decide)
  rw [← hcore]
  unfold parseUsize
  split
  · rename_i ds hx; exact absurd hx (hne ds)
  · rfl

/-- C67: UMADB_READER_THREADS, written in decimal, is the limit if it is positive … -/
theorem C67_limit_set (n : Nat) (h0 : 0 < n) (h : n < 2 ^ 64) (cores : Option Nat) :
    readersLimit (some (Nat.toDigits 10 n)) cores = n ∧ readersLimit (some ('+' :: Nat.toDigits 10 n)) cores = n := by
  simp [readersLimit, parse_digits n h, Option.filter, h0]

/-- … otherwise, if it is missing, 0, too large or not a number, the limit is four times the number of cores. -/
theorem C67_limit_default (var : Option (List Char)) (cores : Option Nat)
    (h : var = none ∨ var = some ['0'] ∨ var = some [] ∨ (∃ n, 2 ^ 64 ≤ n ∧ var = some (Nat.toDigits 10 n)) ∨
      ∃ ds c, var = some ds ∧ c ∈ ds.tail ∧ c.isDigit = false) :
    readersLimit var cores = max 4 (min (4 * cores.getD 4) (2 ^ 64 - 1)) := by
  have hx : (var.bind parseUsize).filter (0 < ·) = none := by
    rcases h with rfl | rfl | rfl | ⟨n, hn, rfl⟩ | ⟨ds, c, rfl, hc, hd⟩
    · rfl
    · decide
    · rfl
    · have h1 : (Nat.toDigits 10 n).all Char.isDigit = true := by
        rw [List.all_eq_true]
        intro c hc
        exact Nat.isDigit_of_mem_toDigits (by decide) (by decide) hc
      have h2 : (Nat.toDigits 10 n).foldl (fun n c => 10 * n + (c.toNat - 48)) 0 = n := by
        have := Nat.ofDigitChars_ten_toDigits (n := n)
        rw [Nat.ofDigitChars_eq_foldl] at this
        exact this
      have hne : ∀ ds, Nat.toDigits 10 n ≠ '+' :: ds := by
        intro ds hx
        have : '+' ∈ Nat.toDigits 10 n := by rw [hx]; simp
        have := Nat.isDigit_of_mem_toDigits (by decide) (by decide) this
        exact absurd this (by decide)
      have : parseUsize (Nat.toDigits 10 n) = none := by
        unfold parseUsize
        split
        · rename_i ds hx; exact absurd hx (hne ds)
        · simp only [h1, h2]
          rw [if_neg (by omega : ¬ n < 2 ^ 64)]
          simp
      simp [this]
    · have : parseUsize ds = none := by
        unfold parseUsize
        simp only
        rw [if_neg]
        rintro ⟨_, hall⟩
        rw [List.all_eq_true] at hall
        have hm : c ∈ (match ds with | '+' :: ds => ds | ds => ds) := by
          split
          · exact hc
          · exact List.mem_of_mem_tail hc
        rw [hall c hm] at hd
        cases hd
      simp [this]
  unfold readersLimit
  rw [hx]
  simp only
  omega

/-- C67: there is always at least one permit, so that `C67_progress` applies … -/
theorem C67_limit_pos (var : Option (List Char)) (cores : Option Nat) : 0 < readersLimit var cores := by
  unfold readersLimit
  split
  · rename_i n hn
    have := (Option.filter_eq_some_iff.mp hn).2
    simpa using this
  · omega

/-- … but the server does not start with 2^61 or more of them: tokio's semaphore panics. -/
theorem C67_limit_panic (n : Nat) (h : n < 2 ^ 64) (cores : Option Nat) (h0 : 0 < n) :
    (∃ msg, newSemaphore (readersLimit (some (Nat.toDigits 10 n)) cores) = .error (.panic msg)) ↔ 2 ^ 61 ≤ n := by
  rw [(C67_limit_set n h0 h cores).1]
  unfold newSemaphore
  constructor
  · rintro ⟨msg, hx⟩
    split at hx
    · omega
    · cases hx
  · intro hn
    rw [if_pos (by omega)]
    exact ⟨_, rfl⟩

/-! ## Shutdown -/

def isStep : Move δ → Bool
  | .task _ _ | .pool _ _ => true
  | _ => false

def isArrival : Move δ → Bool
  | .arrive _ => true
  | _ => false

/-- The number of moves among `ms` by which a task or a closure does something. -/
def stepsIn (B : Backend δ σ υ ι) (env : Env) : Hub δ → List (Move δ) → Nat
  | _, [] => 0
  | h, m :: ms => (if isStep m = true ∧ (h.step? B env m).isSome = true then 1 else 0) + stepsIn B env (h.step B env m) ms

theorem step_stop (h : Hub δ) {limit : Nat} (hg : GOk limit h.gate) (m : Move δ) (hs : h.stop = true) :
    (h.step B env m).stop = true := by
  have := (step_change (B := B) (env := env) hg m).1
  have : (h.step B env m).stop = (h.board.after m).stop := congrArg Board.stop this
  rw [this]
  have hb : h.board.stop = true := hs
  cases m <;> simp only [Board.after] <;> first | exact hb | (split <;> exact hb)

theorem step_rank {limit : Nat} {h : Hub δ} (hg : GOk limit h.gate) (hs : h.stop = true) (m : Move δ)
    (hm : isArrival m = false) :
    (if isStep m = true ∧ (h.step? B env m).isSome = true then 1 else 0) + (h.step B env m).total Task.rank ≤ h.total Task.rank := by
  unfold Hub.step
  cases m with
  | arrive v => cases hm
  | leave i =>
    simp only [isStep, Bool.false_eq_true, false_and, if_false, Hub.step?, Option.getD_some, Hub.total]
    rw [total_modify Task.rank h.tasks i (fun t => { t with gone := true }) (fun t => rfl)]; omega
  | recv i =>
    simp only [isStep, Bool.false_eq_true, false_and, if_false, Hub.step?, Option.getD_some, Hub.total]
    rw [total_modify Task.rank h.tasks i (fun t => { t with queued := t.queued - 1 }) (fun t => rfl)]; omega
  | commit d =>
    simp only [isStep, Bool.false_eq_true, false_and, if_false, Hub.step?, Hub.total]
    split <;> simp
  | announce =>
    simp only [isStep, Bool.false_eq_true, false_and, if_false, Hub.step?, Hub.total]
    split <;> simp
  | shutdown => simp [isStep, Hub.step?, Hub.total]
  | task i quit =>
    simp only [isStep, Hub.step?]
    cases hx : h.taskStep i quit with
    | none => simp
    | some h' =>
      have := taskStep_rank hg hs hx
      simp; omega
  | pool i c =>
    simp only [isStep, Hub.step?]
    cases hx : h.poolStep B env i c with
    | none => simp
    | some h' =>
      have := poolStep_rank hg hx
      simp; omega

theorem total_rank_le (h : Hub δ) : h.total Task.rank ≤ 10 * h.tasks.length := by
  unfold Hub.total
  induction h.tasks with
  | nil => simp
  | cons t ts ih =>
    have := rank_le t
    simp only [List.map_cons, List.sum_cons, List.length_cons]
    omega

/-- C68: once shutdown has been broadcast, and if no more calls arrive, the tasks and closures make at most ten more steps per
task, whatever their clients and the writer do; and when they can make no more, every task has ended, except those with a full
channel whose client is connected but takes no messages.  (Missing, see `C68_shutdown_false`: that these end.) -/
theorem C68_shutdown_partial (d : δ) (limit : Nat) (hl : 0 < limit) (ms0 ms : List (Move δ))
    (hstop : ((Hub.init d limit).run B env ms0).stop = true) (hms : ∀ m ∈ ms, isArrival m = false) :
    stepsIn B env ((Hub.init d limit).run B env ms0) ms ≤ 10 * ((Hub.init d limit).run B env ms0).tasks.length ∧
    let h := ((Hub.init d limit).run B env ms0).run B env ms
    ((∀ m, isStep m = true → h.step? B env m = none) → ∀ t ∈ h.tasks,
      t.place = .done ∨ (∃ m next, t.place = .sending m next) ∧ t.gone = false ∧ 2048 ≤ t.queued) := by
  have hg : GOk limit ((Hub.init d limit).run B env ms0).gate := gok_run (B := B) (env := env) (gok_init d limit) ms0
  generalize (Hub.init d limit).run B env ms0 = h0 at hstop hg ⊢
  have hmain : GOk limit (h0.run B env ms).gate ∧ (h0.run B env ms).stop = true ∧
      stepsIn B env h0 ms + (h0.run B env ms).total Task.rank ≤ h0.total Task.rank := by
    induction ms generalizing h0 with
    | nil => exact ⟨hg, hstop, by simp [stepsIn, Hub.run]⟩
    | cons m ms ih =>
      have h1 := step_rank (B := B) (env := env) hg hstop m (hms m (by simp))
      obtain ⟨h2, h3, h4⟩ := ih (fun m hm => hms m (List.mem_cons_of_mem _ hm)) (h0.step B env m)
        (step_stop h0 hg m hstop) (hg.step (step_gate _ _))
      rw [run_cons]
      refine ⟨h2, h3, ?_⟩
      simp only [stepsIn]
      omega
  refine ⟨by have := total_rank_le h0; omega, ?_⟩
  intro h hno t ht
  obtain ⟨i, hi⟩ := List.getElem?_of_mem ht
  exact stuck_after_stop (B := B) (env := env) hl hmain.1 hmain.2.1 (fun i quit => hno (.task i quit) rfl)
    (fun i c => hno (.pool i c) rfl) hi

/-- C68: no channel ever holds more than 2048 messages, nor more than were sent. -/
theorem C68_backlog (d : δ) (limit : Nat) (ms : List (Move δ)) :
    ∀ t ∈ ((Hub.init d limit).run B env ms).tasks, t.queued ≤ 2048 ∧ t.queued ≤ t.sent.length := by
  refine every_task _ ?_ ?_ d limit ms
  · intro v; cases v <;> simp [Visit.task]
  · intro b o t t' h hc
    cases hc with
    | same => exact h
    | gone => exact h
    | recv => exact ⟨Nat.le_trans (Nat.sub_le _ _) h.1, Nat.le_trans (Nat.sub_le _ _) h.2⟩
    | @settle _ _ f _ =>
      have : (t.settle f).queued = t.queued ∧ (t.settle f).sent = t.sent := by
        unfold Task.settle
        repeat' split
        all_goals exact ⟨rfl, rfl⟩
      rw [this.1, this.2]; exact h
    | sendLast _ hq => exact ⟨by simp only; omega, by simp only [List.length_append, List.length_singleton]; omega⟩
    | send _ hq => exact ⟨by simp only; omega, by simp only [List.length_append, List.length_singleton]; omega⟩
    | _ => exact h

/-- C68: a message taken, or the client's disconnecting, sets such a task going again. -/
theorem C68_unblocked (d : δ) (limit : Nat) (ms : List (Move δ)) (i : Nat) (t : Task)
    (hi : ((Hub.init d limit).run B env ms).tasks[i]? = some t) (hp : ∃ m next, t.place = .sending m next) :
    let h := (Hub.init d limit).run B env ms
    ((h.step B env (.recv i)).taskStep i false).isSome = true ∧ ((h.step B env (.leave i)).taskStep i false).isSome = true := by
  have hq := (C68_backlog d limit ms t (List.mem_of_getElem? hi)).1
  intro h
  have hi : h.tasks[i]? = some t := hi
  obtain ⟨m, next, hp⟩ := hp
  have h1 : (h.step B env (.recv i)).tasks[i]? = some { t with queued := t.queued - 1 } := by
    simp [Hub.step, Hub.step?, hi]
  have h2 : (h.step B env (.leave i)).tasks[i]? = some { t with gone := true } := by
    simp [Hub.step, Hub.step?, hi]
  constructor
  · simp only [Hub.taskStep, h1, hp]
    split
    · rfl
    · rw [if_pos (by omega)]
      split <;> rfl
  · simp only [Hub.taskStep, h2, hp, if_true]
    rfl

/-- C68: the server need not come to rest.  With any database of more than 2048 events, a client that reads it all with batch size
1 and stops taking messages keeps its task alive for ever after shutdown: whatever else happens, as long as that client neither
takes a message nor disconnects. -/
theorem C68_shutdown_false (he : EnvOk env) (L : Lawful B env.H valid) {d : δ} {s : Spec.Db} (hd : L.RepD d s)
    (hs : s.log.length < Server.u64Max) (hlong : 2048 < s.log.length) (limit : Nat) (hl : 0 < limit) :
    ∃ ms0 : List (Move δ), ((Hub.init d limit).run B env ms0).stop = true ∧
      ∀ ms : List (Move δ), .leave 0 ∉ ms → .recv 0 ∉ ms →
        ∃ t, (((Hub.init d limit).run B env ms0).run B env ms).tasks[0]? = some t ∧ t.place ≠ .done := by
  obtain ⟨n, rfl⟩ : ∃ n, limit = n + 1 := ⟨limit - 1, by omega⟩
  obtain ⟨ms, st, sent, hrun, _, hal, _, _⟩ := lone_run (B := B) (env := env) he L hd hs n 2048 hlong (Nat.le_refl _)
  obtain ⟨m, st', hread, _⟩ := lone_round (B := B) (env := env) he L hd hs hlong hal
  have hscan := lone_scan (B := B) (env := env) d n st st' 2048 sent m hread
  have harr : (Hub.init d (n + 1)).run B env [.arrive (.read none none none none (some 1))] =
      loneHub d n (ReadState.init oneByOne) .top 0 [] := rfl
  have hall : (Hub.init d (n + 1)).run B env ([.arrive (.read none none none none (some 1))] ++ (ms ++ (oneScan ++ [.shutdown]))) =
      { loneHub d n st (.sending m (some (.read oneByOne st'))) 2048 sent with stop := true } := by
    rw [run_append, harr, run_append, hrun, run_append, hscan]
    rfl
  have hg : GOk (n + 1) ((Hub.init d (n + 1)).run B env
      ([.arrive (.read none none none none (some 1))] ++ (ms ++ (oneScan ++ [.shutdown])))).gate :=
    gok_run (B := B) (env := env) (gok_init d (n + 1)) _
  refine ⟨_, by rw [hall], ?_⟩
  intro ms' hm hm'
  have := frozen_run (B := B) (env := env) hg (i := 0)
    (t := ⟨.read oneByOne st, .sending m (some (.read oneByOne st')), 0, false, 2048, sent, none⟩) (by rw [hall]; rfl)
    ⟨m, _, rfl⟩ rfl (Nat.le_refl _) ms' hm hm'
  exact ⟨_, this, by simp⟩

/-! ## Examples -/

section Examples

/-- One permit, two reads and a subscription; `exGrow 0` has two events, and one more is committed on the way. -/
def exMoves : List (Move MemDb) :=
  [.arrive (.read none none none none (some 1)), .arrive (.read none none (some true) none none),
   .arrive (.subscribe none (some 1) none), .task 0 false, .task 2 false, .task 1 false, .task 0 false, .pool 0 Cancel.never]

def exHub (ms : List (Move MemDb)) : Hub MemDb := (Hub.init (exGrow 0) 1).run (memBackend fun _ => true) exEnv ms

/-- The first read scans; the subscription asked before the second read. -/
example : (exHub exMoves).free = 0 ∧ (exHub exMoves).queue = [2, 1] ∧ (exHub exMoves).tasks.map hasPermit = [true, false, false] ∧
    (exHub exMoves).tasks.countP isRunning = 1 := by decide +kernel

/-- The scan over, the permit goes to the subscription although the first read asks again. -/
example : (exHub (exMoves ++ [.pool 0 Cancel.never, .task 0 false, .task 0 false, .task 0 false])).queue = [1, 0] ∧
    permitsBackIn (memBackend fun _ => true) exEnv (exHub exMoves) [.pool 0 Cancel.never, .task 0 false] = 1 := by decide +kernel

/-- The subscription finds event 2, then nothing, and waits; the commit of event 3 wakes it. -/
def exMore : List (Move MemDb) :=
  [.pool 0 Cancel.never, .task 0 false, .task 0 false, .task 2 false, .pool 2 Cancel.never, .pool 2 Cancel.never, .task 2 false,
   .task 2 false, .task 1 false, .pool 1 Cancel.never, .commit (exGrow 1), .pool 1 Cancel.never, .task 1 false, .task 1 false,
   .announce, .task 2 false, .task 2 false, .pool 2 Cancel.never, .pool 2 Cancel.never, .task 2 false, .task 2 false,
   .task 2 false, .task 2 false, .pool 2 Cancel.never, .pool 2 Cancel.never, .task 2 false]

example : ((exHub (exMoves ++ exMore)).tasks.map fun t => (delivered t.sent).map (·.position)) = [[1], [3, 2, 1], [2, 3]] ∧
    (exHub (exMoves ++ exMore)).queue = [] ∧ (exHub (exMoves ++ exMore)).free = 1 ∧ (exHub (exMoves ++ exMore)).version = 1 := by
  decide +kernel

/-- The hypotheses of C67 on the growth of the log are met. -/
example : Course exEnv (memLawful exEnv.H (fun _ => true)) (Hub.init (exGrow 0) 1) (exLog.take 2)
    [.arrive (.subscribe none none none), .commit (exGrow 1), .announce] exLog := by
  refine .snoc (ms := [_, _]) (.snoc (ms := [_]) (.snoc (ms := []) .nil (.other (by simp)))
    (.commit rfl (exRounds.rep 1) (exRounds.grow 1) (exRounds.small 1))) (.other (by simp))

example : readersLimit (some "12".toList) (some 64) = 12 ∧ readersLimit (some "-1".toList) (some 64) = 256 ∧
    readersLimit (some "0".toList) none = 16 ∧ readersLimit none (some 0) = 4 := by decide +kernel

/-- The server is shut down in the middle: everybody ends, nobody sends anything more. -/
example : let h := exHub (exMoves ++ [.shutdown, .task 0 true, .pool 0 Cancel.never, .task 2 false, .pool 2 Cancel.never,
      .task 2 true, .pool 2 Cancel.never, .task 1 false, .task 1 true, .pool 1 Cancel.never])
    h.free = 1 ∧ h.queue = [] ∧ h.tasks.map (fun t => match t.place with | .done => true | _ => false) = [true, true, true] ∧
    h.tasks.map (fun t => t.sent.length) = [0, 0, 0] := by decide +kernel

/-- A database of 2049 events with which the server does not come to rest. -/
example : ∃ ms0 : List (Move MemDb),
    ((Hub.init (sameLog 2049 ⟨exEvent "" [], none⟩) 1).run (memBackend fun _ => true) exEnv ms0).stop = true ∧
      ∀ ms : List (Move MemDb), .leave 0 ∉ ms → .recv 0 ∉ ms →
        ∃ t, (((Hub.init (sameLog 2049 ⟨exEvent "" [], none⟩) 1).run (memBackend fun _ => true) exEnv ms0).run
          (memBackend fun _ => true) exEnv ms).tasks[0]? = some t ∧ t.place ≠ .done := by
  have R := sameRounds 2049 ⟨exEvent "" [], none⟩ (by decide) (by decide)
  have hlog : (R.ss 0).log = List.replicate 2049 ⟨exEvent "" [], none⟩ := R.first
  refine C68_shutdown_false exEnvOk (memLawful exEnv.H (fun _ => true)) (R.rep 0) ?_ ?_ 1 (by decide) <;>
    rw [hlog, List.length_replicate] <;> decide

end Examples

end Uma.Props
