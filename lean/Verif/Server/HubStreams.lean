import Verif.Server.HubOrder

/-! Proofs about the server's scanning calls: what each of them delivers. -/

namespace Uma.Server
open Uma.Db Uma.Spec

variable {δ σ υ ι : Type} {B : Backend δ σ υ ι} {valid : Record → Prop} {env : Env}

/-! ## Courses -/

/-- What a move may do to the committed log: only a commit changes it, by extending it. -/
inductive Legal {H : String → TagHash} (L : Lawful B H valid) (h : Hub δ) (log : Log) : Move δ → Log → Prop
  | commit {d s} : h.pending = false → L.RepD d s → log <+: s.log → s.log.length < u64Max → Legal L h log (.commit d) s.log
  | other {m} : (∀ d, m ≠ .commit d) → Legal L h log m log

/-- The moves `ms` from hub `h0` with log `log0` lead to the second log. -/
inductive Course (env : Env) (L : Lawful B env.H valid) (h0 : Hub δ) (log0 : Log) : List (Move δ) → Log → Prop
  | nil : Course env L h0 log0 [] log0
  | snoc {ms log m log'} : Course env L h0 log0 ms log → Legal L (h0.run B env ms) log m log' →
      Course env L h0 log0 (ms ++ [m]) log'

structure BoardOk {H : String → TagHash} (L : Lawful B H valid) (b : Board δ) (log : Log) : Prop where
  rep : ∃ s, L.RepD b.db s ∧ s.log = log
  small : log.length < u64Max

/-- What others can do to the board. -/
inductive Turn {H : String → TagHash} (L : Lawful B H valid) (b : Board δ) (log : Log) : Board δ → Log → Prop
  | same : Turn L b log b log
  | commit {d s} : b.pending = false → L.RepD d s → log <+: s.log → s.log.length < u64Max →
      Turn L b log { b with db := d, pending := true } s.log
  | announce : b.pending = true → Turn L b log { b with pending := false, version := b.version + 1 } log
  | stop : Turn L b log { b with stop := true } log

theorem legal_turn {H : String → TagHash} {L : Lawful B H valid} {h : Hub δ} {log log' : Log} {m : Move δ}
    (hl : Legal L h log m log') : Turn L h.board log (h.board.after m) log' := by
  cases hl with
  | commit hp hr hx hs =>
    have hp' : h.board.pending = false := hp
    simp only [Board.after, hp', Bool.false_eq_true, if_false]
    exact .commit hp hr hx hs
  | other hm =>
    cases m with
    | commit d => exact absurd rfl (hm d)
    | announce =>
      simp only [Board.after]
      by_cases hp : h.board.pending = true
      · rw [if_pos hp]; exact .announce hp
      · rw [if_neg hp]; exact .same
    | shutdown => exact .stop
    | _ => exact .same

theorem BoardOk.turn {H : String → TagHash} {L : Lawful B H valid} {b b' : Board δ} {log log' : Log} (h : BoardOk L b log)
    (ht : Turn L b log b' log') : BoardOk L b' log' := by
  cases ht with
  | same => exact h
  | commit _ hr _ hs => exact ⟨⟨_, hr, rfl⟩, hs⟩
  | announce _ => exact ⟨h.rep, h.small⟩
  | stop => exact ⟨h.rep, h.small⟩

theorem Turn.grow {H : String → TagHash} {L : Lawful B H valid} {b b' : Board δ} {log log' : Log}
    (ht : Turn L b log b' log') : log <+: log' := by
  cases ht with
  | commit _ _ hx _ => exact hx
  | _ => exact List.prefix_refl _

/-- A property of a task kept by all changes is kept by all courses.  `past`: the databases seen so far. -/
theorem course_task {L : Lawful B env.H valid} {n : Nat} {h0 : Hub δ} {log0 : Log} (hg : GOk n h0.gate)
    (hb : BoardOk L h0.board log0) (P : (δ → Prop) → Board δ → Log → Task → Prop)
    (hmono : ∀ past past' b log t, (∀ d, past d → past' d) → P past b log t → P past' b log t)
    (hturn : ∀ past b log b' log' t, P past b log t → Turn L b log b' log' → P past b' log' t)
    (hchange : ∀ past b log t t' o, past b.db → BoardOk L b log → P past b log t → Change B env b o t t' → P past b log t')
    {i : Nat} {t0 : Task} (hi : h0.tasks[i]? = some t0) (h0P : P (fun d => d = h0.db) h0.board log0 t0)
    {ms : List (Move δ)} {log : Log} (hc : Course env L h0 log0 ms log) :
    BoardOk L (h0.run B env ms).board log ∧
    ∃ t, (h0.run B env ms).tasks[i]? = some t ∧
      P (fun d => ∃ ms', ms' <+: ms ∧ (h0.run B env ms').db = d) (h0.run B env ms).board log t := by
  induction hc with
  | nil =>
    refine ⟨hb, t0, hi, ?_⟩
    exact hmono _ _ _ _ _ (fun d hd => ⟨[], List.prefix_refl _, by rw [hd]; rfl⟩) h0P
  | @snoc ms log m log' hc hl ih =>
    obtain ⟨ihb, t, hti, hP⟩ := ih
    have hg' := gok_run (B := B) (env := env) hg ms
    obtain ⟨h1, h2, h3⟩ := step_change (B := B) (env := env) hg' m
    rw [run_snoc, h1]
    have ht := legal_turn hl
    refine ⟨ihb.turn ht, ?_⟩
    have hlt : i < (h0.run B env ms).tasks.length := (List.getElem?_eq_some_iff.mp hti).1
    obtain ⟨t', ht'⟩ : ∃ t', ((h0.run B env ms).step B env m).tasks[i]? = some t' :=
      ⟨_, List.getElem?_eq_getElem (by omega)⟩
    refine ⟨t', ht', ?_⟩
    have hP' : P (fun d => ∃ ms', ms' <+: ms ∧ (h0.run B env ms').db = d) (h0.run B env ms).board log t' := by
      rcases h3 i t' ht' with ⟨o, u, hu, hch⟩ | ⟨hle, _⟩
      · rw [hti] at hu
        cases hu
        exact hchange _ _ _ _ _ _ ⟨ms, List.prefix_refl _, rfl⟩ ihb hP hch
      · omega
    refine hturn _ _ _ _ _ _ (hmono _ _ _ _ _ ?_ hP') ht
    rintro d ⟨ms', hp, hd⟩
    exact ⟨ms', hp.trans (List.prefix_append _ _), hd⟩

theorem course_board {L : Lawful B env.H valid} {n : Nat} {h0 : Hub δ} {log0 : Log} (hg : GOk n h0.gate)
    (hb : BoardOk L h0.board log0) {ms : List (Move δ)} {log : Log} (hc : Course env L h0 log0 ms log) :
    BoardOk L (h0.run B env ms).board log := by
  induction hc with
  | nil => exact hb
  | @snoc ms log m log' hc hl ih =>
    rw [run_snoc, (step_change (B := B) (env := env) (gok_run (B := B) (env := env) hg ms) m).1]
    exact ih.turn (legal_turn hl)

/-! ## Read streams -/

/-- Databases and cancel flags of the scans of one stream, in order, between two logs. -/
inductive Chain {H : String → TagHash} (L : Lawful B H valid) : Log → List (δ × Cancel) → Log → Prop
  | nil {log log'} : log <+: log' → Chain L log [] log'
  | cons {log log' d c ds s} : L.RepD d s → log <+: s.log → s.log.length < u64Max → Chain L s.log ds log' →
      Chain L log ((d, c) :: ds) log'

theorem Chain.extend {H : String → TagHash} {L : Lawful B H valid} {log log' log'' : Log} {ds : List (δ × Cancel)}
    (h : Chain L log ds log') (hx : log' <+: log'') : Chain L log ds log'' := by
  induction h with
  | nil h => exact .nil (h.trans hx)
  | cons h1 h2 h3 _ ih => exact .cons h1 h2 h3 (ih hx)

theorem Chain.snoc {H : String → TagHash} {L : Lawful B H valid} {log log' : Log} {ds : List (δ × Cancel)}
    (h : Chain L log ds log') {d : δ} {s : Spec.Db} (c : Cancel) (hd : L.RepD d s) (hl : s.log = log')
    (hs : log'.length < u64Max) : Chain L log (ds ++ [(d, c)]) log' := by
  induction h with
  | nil h => subst hl; exact .cons hd h hs (.nil (List.prefix_refl _))
  | cons h1 h2 h3 _ ih => exact .cons h1 h2 h3 (ih hl hs)

theorem Chain.grow {H : String → TagHash} {L : Lawful B H valid} {log log' : Log} {ds : List (δ × Cancel)}
    (h : Chain L log ds log') : log <+: log' := by
  induction h with
  | nil h => exact h
  | cons _ h2 _ _ ih => exact h2.trans ih

theorem Chain.get {H : String → TagHash} {L : Lawful B H valid} {log log' : Log} {ds : List (δ × Cancel)}
    (h : Chain L log ds log') : ∀ (k : Nat) (x : δ × Cancel), ds[k]? = some x → ∃ s, L.RepD x.1 s ∧ log <+: s.log ∧ s.log.length < u64Max := by
  induction h with
  | nil _ => intro k x hx; simp at hx
  | @cons log log' d c ds s h1 h2 h3 _ ih =>
    intro k x hx
    cases k with
    | zero => simp at hx; subst hx; exact ⟨s, h1, h2, h3⟩
    | succ k =>
      simp at hx
      obtain ⟨s', a1, a2, a3⟩ := ih k x hx
      exact ⟨s', a1, h2.trans a2, a3⟩

/-- The messages of successive rounds. -/
def roundsOf (B : Backend δ σ υ ι) (env : Env) (a : ReadArgs) :
    List (δ × Cancel) → ReadState → List (Except Err Response) × Option ReadState
  | [], st => ([], some st)
  | (d, c) :: ds, st =>
    match readRound B env a st d c with
    | (m, none) => (m.toList, none)
    | (m, some st') => (m.toList ++ (roundsOf B env a ds st').1, (roundsOf B env a ds st').2)

theorem roundsOf_snoc (a : ReadArgs) {ds : List (δ × Cancel)} {st0 st : ReadState} {ms : List (Except Err Response)}
    (h : roundsOf B env a ds st0 = (ms, some st)) (d : δ) (c : Cancel) :
    roundsOf B env a (ds ++ [(d, c)]) st0 =
      (ms ++ (readRound B env a st d c).1.toList, (readRound B env a st d c).2) := by
  induction ds generalizing st0 ms with
  | nil =>
    simp only [roundsOf, Prod.mk.injEq, Option.some.injEq] at h
    obtain ⟨h1, h2⟩ := h
    subst h1; subst h2
    simp only [List.nil_append, roundsOf]
    rcases readRound B env a st0 d c with ⟨m, _ | st'⟩
    · rfl
    · simp
  | cons x ds ih =>
    obtain ⟨d', c'⟩ := x
    simp only [roundsOf] at h
    simp only [List.cons_append, roundsOf]
    rcases hr : readRound B env a st0 d' c' with ⟨m, _ | st'⟩
    · simp [hr] at h
    · simp only [hr, Prod.mk.injEq] at h
      obtain ⟨h1, h2⟩ := h
      have := ih (st0 := st') (ms := (roundsOf B env a ds st').1) (Prod.ext rfl h2)
      simp only [this, ← h1, List.append_assoc]

theorem roundsOf_task (a : ReadArgs) (dbs : Nat → δ) (cs : Nat → Cancel) (ds : List (δ × Cancel)) (k : Nat)
    (st : ReadState) (h : ∀ (j : Nat) (x : δ × Cancel), ds[j]? = some x → dbs (k + j) = x.1 ∧ cs (k + j) = x.2) :
    readTask B env a dbs (fun _ => false) cs ds.length k st =
      ((roundsOf B env a ds st).1, (roundsOf B env a ds st).2.isNone) := by
  induction ds generalizing k st with
  | nil => rfl
  | cons x ds ih =>
    obtain ⟨d, c⟩ := x
    have h0 := h 0 (d, c) (by simp)
    simp only [Nat.add_zero] at h0
    simp only [List.length_cons, readTask, Bool.false_eq_true, if_false, h0.1, h0.2, roundsOf]
    rcases readRound B env a st d c with ⟨m, _ | st'⟩
    · rfl
    · simp only
      rw [ih (k + 1) st' (by
        intro j x hx
        have := h (j + 1) x (by simpa using hx)
        rwa [show k + (j + 1) = k + 1 + j by omega] at this)]

/-- A task that has ended gives the same with more fuel. -/
theorem readTask_more (a : ReadArgs) (dbs : Nat → δ) (gone : Nat → Bool) (cs : Nat → Cancel) (fuel more k : Nat)
    (st : ReadState) (h : (readTask B env a dbs gone cs fuel k st).2 = true) :
    readTask B env a dbs gone cs (fuel + more) k st = readTask B env a dbs gone cs fuel k st := by
  induction fuel generalizing k st with
  | zero => simp [readTask] at h
  | succ fuel ih =>
    rw [show fuel + 1 + more = fuel + more + 1 by omega]
    simp only [readTask] at h ⊢
    split
    · rfl
    · rename_i hg
      rw [if_neg hg] at h
      rcases hr : readRound B env a st (dbs k) (cs k) with ⟨m, _ | st'⟩
      · rfl
      · simp only [hr] at h
        simp only
        rw [ih (k + 1) st' h]

theorem onRead_silent (a : ReadArgs) (st : ReadState) (rl : Nat) (res : Except Err (List SeqEvent × Option Nat))
    (h : (onRead a st rl res).1 = none) : (onRead a st rl res).2 = none := by
  cases res with
  | error e => cases e <;> rfl
  | ok p =>
    obtain ⟨events, dbHead⟩ := p
    simp only [onRead] at h ⊢
    generalize events.filter (withinHead (if st.haveCaptured then st.captured else dbHead)) = kept at h ⊢
    generalize (if st.haveCaptured then st.captured else dbHead) = captured at h ⊢
    cases hl : kept.getLast? with
    | none => rfl
    | some last =>
      exfalso
      simp only [hl] at h
      by_cases h1 : events.length % 2 ^ 32 < rl ∨ captured.isSome = true ∧ kept.length < events.length
      · rw [if_pos h1] at h; cases h
      · rw [if_neg h1] at h
        split at h
        · split at h <;> cases h
        · split at h <;> cases h

def away (t : Task) (b : Board δ) : Bool := t.gone || b.stop

/-- Where a read stream is. -/
def ReadAt (B : Backend δ σ υ ι) (env : Env) (a : ReadArgs) (b : Board δ) (t : Task) (st : ReadState) (ds : List (δ × Cancel)) : Prop :=
  match t.place with
  | .top => roundsOf B env a ds (ReadState.init a) = (t.sent, some st)
  | .asking | .holding | .pending | .running =>
    roundsOf B env a ds (ReadState.init a) = (t.sent, some st) ∧ ¬ (a.limit.isSome = true ∧ st.remaining = 0)
  | .found f => ∃ ds' d c, ds = ds' ++ [(d, c)] ∧ roundsOf B env a ds' (ReadState.init a) = (t.sent, some st) ∧
      ¬ (a.limit.isSome = true ∧ st.remaining = 0) ∧ f = (Job.read a st).scan B env d c
  | .sending m next => ∃ e, roundsOf B env a ds (ReadState.init a) = (t.sent ++ [m], e) ∧ next = e.map (Job.read a)
  | .waiting => False
  | .lost => (∃ rest e, roundsOf B env a ds (ReadState.init a) = (t.sent ++ rest, e)) ∧ away t b = true
  | .done => ∃ rest e, roundsOf B env a ds (ReadState.init a) = (t.sent ++ rest, e) ∧
      (away t b = false → rest = [] ∧ e = none)

def ReadInv (env : Env) (L : Lawful B env.H valid) (a : ReadArgs) (log0 : Log) (b : Board δ) (log : Log) (t : Task) : Prop :=
  ∃ st ds, t.job = .read a st ∧ Chain L log0 ds log ∧ (away t b = false → ∀ x ∈ ds, x.2 = Cancel.never) ∧
    ReadAt B env a b t st ds

theorem readAt_some {a : ReadArgs} {b : Board δ} {t : Task} {st : ReadState} {ds : List (δ × Cancel)}
    (h : ReadAt B env a b t st ds) : ∃ rest e, roundsOf B env a ds (ReadState.init a) = (t.sent ++ rest, e) := by
  unfold ReadAt at h
  split at h
  · exact ⟨[], _, by rw [h, List.append_nil]⟩
  iterate 4 exact ⟨[], _, by rw [h.1, List.append_nil]⟩
  · obtain ⟨ds', d, c, rfl, h2, _⟩ := h
    exact ⟨_, _, roundsOf_snoc a h2 d c⟩
  · obtain ⟨e, h1, _⟩ := h
    exact ⟨_, _, h1⟩
  · exact h.elim
  · exact h.1
  · obtain ⟨r, e, h1, _⟩ := h
    exact ⟨r, e, h1⟩

theorem readInv_turn {L : Lawful B env.H valid} {a : ReadArgs} {log0 : Log} {b b' : Board δ} {log log' : Log} {t : Task}
    (h : ReadInv env L a log0 b log t) (ht : Turn L b log b' log') : ReadInv env L a log0 b' log' t := by
  obtain ⟨st, ds, h1, h2, h3, h4⟩ := h
  have hst : away t b' = false → away t b = false := by
    cases ht <;> first | exact id | (simp only [away, Bool.or_true]; intro h; cases h)
  have hst' : away t b = true → away t b' = true := by
    intro h
    cases hx : away t b' with
    | true => rfl
    | false => rw [hst hx] at h; cases h
  refine ⟨st, ds, h1, h2.extend ht.grow, fun h => h3 (hst h), ?_⟩
  revert h4
  unfold ReadAt
  split <;> try exact id
  · rintro ⟨h, h'⟩; exact ⟨h, hst' h'⟩
  · rintro ⟨r, e, h, h'⟩; exact ⟨r, e, h, fun hx => h' (hst hx)⟩

theorem readInv_change {L : Lawful B env.H valid} {a : ReadArgs} {log0 : Log} {b : Board δ} {log : Log} {t t' : Task}
    (hb : BoardOk L b log) (h : ReadInv env L a log0 b log t) {o : Bool} (hc : Change B env b o t t') : ReadInv env L a log0 b log t' := by
  obtain ⟨st, ds, h1, h2, h3, h4⟩ := h
  obtain ⟨s, hs, hsl⟩ := hb.rep
  have h4' := h4
  cases hc with
  | same => exact ⟨st, ds, h1, h2, h3, h4⟩
  | gone =>
    refine ⟨st, ds, h1, h2, by simp [away], ?_⟩
    revert h4
    unfold ReadAt
    simp only
    split <;> try exact id
    · rintro ⟨h, h'⟩; exact ⟨h, by simp [away]⟩
    · rintro ⟨r, e, h, h'⟩; exact ⟨r, e, h, by simp [away]⟩
  | recv => exact ⟨st, ds, h1, h2, h3, h4⟩
  | granted hp =>
    simp only [ReadAt, hp] at h4
    exact ⟨st, ds, h1, h2, h3, h4⟩
  | quit hq _ _ =>
    obtain ⟨r, e, hr⟩ := readAt_some h4
    refine ⟨st, ds, h1, h2, h3, r, e, hr, ?_⟩
    intro hx
    have hx : (t.gone || b.stop) = false := hx
    rw [hq.1] at hx; cases hx
  | spent hp hj hl hr =>
    rw [h1] at hj; cases hj
    simp only [ReadAt, hp] at h4
    refine ⟨st, ds ++ [(b.db, Cancel.never)], h1, h2.snoc _ hs hsl hb.small, ?_, [], none, ?_, fun _ => ⟨rfl, rfl⟩⟩
    · intro hx x hm
      rcases List.mem_append.mp hm with hm | hm
      · exact h3 hx x hm
      · simp at hm; rw [hm]
    · rw [roundsOf_snoc a h4]
      simp [readRound, hl, hr]
  | ask hp hu =>
    simp only [ReadAt, hp] at h4
    exact ⟨st, ds, h1, h2, h3, h4, hu a st h1⟩
  | take hp hu =>
    simp only [ReadAt, hp] at h4
    exact ⟨st, ds, h1, h2, h3, h4, hu a st h1⟩
  | arm hp hj => rw [h1] at hj; cases hj
  | spawn hp _ =>
    simp only [ReadAt, hp] at h4
    exact ⟨st, ds, h1, h2, h3, h4⟩
  | lose hq hp =>
    obtain ⟨r, e, hr⟩ := readAt_some h4
    exact ⟨st, ds, h1, h2, h3, ⟨r, e, hr⟩, hq.1⟩
  | start hp =>
    simp only [ReadAt, hp] at h4
    exact ⟨st, ds, h1, h2, h3, h4⟩
  | drop hp =>
    simp only [ReadAt, hp] at h4
    obtain ⟨⟨r, e, hr⟩, hq⟩ := h4
    refine ⟨st, ds, h1, h2, h3, r, e, hr, ?_⟩
    intro hx
    have hx : away t b = false := hx
    rw [hq] at hx; cases hx
  | scan c hp hcv =>
    simp only [ReadAt, hp] at h4
    refine ⟨st, ds ++ [(b.db, c)], h1, h2.snoc _ hs hsl hb.small, ?_, ds, b.db, c, rfl, h4.1, h4.2, by rw [h1]⟩
    intro hx x hm
    rcases List.mem_append.mp hm with hm | hm
    · exact h3 hx x hm
    · simp at hm; rw [hm]; exact hcv hx
  | settle hp =>
    simp only [ReadAt, hp] at h4
    obtain ⟨ds', d, c, rfl, hr, hns, rfl⟩ := h4
    have hround := roundsOf_snoc a hr d c
    have hrr : readRound B env a st d c = onRead a st (min st.remaining a.batch)
        (handlerRead B env d a.query st.nextStart a.backwards (some (min st.remaining a.batch)) c) := by
      unfold readRound
      rw [if_neg hns]
    have hsil := onRead_silent a st (min st.remaining a.batch)
        (handlerRead B env d a.query st.nextStart a.backwards (some (min st.remaining a.batch)) c)
    simp only [Task.settle, Job.scan, h1]
    rw [hrr] at hround
    rcases ho : onRead a st (min st.remaining a.batch)
        (handlerRead B env d a.query st.nextStart a.backwards (some (min st.remaining a.batch)) c) with ⟨_ | m, e⟩
    · rw [ho] at hround hsil
      simp at hsil
      subst hsil
      exact ⟨st, _, rfl, h2, h3, [], none, by simpa using hround, fun _ => ⟨rfl, rfl⟩⟩
    · rw [ho] at hround
      exact ⟨st, _, rfl, h2, h3, e, by simpa using hround, rfl⟩
  | sendLast hp _ =>
    simp only [ReadAt, hp] at h4
    obtain ⟨e, hr, he⟩ := h4
    refine ⟨st, ds, h1, h2, h3, [], e, by simpa using hr, fun _ => ⟨rfl, ?_⟩⟩
    cases e with
    | none => rfl
    | some _ => cases he
  | send hp _ =>
    simp only [ReadAt, hp] at h4
    obtain ⟨e, hr, he⟩ := h4
    cases e with
    | none => cases he
    | some st' =>
      simp at he
      exact ⟨st', ds, he, h2, h3, by simpa [ReadAt] using hr⟩
  | wake hp _ => simp only [ReadAt, hp] at h4

/-- The stream is one of the single-stream model. -/
theorem readInv_stream {L : Lawful B env.H valid} {a : ReadArgs} {log0 : Log} {b : Board δ} {log : Log} {t : Task}
    (hb : BoardOk L b log) (h : ReadInv env L a log0 b log t) :
    ∃ logs dbs cs fuel, Nonempty (Rounds L dbs logs) ∧ log0 <+: logs ∧ logs <+: log ∧
      (t.sent <+: (readTask B env a dbs (fun _ => false) cs fuel 0 (ReadState.init a)).1) ∧
      (t.place = .done → away t b = false →
        readTask B env a dbs (fun _ => false) cs fuel 0 (ReadState.init a) = (t.sent, true) ∧ ∀ k j, cs k j = false) := by
  obtain ⟨st, ds, _, h2, h3, h4⟩ := h
  obtain ⟨r, e, hr⟩ := readAt_some h4
  obtain ⟨s, hs, hsl⟩ := hb.rep
  have hdone : t.place = .done → away t b = false → roundsOf B env a ds (ReadState.init a) = (t.sent, none) := by
    intro hp ha
    simp only [ReadAt, hp] at h4
    obtain ⟨r, e, h5, h6⟩ := h4
    obtain ⟨rfl, rfl⟩ := h6 ha
    simpa using h5
  cases ds with
  | nil =>
    have hsent : t.sent = [] := by
      simp only [roundsOf, Prod.mk.injEq] at hr
      have := congrArg List.length hr.1
      simp at this
      exact List.eq_nil_of_length_eq_zero (by omega)
    refine ⟨log, fun _ => b.db, fun _ => Cancel.never, 0, ⟨⟨fun _ => s, fun _ => hs, hsl, fun _ => by rw [hsl]; exact List.prefix_refl _, fun _ => by rw [hsl]; exact hb.small⟩⟩,
      h2.grow, List.prefix_refl _, by rw [hsent]; exact List.nil_prefix, ?_⟩
    intro hp ha
    have := hdone hp ha
    simp [roundsOf] at this
  | cons x ds =>
    obtain ⟨d, c⟩ := x
    cases h2 with
    | @cons _ _ _ _ _ s1 g1 g2 g3 g4 =>
      have hget : ∀ k, ∃ s, L.RepD ((((d, c) :: ds).getD k (d, c)).1) s ∧ s1.log <+: s.log ∧ s.log.length < u64Max ∧
          (k = 0 → s.log = s1.log) := by
        intro k
        cases k with
        | zero => exact ⟨s1, g1, List.prefix_refl _, g3, fun _ => rfl⟩
        | succ k =>
          cases hk : ds[k]? with
          | none =>
            refine ⟨s1, ?_, List.prefix_refl _, g3, fun h => by cases h⟩
            simpa [List.getD, hk] using g1
          | some x =>
            obtain ⟨s', a1, a2, a3⟩ := g4.get k x hk
            refine ⟨s', ?_, a2, a3, fun h => by cases h⟩
            simpa [List.getD, hk] using a1
      have htask := roundsOf_task (B := B) (env := env) a (fun k => (((d, c) :: ds).getD k (d, c)).1)
        (fun k => (((d, c) :: ds).getD k (d, c)).2) ((d, c) :: ds) 0 (ReadState.init a) (by
          intro j x hx
          simp [List.getD, hx])
      refine ⟨s1.log, fun k => (((d, c) :: ds).getD k (d, c)).1, fun k => (((d, c) :: ds).getD k (d, c)).2, ds.length + 1,
        ⟨⟨fun k => Classical.choose (hget k), fun k => (Classical.choose_spec (hget k)).1,
          (Classical.choose_spec (hget 0)).2.2.2 rfl, fun k => (Classical.choose_spec (hget k)).2.1,
          fun k => (Classical.choose_spec (hget k)).2.2.1⟩⟩, g2, g4.grow, ?_, ?_⟩
      · rw [List.length_cons] at htask
        rw [htask, hr]
        exact List.prefix_append _ _
      · intro hp ha
        rw [List.length_cons] at htask
        rw [htask, hdone hp ha]
        refine ⟨rfl, ?_⟩
        intro k j
        have hall := h3 ha
        have : (((d, c) :: ds).getD k (d, c)).2 = Cancel.never := by
          simp only [List.getD]
          cases hk : ((d, c) :: ds)[k]? with
          | none => exact hall _ (List.mem_cons_self ..)
          | some x => exact hall x (List.mem_of_getElem? hk)
        show (((d, c) :: ds).getD k (d, c)).2 j = false
        rw [this]; rfl

/-! ## Subscriptions -/

/-- The phase of the single-subscription model a task is in. -/
def PhaseOf (query : Option Query) (batch : Nat) (t : Task) (ph : SubPhase) : Prop :=
  match t.place with
  | .top | .asking | .holding => ph = .top
  | .pending | .running => ph = .armed t.seen
  | .found f => ∃ events head, f = .events (.ok (events, head)) ∧ ph = .got t.seen events
  | .sending m next => ∃ events last, m = .ok ⟨events, none⟩ ∧ events.getLast? = some last ∧
      next = (if last.position = u64Max then none else some (.sub query batch (some (advance false last.position)))) ∧
      ph = .got t.seen events
  | .waiting => ph = .waiting t.seen
  | .lost | .done => False

def worldOf (b : Board δ) (t : Task) (x : Option Nat) (ph : SubPhase) : World δ :=
  ⟨b.db, b.pending, b.version, ph, x, delivered t.sent⟩

def SubTask {H : String → TagHash} (L : Lawful B H valid) (query : Option Query) (start0 : Option Nat) (batch : Nat)
    (b : Board δ) (log : Log) (t : Task) : Prop :=
  ∃ x, t.job = .sub query batch x ∧ delivered t.sent <+: todo log (query.getD ⟨[]⟩) false start0 ∧
    ((away t b = true ∧ (t.place = .done ∨ t.place = .lost ∨ t.place = .found (.events (.error .cancelledByUser)))) ∨
     ∃ ph, PhaseOf query batch t ph ∧
      SubInv L (query.getD ⟨[]⟩) start0 batch (worldOf b t x ph) log b.pending false)

theorem subTask_turn (he : EnvOk env) {L : Lawful B env.H valid} {query : Option Query} {start0 : Option Nat} {batch : Nat}
    (hbt : 0 < batch) {b b' : Board δ} {log log' : Log} {t : Task}
    (h : SubTask L query start0 batch b log t) (ht : Turn L b log b' log') : SubTask L query start0 batch b' log' t := by
  obtain ⟨x, h1, h2, h3⟩ := h
  refine ⟨x, h1, h2.trans (todo_prefix ht.grow _ _), ?_⟩
  rcases h3 with ⟨ha, hp⟩ | ⟨ph, hph, hi⟩
  · left
    refine ⟨?_, hp⟩
    cases ht <;> first | exact ha | simp [away]
  · right
    refine ⟨ph, hph, ?_⟩
    cases ht with
    | same => exact hi
    | @commit d s hp hr hx hs =>
      have hi' := hi
      rw [hp] at hi'
      have := subInv_run he L query start0 batch hbt (qt0 := false) (History.commit hr hx hs History.nil) hi'
      simpa [runWorld, worldStep, worldOf, hp] using this
    | announce hp =>
      have hi' := hi
      rw [hp] at hi'
      have := subInv_run he L query start0 batch hbt (qt0 := false) (History.announce History.nil) hi'
      simpa [runWorld, worldStep, worldOf, hp] using this
    | stop => exact hi

theorem subTask_change (he : EnvOk env) {L : Lawful B env.H valid} {query : Option Query} {start0 : Option Nat} {batch : Nat}
    (hbt : 0 < batch) {b : Board δ} {log : Log} {t t' : Task} (hb : BoardOk L b log)
    (h : SubTask L query start0 batch b log t) {o : Bool} (hc : Change B env b o t t') : SubTask L query start0 batch b log t' := by
  obtain ⟨x, h1, h2, h3⟩ := h
  have hstep : ∀ ph c, SubInv L (query.getD ⟨[]⟩) start0 batch (worldOf b t x ph) log b.pending false →
      SubInv L (query.getD ⟨[]⟩) start0 batch ((subStep B env query batch c (worldOf b t x ph)).getD (worldOf b t x ph)) log
        b.pending false := fun ph c hi => subInv_step he L query start0 batch hbt c (fun _ => rfl) hi
  have hrest : ∀ p : Place, (∀ ph, PhaseOf query batch t ph → PhaseOf query batch { t with place := p } ph) →
      t.place ≠ .done → t.place ≠ .lost → (∀ f, t.place ≠ .found f) →
      SubTask L query start0 batch b log { t with place := p } := by
    intro p hph n1 n2 n3
    refine ⟨x, h1, h2, ?_⟩
    rcases h3 with ⟨_, hp | hp | hp⟩ | ⟨ph, hph', hi⟩
    · exact absurd hp n1
    · exact absurd hp n2
    · exact absurd hp (n3 _)
    · exact Or.inr ⟨ph, hph ph hph', hi⟩
  cases hc with
  | same => exact ⟨x, h1, h2, h3⟩
  | gone =>
    refine ⟨x, h1, h2, ?_⟩
    rcases h3 with ⟨_, hp⟩ | ⟨ph, hph, hi⟩
    · exact Or.inl ⟨by simp [away], hp⟩
    · exact Or.inr ⟨ph, hph, hi⟩
  | recv => exact ⟨x, h1, h2, h3⟩
  | granted hp => exact hrest _ (fun ph h => by simpa [PhaseOf, hp] using h) (by simp [hp]) (by simp [hp]) (by simp [hp])
  | quit hq _ _ => exact ⟨x, h1, h2, Or.inl ⟨hq.1, Or.inl rfl⟩⟩
  | spent hp hj _ _ => rw [h1] at hj; cases hj
  | ask hp _ => exact hrest _ (fun ph h => by simpa [PhaseOf, hp] using h) (by simp [hp]) (by simp [hp]) (by simp [hp])
  | take hp _ => exact hrest _ (fun ph h => by simpa [PhaseOf, hp] using h) (by simp [hp]) (by simp [hp]) (by simp [hp])
  | arm hp hj =>
    refine ⟨x, h1, h2, ?_⟩
    rcases h3 with ⟨_, hx | hx | hx⟩ | ⟨ph, hph, hi⟩
    · rw [hp] at hx; cases hx
    · rw [hp] at hx; cases hx
    · rw [hp] at hx; cases hx
    · right
      simp only [PhaseOf, hp] at hph
      subst hph
      exact ⟨.armed b.version, rfl, hstep _ Cancel.never hi⟩
  | spawn hp hn => exact absurd h1 (hn _ _ _)
  | lose hq _ => exact ⟨x, h1, h2, Or.inl ⟨hq.1, Or.inr (Or.inl rfl)⟩⟩
  | start hp => exact hrest _ (fun ph h => by simpa [PhaseOf, hp] using h) (by simp [hp]) (by simp [hp]) (by simp [hp])
  | drop hp =>
    refine ⟨x, h1, h2, ?_⟩
    rcases h3 with ⟨ha, _⟩ | ⟨ph, hph, hi⟩
    · exact Or.inl ⟨ha, Or.inl rfl⟩
    · simp only [PhaseOf, hp] at hph
  | scan c hp hcv =>
    refine ⟨x, h1, h2, ?_⟩
    rcases h3 with ⟨_, hx | hx | hx⟩ | ⟨ph, hph, hi⟩
    · rw [hp] at hx; cases hx
    · rw [hp] at hx; cases hx
    · rw [hp] at hx; cases hx
    · simp only [PhaseOf, hp] at hph
      subst hph
      obtain ⟨s, hs, hsl⟩ := hb.rep
      simp only [h1, Job.scan]
      rcases handlerRead_spec he L hs query x false (some batch) c with hr | ⟨hr, j, hj⟩
      · right
        rw [hr]
        refine ⟨.got t.seen _, ⟨_, _, rfl, rfl⟩, ?_⟩
        have := hstep _ c hi
        simpa [subStep, worldOf, hr] using this
      · left
        rw [hr]
        refine ⟨?_, Or.inr (Or.inr rfl)⟩
        show (t.gone || b.stop) = true
        cases ha : (t.gone || b.stop) with
        | true => rfl
        | false => rw [hcv ha] at hj; cases hj
  | settle hp =>
    rcases h3 with ⟨ha, hx | hx | hx⟩ | ⟨ph, hph, hi⟩
    · rw [hp] at hx; cases hx
    · rw [hp] at hx; cases hx
    · rw [hp] at hx; cases hx
      simp only [Task.settle, h1]
      exact ⟨x, rfl, h2, Or.inl ⟨ha, Or.inl rfl⟩⟩
    · simp only [PhaseOf, hp] at hph
      obtain ⟨events, head, rfl, rfl⟩ := hph
      simp only [Task.settle, h1]
      cases hl : events.getLast? with
      | none =>
        refine ⟨x, rfl, h2, Or.inr ⟨.waiting t.seen, rfl, ?_⟩⟩
        have := hstep _ Cancel.never hi
        simpa [subStep, worldOf, hl] using this
      | some last =>
        exact ⟨x, rfl, h2, Or.inr ⟨.got t.seen events, ⟨events, last, rfl, hl, rfl, rfl⟩, hi⟩⟩
  | sendLast hp _ =>
    rcases h3 with ⟨ha, hx | hx | hx⟩ | ⟨ph, hph, hi⟩
    · rw [hp] at hx; cases hx
    · rw [hp] at hx; cases hx
    · rw [hp] at hx; cases hx
    · exfalso
      simp only [PhaseOf, hp] at hph
      obtain ⟨events, last, rfl, hl, hn, rfl⟩ := hph
      obtain ⟨snap, hf, hev⟩ := hi.phase
      have hmem : last ∈ todo log (query.getD ⟨[]⟩) false x := by
        have : events <+: todo log (query.getD ⟨[]⟩) false x := by
          rw [hev]; exact (List.take_prefix _ _).trans (todo_prefix hf.1 _ _)
        exact this.subset (List.mem_of_getLast? hl)
      have := Nat.lt_of_le_of_lt (mem_todo hmem).2.1 hb.small
      rw [if_neg (Nat.ne_of_lt this)] at hn
      cases hn
  | send hp _ =>
    rcases h3 with ⟨ha, hx | hx | hx⟩ | ⟨ph, hph, hi⟩
    · rw [hp] at hx; cases hx
    · rw [hp] at hx; cases hx
    · rw [hp] at hx; cases hx
    · simp only [PhaseOf, hp] at hph
      obtain ⟨events, last, rfl, hl, hn, rfl⟩ := hph
      by_cases hm : last.position = u64Max
      · rw [if_pos hm] at hn; cases hn
      · rw [if_neg hm] at hn
        cases hn
        have := hstep _ Cancel.never hi
        simp only [subStep, worldOf, hl, if_neg hm, Option.getD_some] at this
        have hd : delivered (t.sent ++ [.ok ⟨events, none⟩]) = delivered t.sent ++ events := by simp [delivered]
        refine ⟨_, rfl, ?_, Or.inr ⟨.top, rfl, ?_⟩⟩
        · rw [hd]; exact this.prefx
        · simp only [worldOf, hd]; exact this
  | wake hp _ =>
    refine ⟨x, h1, h2, ?_⟩
    rcases h3 with ⟨_, hx | hx | hx⟩ | ⟨ph, hph, hi⟩
    · rw [hp] at hx; cases hx
    · rw [hp] at hx; cases hx
    · rw [hp] at hx; cases hx
    · simp only [PhaseOf, hp] at hph
      subst hph
      exact Or.inr ⟨.top, rfl, ⟨hi.rep, hi.small, hi.pend, hi.prefx, fun _ => hi.cursor (by simp [worldOf]), trivial⟩⟩

/-! ## Tracking -/

def TrackTask {H : String → TagHash} (L : Lawful B H valid) (source : String) (past : δ → Prop) (t : Task) : Prop :=
  t.job = .track source ∧ t.sent = [] ∧
  (∀ r, t.answer = some r → ∃ d s, past d ∧ L.RepD d s ∧ r = .ok (s.track source)) ∧
  match t.place with
  | .found f => ∃ d s, past d ∧ L.RepD d s ∧ f = .position (.ok (s.track source))
  | .sending _ _ | .waiting => False
  | .lost => t.gone = true
  | .done => t.gone = false → t.answer.isSome = true
  | _ => True

theorem trackTask_change {L : Lawful B env.H valid} {source : String} {past : δ → Prop} {b : Board δ} {log : Log}
    {t t' : Task} (hpast : past b.db) (hb : BoardOk L b log) (h : TrackTask L source past t)
    {o : Bool} (hc : Change B env b o t t') : TrackTask L source past t' := by
  obtain ⟨h1, h2, h3, h4⟩ := h
  cases hc with
  | same => exact ⟨h1, h2, h3, h4⟩
  | gone =>
    refine ⟨h1, h2, h3, ?_⟩
    revert h4
    simp only
    cases t.place <;> try exact id
    · intro _; trivial
    · intro _ h; cases h
  | recv => exact ⟨h1, h2, h3, h4⟩
  | granted hp => exact ⟨h1, h2, h3, trivial⟩
  | quit hq _ _ =>
    refine ⟨h1, h2, h3, ?_⟩
    intro hx
    have hx : t.gone = false := hx
    rw [hq.2 _ h1] at hx; cases hx
  | spent _ hj _ _ => rw [h1] at hj; cases hj
  | ask _ _ => exact ⟨h1, h2, h3, trivial⟩
  | take _ _ => exact ⟨h1, h2, h3, trivial⟩
  | arm _ hj => rw [h1] at hj; cases hj
  | spawn _ _ => exact ⟨h1, h2, h3, trivial⟩
  | lose hq _ => exact ⟨h1, h2, h3, hq.2 _ h1⟩
  | start _ => exact ⟨h1, h2, h3, trivial⟩
  | drop hp =>
    refine ⟨h1, h2, h3, ?_⟩
    simp only [hp] at h4
    intro hx
    have hx : t.gone = false := hx
    rw [h4] at hx; cases hx
  | scan c hp _ =>
    obtain ⟨s, hs, _⟩ := hb.rep
    refine ⟨h1, h2, h3, b.db, s, hpast, hs, ?_⟩
    rw [h1, Job.scan, L.trackR _ hs]
  | settle hp =>
    simp only [hp] at h4
    obtain ⟨d, s, h5, h6, rfl⟩ := h4
    refine ⟨h1, h2, ?_, fun _ => rfl⟩
    intro r hr
    cases hr
    exact ⟨d, s, h5, h6, rfl⟩
  | sendLast hp _ => simp only [hp] at h4
  | send hp _ => simp only [hp] at h4
  | wake hp _ => simp only [hp] at h4

/-! ## A client that does not take its messages -/

theorem frozen_step {n : Nat} {h : Hub δ} (hg : GOk n h.gate) {i : Nat} {t : Task} (hi : h.tasks[i]? = some t)
    (hp : ∃ m next, t.place = .sending m next) (hgone : t.gone = false) (hq : 2048 ≤ t.queued) (m : Move δ)
    (hm : m ≠ .leave i) (hm' : m ≠ .recv i) : (h.step B env m).tasks[i]? = some t := by
  have hfix : ∀ t', Change B env h.board true t t' → t' = t := by
    intro t' hc
    obtain ⟨m, next, hp⟩ := hp
    cases hc with
    | same => rfl
    | quit _ hx _ => rw [hx m next hp] at hgone; cases hgone
    | granted h' => rw [hp] at h'; cases h'
    | spent h' => rw [hp] at h'; cases h'
    | ask h' => rw [hp] at h'; cases h'
    | take h' => rw [hp] at h'; cases h'
    | arm h' => rw [hp] at h'; cases h'
    | spawn h' => rw [hp] at h'; cases h'
    | lose _ h' => rw [hp] at h'; rcases h' with h' | h' <;> cases h'
    | start h' => rw [hp] at h'; cases h'
    | drop h' => rw [hp] at h'; cases h'
    | scan _ h' => rw [hp] at h'; cases h'
    | settle h' => rw [hp] at h'; cases h'
    | sendLast _ h' => omega
    | send _ h' => omega
    | wake h' => rw [hp] at h'; cases h'
  have hown : ∀ h' : Hub δ, h'.tasks.length = h.tasks.length →
      (∀ (j : Nat) (u' : Task), h'.tasks[j]? = some u' → ∃ u : Task, h.tasks[j]? = some u ∧ Change B env h.board true u u') →
      h'.tasks[i]? = some t := by
    intro h' hl hx
    have hlt : i < h.tasks.length := (List.getElem?_eq_some_iff.mp hi).1
    have hget : h'.tasks[i]? = some (h'.tasks[i]'(by omega)) := List.getElem?_eq_getElem (by omega)
    obtain ⟨u, hu, hc⟩ := hx i _ hget
    rw [hi] at hu
    cases hu
    rw [hget, hfix _ hc]
  unfold Hub.step
  cases m with
  | arrive v =>
    have hlt : i < h.tasks.length := (List.getElem?_eq_some_iff.mp hi).1
    simp only [Hub.step?, Option.getD_some, List.getElem?_append, hlt, if_true, hi]
  | leave j =>
    have : j ≠ i := fun e => hm (by rw [e])
    simp [Hub.step?, this, hi]
  | recv j =>
    have : j ≠ i := fun e => hm' (by rw [e])
    simp [Hub.step?, this, hi]
  | commit d => simp only [Hub.step?]; split <;> exact hi
  | announce => simp only [Hub.step?]; split <;> exact hi
  | shutdown => exact hi
  | task j quit =>
    simp only [Hub.step?]
    cases hs : h.taskStep j quit with
    | none => exact hi
    | some h' =>
      obtain ⟨_, h2, h3⟩ := taskStep_change (B := B) (env := env) hg hs
      exact hown h' h2 h3
  | pool j c =>
    simp only [Hub.step?]
    cases hs : h.poolStep B env j c with
    | none => exact hi
    | some h' =>
      obtain ⟨_, h2, h3⟩ := poolStep_change (B := B) (env := env) hg hs
      exact hown h' h2 h3

theorem frozen_run {n : Nat} {h : Hub δ} (hg : GOk n h.gate) {i : Nat} {t : Task} (hi : h.tasks[i]? = some t)
    (hp : ∃ m next, t.place = .sending m next) (hgone : t.gone = false) (hq : 2048 ≤ t.queued) (ms : List (Move δ))
    (hm : .leave i ∉ ms) (hm' : .recv i ∉ ms) : (h.run B env ms).tasks[i]? = some t := by
  induction ms generalizing h with
  | nil => exact hi
  | cons m ms ih =>
    rw [run_cons]
    refine ih (hg.step (step_gate h m)) (frozen_step hg hi hp hgone hq m ?_ ?_) ?_ ?_
    · rintro rfl; exact hm (List.mem_cons_self ..)
    · rintro rfl; exact hm' (List.mem_cons_self ..)
    · exact fun h => hm (List.mem_cons_of_mem _ h)
    · exact fun h => hm' (List.mem_cons_of_mem _ h)

/-- Read everything, one event per message. -/
def oneByOne : ReadArgs := ⟨none, none, false, none, 1⟩

def loneHub (d : δ) (n : Nat) (st : ReadState) (p : Place) (k : Nat) (sent : List (Except Err Response)) : Hub δ :=
  ⟨d, false, 0, false, n + 1, [], [⟨.read oneByOne st, p, 0, false, k, sent, none⟩]⟩

def oneScan : List (Move δ) := [.task 0 false, .task 0 false, .pool 0 Cancel.never, .pool 0 Cancel.never, .task 0 false]

theorem lone_scan (d : δ) (n : Nat) (st st' : ReadState) (k : Nat) (sent : List (Except Err Response)) (m : Except Err Response)
    (hr : onRead oneByOne st (min st.remaining 1)
      (handlerRead B env d none st.nextStart false (some (min st.remaining 1)) Cancel.never) = (some m, some st')) :
    (loneHub d n st .top k sent).run B env oneScan = loneHub d n st (.sending m (some (.read oneByOne st'))) k sent := by
  simp only [oneByOne] at hr
  simp [Hub.run, oneScan, Hub.step, Hub.step?, loneHub, Hub.taskStep, Hub.poolStep, Hub.acquire, Hub.put, Hub.release,
    oneByOne, Job.scan, Task.settle, Task.quits, hr]

theorem lone_send (d : δ) (n : Nat) (st st' : ReadState) (k : Nat) (hk : k < 2048) (sent : List (Except Err Response))
    (m : Except Err Response) :
    (loneHub d n st (.sending m (some (.read oneByOne st'))) k sent).run B env [.task 0 false] =
      loneHub d n st' .top (k + 1) (sent ++ [m]) := by
  simp [Hub.run, Hub.step, Hub.step?, loneHub, Hub.taskStep, Hub.put, hk]

/-- Where the stream stands after `k` messages. -/
def Along (log : Log) (k : Nat) (st : ReadState) : Prop :=
  (todo log ⟨[]⟩ false st.nextStart).length + k = log.length ∧ st.remaining = u32Max ∧
    (st.haveCaptured = true → st.captured = Spec.head log)

theorem lone_round (he : EnvOk env) (L : Lawful B env.H valid) {d : δ} {s : Spec.Db} (hd : L.RepD d s)
    (hs : s.log.length < u64Max) {k : Nat} (hk : k < s.log.length) {st : ReadState} (hst : Along s.log k st) :
    ∃ m st', onRead oneByOne st (min st.remaining 1)
      (handlerRead B env d none st.nextStart false (some (min st.remaining 1)) Cancel.never) = (some m, some st') ∧
      Along s.log (k + 1) st' := by
  obtain ⟨h1, h2, h3⟩ := hst
  have hr : handlerRead B env d none st.nextStart false (some (min st.remaining 1)) Cancel.never =
      .ok (Spec.read s.log ⟨[]⟩ st.nextStart false (some 1), Spec.head s.log) := by
    rcases handlerRead_spec he L hd none st.nextStart false (some (min st.remaining 1)) Cancel.never with h | ⟨_, j, hj⟩
    · rw [h, h2]; rfl
    · cases hj
  rw [hr, read_eq_todo]
  cases hrest : todo s.log ⟨[]⟩ false st.nextStart with
  | nil => rw [hrest] at h1; simp at h1; omega
  | cons e rest =>
    have hadv := todo_advance (l := []) hs hrest
    have hmem : e ∈ todo s.log ⟨[]⟩ false st.nextStart := by rw [hrest]; simp
    have hpos := (mem_todo hmem).2.1
    have hcap : (if st.haveCaptured then st.captured else Spec.head s.log) = some s.log.length := by
      have hh : Spec.head s.log = some s.log.length := by
        unfold Spec.head
        cases hl : s.log with
        | nil => rw [hl] at hk; simp at hk
        | cons a l => simp
      split
      · rename_i hc; rw [h3 hc, hh]
      · exact hh
    simp only [onRead, applyLimit, List.take_succ_cons, List.take_zero, hcap, h2]
    refine ⟨.ok ⟨[e], some s.log.length⟩, ⟨some (advance false e.position), true, u32Max, some s.log.length, true⟩, ?_, ?_⟩
    · have hw : withinHead (some s.log.length) e = true := by simp [withinHead, hpos]
      simp [hw, oneByOne, u32Max]
    · refine ⟨?_, rfl, ?_⟩
      · simp only [hadv]
        rw [hrest] at h1
        simp at h1
        omega
      · intro _
        have : (if st.haveCaptured then st.captured else Spec.head s.log) = Spec.head s.log := by
          split
          · rename_i hc; exact h3 hc
          · rfl
        rw [← this, hcap]

theorem lone_run (he : EnvOk env) (L : Lawful B env.H valid) {d : δ} {s : Spec.Db} (hd : L.RepD d s)
    (hs : s.log.length < u64Max) (n : Nat) (k : Nat) (hk : k < s.log.length) (hk' : k ≤ 2048) :
    ∃ ms : List (Move δ), ∃ st sent, (loneHub d n (ReadState.init oneByOne) .top 0 []).run B env ms = loneHub d n st .top k sent ∧
      sent.length = k ∧ Along s.log k st ∧ .leave 0 ∉ ms ∧ .recv 0 ∉ ms := by
  induction k with
  | zero =>
    refine ⟨[], ReadState.init oneByOne, [], rfl, rfl, ⟨?_, rfl, by simp [ReadState.init]⟩, by simp, by simp⟩
    have : todo s.log ⟨[]⟩ false (ReadState.init oneByOne).nextStart = sequenced s.log := by
      have h1 : ∀ e : SeqEvent, decide (InRange none false e.position) = true := fun e => decide_eq_true trivial
      have h2 : ∀ e : SeqEvent, decide (Matches ⟨[]⟩ e.event) = true := fun e => decide_eq_true (Or.inl rfl)
      show todo s.log ⟨[]⟩ false none = _
      simp only [todo, ordered, Bool.false_eq_true, if_false]
      rw [List.filter_eq_self.mpr (fun e _ => h1 e), List.filter_eq_self.mpr (fun e _ => h2 e)]
    rw [this]
    simp [sequenced]
  | succ k ih =>
    obtain ⟨ms, st, sent, h1, h2, h3, h4, h5⟩ := ih (by omega) (by omega)
    obtain ⟨m, st', h6, h7⟩ := lone_round he L hd hs (by omega) h3
    refine ⟨ms ++ (oneScan ++ [.task 0 false]), st', sent ++ [m], ?_, by simp [h2], h7, by simp [h4, oneScan], by simp [h5, oneScan]⟩
    rw [run_append, run_append, h1, lone_scan d n st st' k sent m h6, lone_send d n st st' k (by omega)]

end Uma.Server
