import Verif.Props.Readers
import Verif.Spec.History

/-!
# Clients, the writer thread, readers and crashes: histories

The transition system of `Verif/Page/Readers.lean` together with the queue of the writer thread, the answers it sends
(umadb-core/src/writer_thread_blocking.rs), and a record of when calls begin and return.

Simplifications.  An answer that was sent reaches its client at some later time, or never (a crash).  The head is announced
in the same instant in which the commit succeeds (writer_thread_blocking.rs 152-156).  A reader's answer is computed from the
pages as they are at the end of the call; that it does not matter when each page is read is C17.
-/

namespace Uma.Page
open Uma.Codec Uma.Mvcc Uma.Spec

/-- What a reader with the header `h` answers when it finds the pages `v`: `UmaDb::read` (db.rs 151-197), `head` (199-212),
`get_tracking_info` (45-77). -/
def lookAt (c : Conf) (env : Db.Env) (v : Nat → Option Node) (h : Header) : Look → Except Err Spec.Seen
  | .read query start backwards limit =>
    match Db.readConditional env.H env.ord (snapOf c v (turns c h.nextPosition h.nextPage) h.eventsRoot h.tagsRoot) (query.getD ⟨[]⟩)
        start backwards limit false Db.Cancel.never with
    | .error e => .error e
    | .ok l => .ok (.events l (match limit with
      | none => Db.headOfNext h.nextPosition
      | some _ => l.getLast?.map (·.position)))
  | .head => .ok (.position (Db.headOfNext h.nextPosition))
  | .track src =>
    match trackLookup v (turns c h.nextPosition h.nextPage) h.trackRoot src with
    | .error e => .error e
    | .ok p => .ok (.position p)

/-- Steps of readers, the writer and the cache that are not the beginning or the end of a call. -/
inductive Quiet (c : Conf) : Sys → Sys → Prop
  | reader {d r rd rd' ph d' r' ph' tx} : RStep c d r ph d' r' ph' → Quiet c ⟨d, r, rd ++ ph :: rd', tx⟩ ⟨d', r', rd ++ ph' :: rd', tx⟩
  | evict (σ) (p : Nat) : Quiet c σ { σ with d := { σ.d with cache := fun q => if q = p then none else σ.d.cache q } }
  | load {σ} {h p n} : σ.d.header = .ok h → p ∈ usedPages c σ.d h → readPage c.g σ.d.m.kw p σ.d.file = .ok n →
      Quiet c σ { σ with d := { σ.d with cache := fun q => if q = p then some n else σ.d.cache q } }
  | settle {d r rd w io wr} : processFreed io.ord w.wr = (.ok (), wr) →
      Quiet c ⟨d, r, rd, some (.built w)⟩ ⟨d, r, rd, some (.writing w io wr)⟩
  | scribble {d r rd w io wr file cache} : Touched c.g.pageSize wr.dirty.ids d.file file →
      (∀ p, cache p = d.cache p ∨ p ∈ wr.dirty.ids) →
      Quiet c ⟨d, r, rd, some (.writing w io wr)⟩
        ⟨{ d with file := file, cache := cache, loose := d.loose ++ wr.dirty.ids }, r, rd, some (.writing w io wr)⟩

structure World where
  sys : Sys
  /-- requests sent to the writer thread -/
  queue : List Db.Msg
  /-- what will be answered when the running transaction is committed -/
  flight : List Db.Answer
  /-- answers on their way -/
  out : List Db.Answer
  /-- the names of the readers in `sys.rd` -/
  names : List Nat
  now : Nat
  hist : History

/-- The database was just opened. -/
def World.init (d : PDb) : World := ⟨.init d, [], [], [], [], 0, []⟩

/-- Nothing to be seen from outside. -/
def World.silent (W : World) (σ : Sys) : World := { W with sys := σ, now := W.now + 1 }

/-- Time goes on and `e` is seen. -/
def World.note (W : World) (e : Happening) : World := { W with now := W.now + 1, hist := W.hist ++ [(W.now + 1, e)] }

/-- After a crash only the file is left. -/
def World.restart (W : World) (d : PDb) : World :=
  { W.note .crashed with sys := .init d, queue := [], flight := [], out := [], names := [] }

inductive WStep (c : Conf) (env : Db.Env) : World → World → Prop
  | quiet {W : World} {σ} : Quiet c W.sys σ → WStep c env W (W.silent σ)
  /-- `append` sends its request to the writer thread, handler.rs 148-165. -/
  | ask {W : World} {j : Db.Job} : Db.AfterOk j.req → (∀ t req, (t, .asked j.id req) ∉ W.hist) →
      WStep c env W { W.note (.asked j.id j.req) with queue := W.queue ++ [.append j] }
  /-- The writer thread takes requests and computes a batch. -/
  | take {W : World} {d r rd j q max vis b q'} : W.sys = ⟨d, r, rd, none⟩ → W.queue = .append j :: q →
      Props.Builds (pageBackend c) env max vis { d with oldest := r.min } j q b q' → b.abort = none →
      WStep c env W { W.silent ⟨{ d with oldest := r.min }, r, rd, some (.built b.w)⟩ with queue := q', flight := b.responders.zip b.results }
  /-- A batch that is aborted, writer_thread_blocking.rs 139-148. -/
  | abort {W : World} {d r rd j q max vis b q' i e} : W.sys = ⟨d, r, rd, none⟩ → W.queue = .append j :: q →
      Props.Builds (pageBackend c) env max vis { d with oldest := r.min } j q b q' → b.abort = some (i, e) →
      WStep c env W { W.silent W.sys with queue := q', out := W.out ++ Db.abortAnswers b.responders i e }
  /-- The commit succeeds. -/
  | finish {W : World} {d r rd w io wr d'} : W.sys = ⟨d, r, rd, some (.writing w io wr)⟩ → commitPages c io w.hp wr d = (.ok (), d') →
      WStep c env W { W.note (.announced (Db.headOfNext w.wr.nextPos)) with sys := ⟨d', r, rd, none⟩, flight := [], out := W.out ++ W.flight }
  /-- It fails; all get the error. -/
  | fail {W : World} {d r rd w io wr d' e} : W.sys = ⟨d, r, rd, some (.writing w io wr)⟩ → commitPages c io w.hp wr d = (.error e, d') →
      WStep c env W { W.silent ⟨d', r, rd, none⟩ with flight := [], out := W.out ++ W.flight.map fun x => (x.1, .error e) }
  /-- An answer arrives. -/
  | answer {W : World} {l x l'} : W.out = l ++ x :: l' → WStep c env W { W.note (.answered x.1 x.2) with out := l ++ l' }
  | open {W : World} {i} : (∀ t, (t, .opened i) ∉ W.hist) →
      WStep c env W { W.note (.opened i) with sys := { W.sys with rd := W.sys.rd ++ [.start] }, names := W.names ++ [i] }
  | look {W : World} {k i : Nat} {h d0 pend l a} : W.names[k]? = some i → W.sys.rd[k]? = some (Phase.live h d0 pend) →
      lookAt c env (W.sys.d.base c) h l = .ok a → WStep c env W (W.note (.saw i l a))
  | crash {W : World} {f kw0 d'} : W.sys.d.doubt = false → Crash c W.sys.d f → kw0 ≤ 16 → reopen c kw0 f = .ok d' →
      WStep c env W (W.restart d')
  | commitCrash {W : World} {d r rd w io wr f kw0 d'} : W.sys = ⟨d, r, rd, some (.writing w io wr)⟩ → d.doubt = false →
      CommitCrash c io { w with db := d } f → kw0 ≤ 16 → reopen c kw0 f = .ok d' → WStep c env W (W.restart d')

/-- Any number of steps. -/
def Worlds (c : Conf) (env : Db.Env) : World → World → Prop := Relation.ReflTransGen (WStep c env)

/-! ## Bookkeeping -/

/-- `js`: the requests of the running transaction, `rs`: their answers. -/
structure Book (valid : Record → Prop) [DecidablePred valid] (s : Spec.Db) (queue js : List Db.Job) (out : List Db.Answer) (now : Nat)
    (hist : History) (A : List Done) : Prop where
  clock : hist.Pairwise fun x y => x.1 < y.1
  past : ∀ x ∈ hist, x.1 ≤ now
  sorted : A.Pairwise fun x y => x.time ≤ y.time
  done : ∀ x ∈ A, x.time ≤ now
  once : (A.map (·.id)).Nodup
  legal : SaysAll (A.map (·.ans)) (appendAll valid s (A.map (·.req))).1
  asked : ∀ x ∈ A, ∃ t, (t, .asked x.id x.req) ∈ hist ∧ t < x.time
  pending : ∀ j ∈ js ++ queue, ∃ t, (t, .asked j.id j.req) ∈ hist
  sent : ∀ y ∈ out, ∃ t req, (t, .asked y.1 req) ∈ hist
  apart : ((js ++ queue).map (·.id) ++ out.map (·.1)).Nodup
  fresh : ∀ t id a, (t, .answered id a) ∈ hist → id ∉ (js ++ queue).map (·.id) ++ out.map (·.1)
  idle : ∀ x ∈ A, x.id ∉ (js ++ queue).map (·.id)
  outOk : ∀ y ∈ out, (∃ x ∈ A, x.id = y.1 ∧ x.ans = y.2) ∨ (Failure y.2 ∧ ∀ x ∈ A, x.id ≠ y.1)
  answered : ∀ t id a, (t, .answered id a) ∈ hist →
    (∃ x ∈ A, x.id = id ∧ x.ans = a ∧ x.time < t) ∨ (Failure a ∧ ∀ x ∈ A, x.id ≠ id)
  onceAnswered : ∀ t t' id a a', (t, .answered id a) ∈ hist → (t', .answered id a') ∈ hist → t = t'
  askedFirst : ∀ t id a, (t, .answered id a) ∈ hist → ∃ t' req, (t', .asked id req) ∈ hist ∧ t' < t

section Book
variable {valid : Record → Prop} [DecidablePred valid] {s : Spec.Db} {queue js : List Db.Job} {out : List Db.Answer} {now : Nat}
  {hist : History} {A : List Done}

theorem Book.init : Book valid s [] [] [] 0 [] [] := by
  constructor <;> simp [appendAll, SaysAll]

/-- Time passes. -/
theorem Book.tick (b : Book valid s queue js out now hist A) : Book valid s queue js out (now + 1) hist A :=
  { b with past := fun x hx => by have := b.past x hx; omega
           done := fun x hx => by have := b.done x hx; omega }

theorem mem_note {hist : History} {n t : Nat} {e e' : Happening} : (t, e) ∈ hist ++ [(n, e')] ↔ (t, e) ∈ hist ∨ (t = n ∧ e = e') := by
  simp

/-- Something is seen that is not an answer. -/
theorem Book.noteNow (b : Book valid s queue js out now hist A) (hp : ∀ x ∈ hist, x.1 < now) (e : Happening)
    (he : ∀ id a, e ≠ .answered id a) : Book valid s queue js out now (hist ++ [(now, e)]) A := by
  have old : ∀ {t id a}, (t, Happening.answered id a) ∈ hist ++ [(now, e)] → (t, Happening.answered id a) ∈ hist := by
    intro t id a h
    rcases mem_note.mp h with h | ⟨-, h⟩
    · exact h
    · exact absurd h.symm (he id a)
  have inn : ∀ {x}, x ∈ hist → x ∈ hist ++ [(now, e)] := fun h => List.mem_append_left _ h
  refine ⟨?_, ?_, b.sorted, b.done, b.once, b.legal, fun x hx => ?_, fun j hj => ?_, fun y hy => ?_,
    b.apart, fun t id a h => b.fresh t id a (old h), b.idle, b.outOk, fun t id a h => b.answered t id a (old h),
    fun t t' id a a' h h' => b.onceAnswered t t' id a a' (old h) (old h'), fun t id a h => ?_⟩
  · refine List.pairwise_append.mpr ⟨b.clock, by simp, fun x hx y hy => ?_⟩
    rw [List.mem_singleton.mp hy]
    exact hp x hx
  · intro x hx
    rcases List.mem_append.mp hx with hx | hx
    · exact b.past x hx
    · rw [List.mem_singleton.mp hx]
  · obtain ⟨t, h1, h2⟩ := b.asked x hx
    exact ⟨t, inn h1, h2⟩
  · obtain ⟨t, h1⟩ := b.pending j hj
    exact ⟨t, inn h1⟩
  · obtain ⟨t, r, h1⟩ := b.sent y hy
    exact ⟨t, r, inn h1⟩
  · obtain ⟨t', r, h1, h2⟩ := b.askedFirst t id a (old h)
    exact ⟨t', r, inn h1, h2⟩

theorem Book.note (b : Book valid s queue js out now hist A) (e : Happening) (he : ∀ id a, e ≠ .answered id a) :
    Book valid s queue js out (now + 1) (hist ++ [(now + 1, e)]) A :=
  b.tick.noteNow (fun x hx => by have := b.past x hx; omega) e he

/-- Everybody known asked. -/
theorem Book.known (b : Book valid s queue js out now hist A) {id : Nat} (hn : ∀ t req, (t, .asked id req) ∉ hist) :
    id ∉ (js ++ queue).map (·.id) ++ out.map (·.1) ∧ (∀ x ∈ A, x.id ≠ id) ∧ ∀ t a, (t, .answered id a) ∉ hist := by
  refine ⟨fun h => ?_, fun x hx e => ?_, fun t a h => ?_⟩
  · rcases List.mem_append.mp h with h | h
    · obtain ⟨j, hj, rfl⟩ := List.mem_map.mp h
      obtain ⟨t, ht⟩ := b.pending j hj
      exact hn _ _ ht
    · obtain ⟨y, hy, rfl⟩ := List.mem_map.mp h
      obtain ⟨t, r, ht⟩ := b.sent y hy
      exact hn _ _ ht
  · obtain ⟨t, ht, -⟩ := b.asked x hx
    rw [e] at ht
    exact hn _ _ ht
  · obtain ⟨t', r, ht, -⟩ := b.askedFirst t id a h
    exact hn _ _ ht

theorem Book.ask (b : Book valid s queue js out now hist A) {j : Db.Job} (hn : ∀ t req, (t, .asked j.id req) ∉ hist) :
    Book valid s (queue ++ [j]) js out (now + 1) (hist ++ [(now + 1, .asked j.id j.req)]) A := by
  obtain ⟨k1, k2, k3⟩ := b.known hn
  have B := b.note (.asked j.id j.req) (by simp)
  have hm : ∀ x : Nat, x ∈ (js ++ (queue ++ [j])).map (·.id) ++ out.map (·.1) ↔ x ∈ (js ++ queue).map (·.id) ++ out.map (·.1) ∨ x = j.id := by
    intro x
    simp only [List.map_append, List.mem_append, List.map_cons, List.map_nil, List.mem_singleton]
    tauto
  refine { B with pending := fun i hi => ?_, apart := ?_, fresh := fun t id a h hid => ?_, idle := fun x hx hid => ?_ }
  · rw [← List.append_assoc] at hi
    rcases List.mem_append.mp hi with hi | hi
    · exact B.pending i hi
    · rw [List.mem_singleton.mp hi]
      exact ⟨_, mem_note.mpr (.inr ⟨rfl, rfl⟩)⟩
  · have hp : ((js ++ (queue ++ [j])).map (·.id) ++ out.map (·.1)).Perm (j.id :: ((js ++ queue).map (·.id) ++ out.map (·.1))) := by
      rw [List.perm_iff_count]
      intro x
      simp only [List.map_append, List.map_cons, List.map_nil, List.count_append, List.count_cons, List.count_nil]
      omega
    rw [hp.nodup_iff]
    exact List.nodup_cons.mpr ⟨k1, b.apart⟩
  · rcases (hm id).mp hid with hid | rfl
    · exact B.fresh t id a h hid
    · rcases mem_note.mp h with h | ⟨-, h⟩
      · exact k3 _ _ h
      · cases h
  · rcases (hm x.id).mp (List.mem_append_left _ hid) with h1 | h1
    · rw [← List.append_assoc, List.map_append] at hid
      rcases List.mem_append.mp hid with hid | hid
      · exact b.idle x hx hid
      · simp only [List.map_cons, List.map_nil, List.mem_singleton] at hid
        exact k2 x hx hid
    · exact k2 x hx h1

/-- Requests leave the queue for a transaction. -/
theorem Book.take {js1 rest : List Db.Job} (b : Book valid s (js1 ++ rest) [] out now hist A) : Book valid s rest js1 out now hist A :=
  { b with pending := by simpa using b.pending
           apart := by simpa using b.apart
           fresh := by simpa using b.fresh
           idle := by simpa using b.idle }

/-- Failures are sent. -/
theorem Book.refuse (b : Book valid s queue js out now hist A) {as : List Db.Answer} (ha : as.map (·.1) = js.map (·.id))
    (hf : ∀ y ∈ as, Failure y.2) : Book valid s queue [] (out ++ as) now hist A := by
  have hmem : ∀ y ∈ as, ∃ j ∈ js, j.id = y.1 := by
    intro y hy
    have : y.1 ∈ js.map (·.id) := ha ▸ List.mem_map_of_mem hy
    exact List.mem_map.mp this
  have hp : (([] ++ queue : List Db.Job).map (·.id) ++ (out ++ as).map (·.1)).Perm ((js ++ queue).map (·.id) ++ out.map (·.1)) := by
    rw [List.perm_iff_count]
    intro x
    simp only [List.nil_append, List.map_append, ha, List.count_append]
    omega
  refine { b with pending := fun j hj => b.pending j (List.mem_append_right _ (by simpa using hj)), sent := fun y hy => ?_, apart := ?_,
                  fresh := fun t id a h hid => b.fresh t id a h (hp.mem_iff.mp hid), idle := fun x hx hid => ?_, outOk := fun y hy => ?_ }
  · rcases List.mem_append.mp hy with hy | hy
    · exact b.sent y hy
    · obtain ⟨j, hj, e⟩ := hmem y hy
      obtain ⟨t, ht⟩ := b.pending j (List.mem_append_left _ hj)
      exact ⟨t, _, e ▸ ht⟩
  · rw [hp.nodup_iff]; exact b.apart
  · exact b.idle x hx (by rw [List.map_append]; exact List.mem_append_right _ (by simpa using hid))
  · rcases List.mem_append.mp hy with hy | hy
    · exact b.outOk y hy
    · obtain ⟨j, hj, e⟩ := hmem y hy
      exact .inr ⟨hf y hy, fun x hx h => b.idle x hx (by rw [h, ← e]; exact List.mem_map_of_mem (List.mem_append_left _ hj))⟩

/-- The requests of a transaction with their answers, as happenings of the time `t`. -/
def doneAt (t : Nat) (js : List Db.Job) (rs : List (Except Err Nat)) : List Done := (js.zip rs).map fun x => ⟨t, x.1.id, x.1.req, x.2⟩

theorem doneAt_id {t : Nat} {js : List Db.Job} {rs : List (Except Err Nat)} (hl : js.length = rs.length) :
    (doneAt t js rs).map (·.id) = js.map (·.id) := by
  unfold doneAt
  rw [List.map_map, show ((fun x : Done => x.id) ∘ fun x : Db.Job × Except Err Nat => (⟨t, x.1.id, x.1.req, x.2⟩ : Done)) = (fun j : Db.Job => j.id) ∘ Prod.fst from rfl,
    ← List.map_map, List.map_fst_zip (by omega)]

theorem doneAt_req {t : Nat} {js : List Db.Job} {rs : List (Except Err Nat)} (hl : js.length = rs.length) :
    (doneAt t js rs).map (·.req) = js.map (·.req) := by
  unfold doneAt
  rw [List.map_map, show ((fun x : Done => x.req) ∘ fun x : Db.Job × Except Err Nat => (⟨t, x.1.id, x.1.req, x.2⟩ : Done)) = (fun j : Db.Job => j.req) ∘ Prod.fst from rfl,
    ← List.map_map, List.map_fst_zip (by omega)]

theorem doneAt_ans {t : Nat} {js : List Db.Job} {rs : List (Except Err Nat)} (hl : js.length = rs.length) :
    (doneAt t js rs).map (·.ans) = rs := by
  unfold doneAt
  rw [List.map_map, show ((fun x : Done => x.ans) ∘ fun x : Db.Job × Except Err Nat => (⟨t, x.1.id, x.1.req, x.2⟩ : Done)) = Prod.snd from rfl,
    List.map_snd_zip (by omega)]

theorem mem_doneAt {t : Nat} {js : List Db.Job} {rs : List (Except Err Nat)} {x : Done} (hx : x ∈ doneAt t js rs) :
    x.time = t ∧ ∃ j ∈ js, j.id = x.id ∧ j.req = x.req := by
  obtain ⟨⟨j, r⟩, h, rfl⟩ := List.mem_map.mp hx
  exact ⟨rfl, j, (List.of_mem_zip h).1, rfl, rfl⟩

/-- A transaction takes effect; nobody has been told yet. -/
theorem Book.land (b : Book valid s queue js out now hist A) {rs : List (Except Err Nat)} (hl : js.length = rs.length)
    (hs : SaysAll rs (appendAll valid (appendAll valid s (A.map (·.req))).2 (js.map (·.req))).1) :
    Book valid s queue [] (out ++ (js.map (·.id)).zip rs) (now + 1) hist (A ++ doneAt (now + 1) js rs) := by
  have hfst : ((js.map (·.id)).zip rs).map (·.1) = js.map (·.id) := List.map_fst_zip (by simp [hl])
  have hp : (([] ++ queue : List Db.Job).map (·.id) ++ (out ++ (js.map (·.id)).zip rs).map (·.1)).Perm ((js ++ queue).map (·.id) ++ out.map (·.1)) := by
    rw [List.perm_iff_count]
    intro x
    simp only [List.nil_append, List.map_append, hfst, List.count_append]
    omega
  have hnd := List.nodup_append.mp b.apart
  have hjs : (js.map (·.id)).Nodup := by
    have := hnd.1
    rw [List.map_append] at this
    exact (List.nodup_append.mp this).1
  have old : ∀ x ∈ A, ∀ y ∈ doneAt (now + 1) js rs, x.id ≠ y.id := by
    intro x hx y hy e
    obtain ⟨-, j, hj, hid, -⟩ := mem_doneAt hy
    exact b.idle x hx (by rw [e, ← hid]; exact List.mem_map_of_mem (List.mem_append_left _ hj))
  refine ⟨b.clock, fun x hx => by have := b.past x hx; omega, ?_, fun x hx => ?_, ?_, ?_, fun x hx => ?_,
    fun j hj => b.pending j (List.mem_append_right _ (by simpa using hj)), fun y hy => ?_, ?_, fun t id a h hid => b.fresh t id a h (hp.mem_iff.mp hid),
    fun x hx hid => ?_, fun y hy => ?_, fun t id a h => ?_, b.onceAnswered, b.askedFirst⟩
  · refine List.pairwise_append.mpr ⟨b.sorted, ?_, fun x hx y hy => ?_⟩
    · refine List.pairwise_of_forall_mem_list fun x hx y hy => ?_
      rw [(mem_doneAt hx).1, (mem_doneAt hy).1]
    · rw [(mem_doneAt hy).1]; have := b.done x hx; omega
  · rcases List.mem_append.mp hx with hx | hx
    · have := b.done x hx; omega
    · rw [(mem_doneAt hx).1]
  · rw [List.map_append, doneAt_id hl]
    refine List.nodup_append.mpr ⟨b.once, hjs, fun i hi k hk e => ?_⟩
    obtain ⟨x, hx, rfl⟩ := List.mem_map.mp hi
    refine b.idle x hx ?_
    rw [List.map_append]
    exact List.mem_append_left _ (e ▸ hk)
  · rw [List.map_append, List.map_append, doneAt_req hl, doneAt_ans hl, Db.appendAll_append]
    exact Db.saysAll_append b.legal hs
  · rcases List.mem_append.mp hx with hx | hx
    · exact b.asked x hx
    · obtain ⟨h1, j, hj, h2, h3⟩ := mem_doneAt hx
      obtain ⟨t, ht⟩ := b.pending j (List.mem_append_left _ hj)
      rw [h2, h3] at ht
      have := b.past _ ht
      exact ⟨t, ht, by simp only at this; omega⟩
  · rcases List.mem_append.mp hy with hy | hy
    · exact b.sent y hy
    · have : y.1 ∈ js.map (·.id) := hfst ▸ List.mem_map_of_mem hy
      obtain ⟨j, hj, e⟩ := List.mem_map.mp this
      obtain ⟨t, ht⟩ := b.pending j (List.mem_append_left _ hj)
      exact ⟨t, _, e ▸ ht⟩
  · rw [hp.nodup_iff]; exact b.apart
  · simp only [List.nil_append] at hid
    rcases List.mem_append.mp hx with hx | hx
    · exact b.idle x hx (by rw [List.map_append]; exact List.mem_append_right _ hid)
    · obtain ⟨-, j, hj, h2, -⟩ := mem_doneAt hx
      have h1 := hnd.1
      rw [List.map_append] at h1
      exact (List.nodup_append.mp h1).2.2 x.id (h2 ▸ List.mem_map_of_mem hj) x.id hid rfl
  · rcases List.mem_append.mp hy with hy | hy
    · rcases b.outOk y hy with ⟨x, hx, h1⟩ | ⟨h1, h2⟩
      · exact .inl ⟨x, List.mem_append_left _ hx, h1⟩
      · refine .inr ⟨h1, fun x hx => ?_⟩
        rcases List.mem_append.mp hx with hx | hx
        · exact h2 x hx
        · intro e
          obtain ⟨-, j, hj, h3, -⟩ := mem_doneAt hx
          exact hnd.2.2 x.id (h3 ▸ List.mem_map_of_mem (List.mem_append_left _ hj)) y.1 (List.mem_map_of_mem hy) e
    · refine .inl ?_
      rw [List.zip_map_left] at hy
      obtain ⟨⟨j, r⟩, hjr, rfl⟩ := List.mem_map.mp hy
      exact ⟨⟨now + 1, j.id, j.req, r⟩, List.mem_append_right _ (List.mem_map.mpr ⟨_, hjr, rfl⟩), rfl, rfl⟩
  · rcases b.answered t id a h with ⟨x, hx, h1⟩ | ⟨h1, h2⟩
    · exact .inl ⟨x, List.mem_append_left _ hx, h1⟩
    · refine .inr ⟨h1, fun x hx => ?_⟩
      rcases List.mem_append.mp hx with hx | hx
      · exact h2 x hx
      · intro e
        obtain ⟨-, j, hj, h3, -⟩ := mem_doneAt hx
        refine b.fresh t id a h (List.mem_append_left _ ?_)
        rw [← e, ← h3]
        exact List.mem_map_of_mem (List.mem_append_left _ hj)

/-- An answer arrives. -/
theorem Book.answer {l l' : List Db.Answer} {y : Db.Answer} (b : Book valid s queue js (l ++ y :: l') now hist A) :
    Book valid s queue js (l ++ l') (now + 1) (hist ++ [(now + 1, .answered y.1 y.2)]) A := by
  have hp : ((js ++ queue).map (·.id) ++ (l ++ y :: l').map (·.1)).Perm (y.1 :: ((js ++ queue).map (·.id) ++ (l ++ l').map (·.1))) := by
    rw [List.perm_iff_count]
    intro x
    simp only [List.map_append, List.map_cons, List.count_append, List.count_cons]
    omega
  have hnd := hp.nodup_iff.mp b.apart
  have inn : ∀ {x}, x ∈ hist → x ∈ hist ++ [(now + 1, Happening.answered y.1 y.2)] := fun h => List.mem_append_left _ h
  have sub : ∀ z ∈ l ++ l', z ∈ l ++ y :: l' := by simp; tauto
  refine ⟨?_, ?_, b.sorted, fun x hx => by have := b.done x hx; omega, b.once, b.legal, fun x hx => ?_, fun j hj => ?_, fun z hz => ?_,
    (List.nodup_cons.mp hnd).2, fun t id a h hid => ?_, b.idle, fun z hz => b.outOk z (sub z hz), fun t id a h => ?_, fun t t' id a a' h h' => ?_, fun t id a h => ?_⟩
  · refine List.pairwise_append.mpr ⟨b.clock, by simp, fun x hx z hz => ?_⟩
    rw [List.mem_singleton.mp hz]
    have := b.past x hx
    simp only; omega
  · intro x hx
    rcases List.mem_append.mp hx with hx | hx
    · have := b.past x hx; omega
    · rw [List.mem_singleton.mp hx]
  · obtain ⟨t, h1, h2⟩ := b.asked x hx
    exact ⟨t, inn h1, h2⟩
  · obtain ⟨t, h1⟩ := b.pending j hj
    exact ⟨t, inn h1⟩
  · obtain ⟨t, r, h1⟩ := b.sent z (sub z hz)
    exact ⟨t, r, inn h1⟩
  · rcases mem_note.mp h with h | ⟨-, h⟩
    · exact b.fresh t id a h (hp.mem_iff.mpr (List.mem_cons_of_mem _ hid))
    · cases h
      exact (List.nodup_cons.mp hnd).1 hid
  · rcases mem_note.mp h with h | ⟨rfl, e⟩
    · exact b.answered t id a h
    · cases e
      rcases b.outOk y (by simp) with ⟨x, hx, h1, h2⟩ | h1
      · exact .inl ⟨x, hx, h1, h2, by have := b.done x hx; omega⟩
      · exact .inr h1
  · have no : ∀ {t a}, (t, Happening.answered y.1 a) ∈ hist → False := fun h => b.fresh _ _ _ h (hp.mem_iff.mpr List.mem_cons_self)
    rcases mem_note.mp h with h1 | ⟨h1, e⟩ <;> rcases mem_note.mp h' with h2 | ⟨h2, e'⟩
    · exact b.onceAnswered t t' id a a' h1 h2
    · cases e'; exact (no h1).elim
    · cases e; exact (no h2).elim
    · rw [h1, h2]
  · rcases mem_note.mp h with h | ⟨rfl, e⟩
    · obtain ⟨t', r, h1, h2⟩ := b.askedFirst t id a h
      exact ⟨t', r, inn h1, h2⟩
    · cases e
      obtain ⟨t', r, h1⟩ := b.sent y (by simp)
      have := b.past _ h1
      exact ⟨t', r, inn h1, by simp only at this; omega⟩

/-- A crash: nobody will be answered. -/
theorem Book.drop (b : Book valid s queue js out now hist A) : Book valid s [] [] [] now hist A :=
  { b with pending := by simp, sent := by simp, apart := by simp, fresh := by simp, idle := by simp, outOk := by simp }

end Book

end Uma.Page
