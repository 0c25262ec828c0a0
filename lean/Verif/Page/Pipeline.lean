import Verif.Page.Crash

/-!
# The pipelined writer

`writer_thread_pipelining` (umadb-core/src/writer_thread_pipelining.rs), `Mvcc::prepare_commit`, `update_page_cache` and
`WriterSnapshot` (umadb-core/src/mvcc.rs 856-965) and the I/O thread (umadb-core/src/io_shell.rs).

Simplifications.  The writes of the batch in flight take place at the moment its result is received; until then the slots
being written hold anything (`Pipe.seen`), each batch seeing one such content.  What `io_uring` calls short writes is not
considered.  The order in which `HashMap::drain` yields the pages is that of the list.
-/

namespace Uma.Page
open Uma.Codec Uma.Mvcc Uma.Spec

/-- `DEFAULT_PAGE_SIZE`, mvcc.rs 34. -/
def defaultPageSize : Nat := 4096

/-- `WriterSnapshot::read_page`, mvcc.rs 953-963. -/
def wetBase (c : Conf) (d : PDb) (wet : Pages) (p : Nat) : Option Node :=
  match wet.get p with
  | some n => some n
  | none => d.base c p

/-- `PreparedCommit` and the rest of the result of `prepare_commit`. -/
structure Prepared where
  /-- `wet_header`. -/
  hp : HPage
  header : Bytes
  pages : List (Nat × Bytes)
  /-- `wet_pages`. -/
  wet : Pages

/-- `vec![0u8; DEFAULT_PAGE_SIZE]`, mvcc.rs 889. -/
@[irreducible] def zeroBuffer : Bytes := List.replicate defaultPageSize 0

/-- Serializing the dirty pages, each into a buffer of `DEFAULT_PAGE_SIZE` bytes, mvcc.rs 885-896. -/
def serializeEach (kw : Nat) : Pages → Except Err (List (Nat × Bytes))
  | [] => .ok []
  | (p, n) :: ps =>
    match serializePage kw zeroBuffer true n with
    | .error e => .error e
    | .ok b =>
      match serializeEach kw ps with
      | .error e => .error e
      | .ok bs => .ok ((p, b) :: bs)

open Classical in
/-- `prepare_commit`, mvcc.rs 856-922.  As in `commitPages`, numbers that are not `u64`s are refused. -/
noncomputable def prepareCommit (c : Conf) (ord : Writer → List Nat) (hp : HPage) (w : Writer) : Except Err (Prepared × Writer) :=
  match processFreed ord w with
  | (.error e, _) => .error e
  | (.ok (), w) =>
    match cowHeader hp w.roots with
    | .error e => .error e
    | .ok p =>
      if ¬ (NodeFits w.kw p.node ∧ ∀ x ∈ w.dirty, NodeFits w.kw x.2) then .error (.internal "number out of range")
      else match serializePage w.kw (List.replicate w.pageSize 0) c.zeroFill p.node with
        | .error e => .error e
        | .ok hb =>
          match serializeEach w.kw w.dirty with
          | .error e => .error e
          | .ok ps => .ok (⟨p, hb, ps, w.dirty⟩, { w with dirty := [], tsn := w.tsn + 1, deser := fun _ => none })

/-- Writing the data pages, io_shell.rs 43-55: each at its own offset. -/
def writeEach (g : Pager) : List (Nat × Bytes) → File → File
  | [], f => f
  | (p, b) :: ps, f => writeEach g ps (f.writeAt (p * g.pageSize) b)

/-- What the environment decides in one turn of the writer thread: besides `IO`, what is in the slots being written while a
batch is built, and whether the I/O thread was lost. -/
structure PipeIO extends IO where
  junk : File
  lost : Bool

/-- What is reported when the I/O fails, writer_thread_pipelining.rs 73-87. -/
def PipeIO.error (io : PipeIO) (m : String) : Err := if io.lost then .internal "Disk I/O thread failed" else .io m

/-- `do_uring_commit`, io_shell.rs 36-70. -/
noncomputable def ioCommit (c : Conf) (io : PipeIO) (x : Prepared) (d : PDb) : Except Err Unit × PDb :=
  match io.fault with
  | some (.data junk) => (.error (io.error "data"),
      { d with file := scramble c.g.pageSize (x.pages.map (·.1)) junk d.file, loose := d.loose ++ x.pages.map (·.1) })
  | some (.header junk) =>
    let d := PDb.fsync c (x.pages.map (·.1)) { d with file := writeEach c.g x.pages d.file }
    (.error (io.error "header"),
      { d with file := scramble c.g.pageSize [x.hp.id] junk d.file, loose := x.hp.id :: d.loose, doubt := true })
  | none =>
    let d := PDb.fsync c (x.pages.map (·.1)) { d with file := writeEach c.g x.pages d.file }
    (.ok (), { PDb.fsync c [x.hp.id] { d with file := d.file.writeAt (x.hp.id * c.g.pageSize) x.header } with doubt := false })

/-- `update_page_cache` and `pin_header`, writer_thread_pipelining.rs 61-62. -/
def publish (keep : Nat → Bool) (x : Prepared) (d : PDb) : PDb :=
  { d with cache := cacheAfter keep x.wet d.cache, m := pinHeader x.hp d.m }

/-- The same error for every request. -/
def failAll (rs : List Nat) (e : Err) : List Db.Answer := rs.map fun tx => (tx, .error e)

/-- `InflightCommit`, writer_thread_pipelining.rs 17-24. -/
structure Flight where
  x : Prepared
  responders : List Nat
  results : List (Except Err Nat)
  head : Option Nat

/-- State of the writer thread, writer_thread_pipelining.rs 33-52, and what it has done: `hp` and `wr` are `active_writer`. -/
structure Pipe where
  db : PDb
  hp : HPage
  wr : Writer
  wet : Pages
  fly : Option Flight
  answers : List Db.Answer
  heads : List (Option Nat)
  panicked : Bool

/-- writer_thread_pipelining.rs 33-52. -/
def Pipe.start (c : Conf) (d : PDb) : Except Err Pipe :=
  match d.writer c with
  | .error e => .error e
  | .ok w => .ok ⟨d, w.hp, w.wr, [], none, [], [], false⟩

/-- The database as seen while the batch in flight is written. -/
noncomputable def Pipe.seen (c : Conf) (junk : File) (st : Pipe) : PDb :=
  match st.fly with
  | none => st.db
  | some f => { st.db with file := scramble c.g.pageSize (f.x.hp.id :: f.x.pages.map (·.1)) junk st.db.file }

/-- `acknowledge_inflight`, writer_thread_pipelining.rs 58-89. -/
noncomputable def Pipe.acknowledge (c : Conf) (io : PipeIO) (f : Flight) (st : Pipe) : Bool × Pipe :=
  match ioCommit c io f.x st.db with
  | (.ok (), d) => (true, { st with db := publish io.keep f.x d, fly := none, answers := st.answers ++ f.responders.zip f.results
                                    heads := st.heads ++ [f.head] })
  | (.error e, d) => (false, { st with db := d, fly := none, answers := st.answers ++ failAll f.responders e })

/-- `rollback`, writer_thread_pipelining.rs 93-102. -/
def Pipe.rollback (c : Conf) (o : Option Nat) (st : Pipe) : Pipe :=
  match { st.db with oldest := o }.writer c with
  | .error _ => { st with wet := [] }
  | .ok w => { st with hp := w.hp, wr := w.wr, wet := [] }

/-- After the barrier: abort or dispatch, writer_thread_pipelining.rs 244-296. -/
noncomputable def Pipe.dispatch (c : Conf) (io : PipeIO) (b : Db.Batch PW) (st : Pipe) : Pipe :=
  match b.abort with
  | some (i, e) => { st with answers := st.answers ++ Db.abortAnswers b.responders i e }.rollback c io.oldest
  | none =>
    match prepareCommit c io.ord b.w.hp b.w.wr with
    | .error e => { st with answers := st.answers ++ failAll b.responders e }.rollback c io.oldest
    | .ok (x, wr) =>
      { st with wr := wr, hp := x.hp, wet := x.wet, fly := some ⟨x, b.responders, b.results, Db.headOfNext wr.nextPos⟩ }

/-- The barrier, writer_thread_pipelining.rs 226-242, and what follows it. -/
noncomputable def Pipe.finish (c : Conf) (io : PipeIO) (b : Db.Batch PW) (st : Pipe) : Pipe :=
  match st.fly with
  | none => st.dispatch c io b
  | some f =>
    match st.acknowledge c io f with
    | (true, st) => st.dispatch c io b
    | (false, st) =>
      let st := st.rollback c io.oldest
      { st with answers := st.answers ++ failAll b.responders (.internal "batch discarded: preceding commit failed") }

inductive Turn where
  | stop (st : Pipe)
  | go (q : List Db.Msg) (st : Pipe)

/-- Building a batch from the request `j` on, writer_thread_pipelining.rs 125-225, and finishing it. -/
noncomputable def Pipe.batch (c : Conf) (env : Db.Env) (max vis : Nat) (io : PipeIO) (j : Db.Job) (q : List Db.Msg) (st : Pipe) : Turn :=
  match findReusable io.oldest { st.wr with base := wetBase c (st.seen c io.junk) st.wet } with
  | (.error e, wr) => .go q { st with wr := wr, answers := st.answers ++ [(j.id, .error e)] }
  | (.ok (), wr) =>
    match Db.stepJob (pageBackend c) env (Db.Batch.new ⟨st.db, st.hp, wr⟩) j with
    | .error _ => .stop { st with panicked := true }
    | .ok b =>
      match Db.drain (pageBackend c) env max vis q b with
      | .error _ => .stop { st with panicked := true }
      | .ok (b, q') => .go q' (st.finish c io b)

/-- Waiting for the disk because no request has come, writer_thread_pipelining.rs 298-307. -/
noncomputable def Pipe.wait (c : Conf) (io : PipeIO) (q : List Db.Msg) (f : Flight) (st : Pipe) : Turn :=
  match st.acknowledge c io f with
  | (true, st) => .go q st
  | (false, st) => .go q (st.rollback c io.oldest)

/-- The next message, writer_thread_pipelining.rs 121-131. -/
noncomputable def Pipe.take (c : Conf) (env : Db.Env) (max vis : Nat) (io : PipeIO) (st : Pipe) : List Db.Msg → Turn
  | [] => .stop st
  | .shutdown :: _ => .stop st
  | .append j :: q => st.batch c env max vis io j q

/-- One turn of the loop, writer_thread_pipelining.rs 104-308, on the messages the channel will ever deliver.  `idle`:
`try_recv` found the channel empty; `vis` is how many messages the drain loop finds. -/
noncomputable def Pipe.turn (c : Conf) (env : Db.Env) (max : Nat) (idle : Bool) (vis : Nat) (io : PipeIO) (q : List Db.Msg) (st : Pipe) : Turn :=
  match st.fly, idle with
  | some f, true => st.wait c io q f
  | _, _ => st.take c env max vis io q

/-- writer_thread_pipelining.rs 310-313; a panic skips it. -/
noncomputable def Pipe.reap (c : Conf) (io : PipeIO) (st : Pipe) : Pipe :=
  if st.panicked then st
  else match st.fly with
    | none => st
    | some f => (st.acknowledge c io f).2

/-- Bounds the number of turns left. -/
def Pipe.left (q : List Db.Msg) (st : Pipe) : Nat := 2 * q.length + if st.fly.isSome then 1 else 0

theorem acknowledge_fly (c : Conf) (io : PipeIO) (f : Flight) (st : Pipe) : (st.acknowledge c io f).2.fly = none := by
  unfold Pipe.acknowledge
  split <;> rfl

theorem rollback_fly (c : Conf) (o : Option Nat) (st : Pipe) : (st.rollback c o).fly = st.fly := by
  unfold Pipe.rollback
  split <;> rfl

theorem turn_left {c : Conf} {env : Db.Env} {max : Nat} {idle : Bool} {vis : Nat} {io : PipeIO} {q q' : List Db.Msg} {st st' : Pipe}
    (h : st.turn c env max idle vis io q = .go q' st') : st'.left q' < st.left q := by
  have one : ∀ st : Pipe, (if st.fly.isSome then 1 else 0) ≤ 1 := fun st => by split <;> omega
  have batch : ∀ j q, st.batch c env max vis io j q = .go q' st' → st'.left q' < 2 * (q.length + 1) := by
    intro j q h
    have := one st'
    unfold Pipe.batch at h
    split at h
    · cases h
      unfold Pipe.left; omega
    split at h
    · cases h
    split at h
    · cases h
    next hd =>
    cases h
    have := Db.drain_length hd
    unfold Pipe.left
    omega
  unfold Pipe.turn at h
  split at h
  · next f hf =>
    have ha := acknowledge_fly c io f st
    unfold Pipe.wait at h
    cases hk : st.acknowledge c io f with
    | mk r st1 =>
      rw [hk] at h ha
      simp only at ha
      have hl : st.left q = 2 * q.length + 1 := by unfold Pipe.left; rw [hf]; rfl
      cases r <;> simp only at h <;> cases h <;> rw [hl] <;> unfold Pipe.left
      · rw [rollback_fly, ha]; simp
      · rw [ha]; simp
  · unfold Pipe.take at h
    split at h
    · cases h
    · cases h
    · next j q1 =>
      refine Nat.lt_of_lt_of_le (batch j q1 h) ?_
      unfold Pipe.left
      simp only [List.length_cons]
      omega

/-- `writer_thread_pipelining`: the oracles are indexed by the number of the turn. -/
noncomputable def pipeThread (c : Conf) (env : Db.Env) (max : Nat) (idle : Nat → Bool) (vis : Nat → Nat) (io : Nat → PipeIO) (n : Nat)
    (q : List Db.Msg) (st : Pipe) : Pipe :=
  match _h : st.turn c env max (idle n) (vis n) (io n) q with
  | .stop st => st.reap c (io n)
  | .go q st => pipeThread c env max idle vis io (n + 1) q st
termination_by st.left q
decreasing_by exact turn_left _h

end Uma.Page
