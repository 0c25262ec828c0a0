import Verif.Page.PipelineReaders
import Verif.Page.History

/-!
# Histories with the pipelined writer

The transition system of `Verif/Page/PipelineReaders.lean` together with the queue of the writer thread, the answers it sends
(umadb-core/src/writer_thread_pipelining.rs), and a record of when calls begin and return.

Simplifications as in `Verif/Page/History.lean`.  An answer that was sent reaches its client at some later time, or never (a crash).  The
head is announced in the same instant in which the batch in flight is published (writer_thread_pipelining.rs 58-72).
-/

namespace Uma.Page
open Uma.Codec Uma.Mvcc Uma.Spec

/-- Steps of readers, the I/O thread and the cache that are not the beginning or the end of a call: those of `PStep`. -/
inductive PQuiet (c : Conf) (guard : PSys → Prop) : PSys → PSys → Prop
  | reader {st r rd rd' ph d' r' ph' bld} : RStep c st.db r ph d' r' ph' →
      ((∃ h, ph = .registered h) → guard ⟨st, r, rd ++ ph :: rd', bld⟩) →
      PQuiet c guard ⟨st, r, rd ++ ph :: rd', bld⟩ ⟨{ st with db := d' }, r', rd ++ ph' :: rd', bld⟩
  | evict (st r rd bld) (p : Nat) : PQuiet c guard ⟨st, r, rd, bld⟩
      ⟨{ st with db := { st.db with cache := fun q => if q = p then none else st.db.cache q } }, r, rd, bld⟩
  | load {st r rd bld h p n} : st.db.header = .ok h → p ∈ usedPages c st.db h → readPage c.g st.db.m.kw p st.db.file = .ok n →
      PQuiet c guard ⟨st, r, rd, bld⟩
        ⟨{ st with db := { st.db with cache := fun q => if q = p then some n else st.db.cache q } }, r, rd, bld⟩
  | scribble {st r rd bld f file cache} : st.fly = some f → Touched c.g.pageSize (f.x.pages.map (·.1)) st.db.file file →
      (∀ p, cache p = st.db.cache p ∨ p ∈ f.x.pages.map (·.1)) →
      PQuiet c guard ⟨st, r, rd, bld⟩
        ⟨{ st with db := { st.db with file := file, cache := cache, loose := st.db.loose ++ f.x.pages.map (·.1) } }, r, rd, bld⟩

structure PWorld where
  sys : PSys
  /-- requests sent to the writer thread -/
  queue : List Db.Msg
  /-- answers on their way -/
  out : List Db.Answer
  /-- the names of the readers in `sys.rd` -/
  names : List Nat
  now : Nat
  hist : History

/-- The writer thread was just started. -/
def PWorld.init (st : Pipe) : PWorld := ⟨.init st, [], [], [], 0, []⟩

/-- Nothing to be seen from outside. -/
def PWorld.silent (W : PWorld) (σ : PSys) : PWorld := { W with sys := σ, now := W.now + 1 }

/-- Time goes on and `e` is seen. -/
def PWorld.note (W : PWorld) (e : Happening) : PWorld := { W with now := W.now + 1, hist := W.hist ++ [(W.now + 1, e)] }

/-- After a crash only the file is left. -/
def PWorld.restart (W : PWorld) (st : Pipe) : PWorld :=
  { W.note .crashed with sys := .init st, queue := [], out := [], names := [] }

/-- What the writer thread has answered since `st`. -/
def Pipe.since (st' st : Pipe) : List Db.Answer := st'.answers.drop st.answers.length

inductive PWStep (c : Conf) (env : Db.Env) (guard : PSys → Prop) : PWorld → PWorld → Prop
  | quiet {W : PWorld} {σ} : PQuiet c guard W.sys σ → PWStep c env guard W (W.silent σ)
  /-- `append` sends its request to the writer thread, handler.rs 148-165. -/
  | ask {W : PWorld} {j : Db.Job} : Db.AfterOk j.req → (∀ t req, (t, .asked j.id req) ∉ W.hist) →
      PWStep c env guard W { W.note (.asked j.id j.req) with queue := W.queue ++ [.append j] }
  /-- The writer thread takes requests and computes a batch, writer_thread_pipelining.rs 121-225. -/
  | take {W : PWorld} {st r rd j q max vis io b q'} : W.sys = ⟨st, r, rd, none⟩ → W.queue = .append j :: q → io.oldest = r.min →
      Props.PipeBuilds c env max vis io st j q b q' → PWStep c env guard W { W.silent ⟨st, r, rd, some (b, r.min)⟩ with queue := q' }
  /-- The batch in flight is durable, published and answered, writer_thread_pipelining.rs 58-72. -/
  | land {W : PWorld} {st r rd bld f io st'} : W.sys = ⟨st, r, rd, bld⟩ → st.fly = some f → st.acknowledge c io f = (true, st') →
      PWStep c env guard W { W.note (.announced f.head) with sys := ⟨st', r, rd, bld⟩, out := W.out ++ st'.since st }
  /-- It failed, and with it what was built on it, writer_thread_pipelining.rs 73-102 and 226-242. -/
  | fail {W : PWorld} {st r rd bld f io st'} : W.sys = ⟨st, r, rd, bld⟩ → st.fly = some f → st.acknowledge c io f = (false, st') →
      PWStep c env guard W { W.silent
        ⟨{ st'.rollback c r.min with answers := (st'.rollback c r.min).answers ++ dropped bld }, r, rd, none⟩ with
        out := W.out ++ ((st'.rollback c r.min).since st ++ dropped bld) }
  /-- A batch is sent to the I/O thread, or aborted, writer_thread_pipelining.rs 244-296. -/
  | dispatch {W : PWorld} {st r rd b o io} : W.sys = ⟨st, r, rd, some (b, o)⟩ → st.fly = none → io.oldest = r.min →
      PWStep c env guard W { W.silent ⟨st.dispatch c io b, r, rd, none⟩ with out := W.out ++ (st.dispatch c io b).since st }
  /-- An answer arrives. -/
  | answer {W : PWorld} {l x l'} : W.out = l ++ x :: l' → PWStep c env guard W { W.note (.answered x.1 x.2) with out := l ++ l' }
  | open {W : PWorld} {i} : (∀ t, (t, .opened i) ∉ W.hist) →
      PWStep c env guard W { W.note (.opened i) with sys := { W.sys with rd := W.sys.rd ++ [.start] }, names := W.names ++ [i] }
  | look {W : PWorld} {k i : Nat} {h d0 pend l a} : W.names[k]? = some i → W.sys.rd[k]? = some (Phase.live h d0 pend) →
      lookAt c env (W.sys.st.db.base c) h l = .ok a → PWStep c env guard W (W.note (.saw i l a))
  | crash {W : PWorld} {f kw0 d' st'} : W.sys.st.db.doubt = false → PipeCrash c W.sys.st f → kw0 ≤ 16 → reopen c kw0 f = .ok d' →
      Pipe.start c d' = .ok st' → PWStep c env guard W (W.restart st')

/-- Any number of steps. -/
def PWorlds (c : Conf) (env : Db.Env) (guard : PSys → Prop) : PWorld → PWorld → Prop := Relation.ReflTransGen (PWStep c env guard)

/-- Only the order of those waiting matters. -/
theorem Book.shift {valid : Record → Prop} [DecidablePred valid] {s : Spec.Db} {q js q' js' : List Db.Job} {out : List Db.Answer} {now : Nat}
    {hist : History} {A : List Done} (b : Book valid s q js out now hist A) (h : js' ++ q' = js ++ q) : Book valid s q' js' out now hist A :=
  { b with pending := by rw [h]; exact b.pending
           apart := by rw [h]; exact b.apart
           fresh := by rw [h]; exact b.fresh
           idle := by rw [h]; exact b.idle }

end Uma.Page
