import Verif.Props.Pipeline
import Verif.Props.Readers

/-!
# Readers beside the pipelined writer

The transition system of `Verif/Page/Readers.lean` with the writer thread of `Verif/Page/Pipeline.lean`
(umadb-core/src/writer_thread_pipelining.rs, io_shell.rs): a batch may be built, and so take pages to reuse, while the pages
of the one before are written.

Simplifications as in both.  A batch is built in one step, when it asks the registry for the oldest reader
(writer_thread_pipelining.rs 133-141).  While the I/O thread writes the data pages, their slots in the file and their
entries in the cache may hold anything (`PStep.scribble`); readers never read the header slots from the file.
-/

namespace Uma.Page
open Uma.Codec Uma.Mvcc Uma.Spec

/-! ## The system -/

structure PSys where
  st : Pipe
  reg : Registry
  rd : List Phase
  /-- The batch that is built and not yet sent to the I/O thread, with the oldest reader at that time. -/
  bld : Option (Db.Batch PW × Option Nat)

/-- The database was just opened. -/
def PSys.init (st : Pipe) : PSys := ⟨st, [], [], none⟩

/-- What the requests of a batch built on a failed one are told, writer_thread_pipelining.rs 226-242. -/
def dropped : Option (Db.Batch PW × Option Nat) → List Db.Answer
  | none => []
  | some (b, _) => failAll b.responders (.internal "batch discarded: preceding commit failed")

/-- One step of a reader, of the writer thread, of the I/O thread, of the cache, or a crash.  A reader looks at the headers
again only if `guard`. -/
inductive PStep (c : Conf) (env : Db.Env) (guard : PSys → Prop) : PSys → PSys → Prop
  | arrive (σ) : PStep c env guard σ { σ with rd := σ.rd ++ [.start] }
  | reader {st r rd rd' ph d' r' ph' bld} : RStep c st.db r ph d' r' ph' →
      ((∃ h, ph = .registered h) → guard ⟨st, r, rd ++ ph :: rd', bld⟩) →
      PStep c env guard ⟨st, r, rd ++ ph :: rd', bld⟩ ⟨{ st with db := d' }, r', rd ++ ph' :: rd', bld⟩
  | evict (st r rd bld) (p : Nat) : PStep c env guard ⟨st, r, rd, bld⟩
      ⟨{ st with db := { st.db with cache := fun q => if q = p then none else st.db.cache q } }, r, rd, bld⟩
  | load {st r rd bld h p n} : st.db.header = .ok h → p ∈ usedPages c st.db h → readPage c.g st.db.m.kw p st.db.file = .ok n →
      PStep c env guard ⟨st, r, rd, bld⟩
        ⟨{ st with db := { st.db with cache := fun q => if q = p then some n else st.db.cache q } }, r, rd, bld⟩
  /-- A batch is built, writer_thread_pipelining.rs 125-225. -/
  | build {st r rd max vis io j q b q'} : io.oldest = r.min → Props.AfterOkAll (.append j :: q) →
      Props.PipeBuilds c env max vis io st j q b q' → PStep c env guard ⟨st, r, rd, none⟩ ⟨st, r, rd, some (b, r.min)⟩
  /-- Data pages are being written and moved into the cache. -/
  | scribble {st r rd bld f file cache} : st.fly = some f → Touched c.g.pageSize (f.x.pages.map (·.1)) st.db.file file →
      (∀ p, cache p = st.db.cache p ∨ p ∈ f.x.pages.map (·.1)) →
      PStep c env guard ⟨st, r, rd, bld⟩
        ⟨{ st with db := { st.db with file := file, cache := cache, loose := st.db.loose ++ f.x.pages.map (·.1) } }, r, rd, bld⟩
  /-- The batch in flight is durable and published, writer_thread_pipelining.rs 58-72. -/
  | land {st r rd bld f io st'} : st.fly = some f → st.acknowledge c io f = (true, st') →
      PStep c env guard ⟨st, r, rd, bld⟩ ⟨st', r, rd, bld⟩
  /-- It failed, and with it what was built on it, writer_thread_pipelining.rs 73-102 and 226-242. -/
  | fail {st r rd bld f io st'} : st.fly = some f → st.acknowledge c io f = (false, st') →
      PStep c env guard ⟨st, r, rd, bld⟩
        ⟨{ st'.rollback c r.min with answers := (st'.rollback c r.min).answers ++ dropped bld }, r, rd, none⟩
  /-- A batch is sent to the I/O thread, or aborted, writer_thread_pipelining.rs 244-296. -/
  | dispatch {st r rd b o io} : st.fly = none → io.oldest = r.min →
      PStep c env guard ⟨st, r, rd, some (b, o)⟩ ⟨st.dispatch c io b, r, rd, none⟩
  /-- A crash; the database is opened again and the writer thread started. -/
  | crash {σ : PSys} {f kw0 d' st'} : σ.st.db.doubt = false → PipeCrash c σ.st f → kw0 ≤ 16 → reopen c kw0 f = .ok d' →
      Pipe.start c d' = .ok st' → PStep c env guard σ (.init st')

/-- Any number of steps. -/
def PRuns (c : Conf) (env : Db.Env) (guard : PSys → Prop) : PSys → PSys → Prop := Relation.ReflTransGen (PStep c env guard)

/-- A batch has been built on one that is in flight, and when it asked for the oldest reader there was none. -/
def PSys.Exposed (σ : PSys) : Prop := σ.st.fly.isSome = true ∧ ∃ b, σ.bld = some (b, none)

/-! ## Reading more pages -/

/-- The operation succeeds in the same way when more pages can be read. -/
def Up {α : Type} (m : W α) : Prop :=
  ∀ w a w', m w = (.ok a, w') → w'.base = w.base ∧
    ∀ b : Nat → Option Node, (∀ p n, w.base p = some n → b p = some n) → m { w with base := b } = (.ok a, { w' with base := b })

theorem Up.pure {α : Type} (a : α) : Up (Pure.pure a : W α) := by
  intro w a' w' h
  cases h
  exact ⟨rfl, fun _ _ => rfl⟩

theorem Up.fail {α : Type} (e : Err) : Up (Uma.Page.fail e : W α) := by
  intro w a' w' h
  cases h

theorem Up.bind {α β : Type} {m : W α} {f : α → W β} (h : Up m) (k : ∀ a, Up (f a)) : Up (m >>= f) := by
  intro w a w' hr
  have run : ∀ w, (m >>= f) w = match m w with | (.ok a, w') => f a w' | (.error e, w') => (.error e, w') := fun _ => rfl
  rw [run] at hr
  cases hm : m w with
  | mk r w1 =>
    rw [hm] at hr
    cases r with
    | error e => cases hr
    | ok a1 =>
      obtain ⟨h1, h2⟩ := h w a1 w1 hm
      obtain ⟨k1, k2⟩ := k a1 w1 a w' hr
      refine ⟨k1.trans h1, fun b hb => ?_⟩
      rw [run, h2 b hb]
      exact k2 b fun p n hp => hb p n (h1 ▸ hp)

theorem up_loadPage (msg : String) (p : Nat) : Up (loadPage msg p) := by
  intro w a w' h
  unfold loadPage getPage at h
  unfold loadPage getPage
  cases h1 : w.dirty.get p with
  | some n =>
    simp only [h1] at h ⊢
    cases h
    exact ⟨rfl, fun _ _ => rfl⟩
  | none =>
    cases h2 : w.deser p with
    | some n =>
      simp only [h1, h2] at h ⊢
      cases h
      exact ⟨rfl, fun _ _ => rfl⟩
    | none =>
      cases h3 : w.base p with
      | none =>
        simp only [h1, h2, h3] at h
        cases h
      | some n =>
        simp only [h1, h2, h3] at h ⊢
        cases h
        refine ⟨rfl, fun b hb => ?_⟩
        simp only [hb p _ h3]

theorem Scan.up {β : Type} {D : Scan β} (h : ∀ n, Up (D.leaf n)) : ∀ fuel st acc, Up (D.run fuel st acc)
  | _, [], acc => by unfold Scan.run; exact .pure _
  | 0, _ :: _, _ => by unfold Scan.run; exact .fail _
  | fuel + 1, (p, i) :: st, acc => by
    unfold Scan.run
    refine .bind (up_loadPage _ _) fun n => ?_
    cases D.kids n with
    | some kids =>
      simp only
      cases kids[i]? with
      | some c => exact Scan.up h _ _ _
      | none => exact Scan.up h _ _ _
    | none =>
      refine .bind (h n) fun r => ?_
      split
      · exact .pure _
      · exact Scan.up h _ _ _

theorem up_freeIds (fuel : Nat) (v : FreeValue) : Up (freeIds fuel v) := by
  unfold freeIds
  split
  · exact .pure _
  · refine Scan.up (fun n => ?_) _ _ _
    unfold tsnScan
    cases n <;> first | exact .pure _ | exact .fail _

theorem up_freeEntries (fuel : Nat) (small : Option Nat) : ∀ ts vs, Up (freeEntries fuel small ts vs)
  | [], _ => by unfold freeEntries; exact .pure _
  | t :: ts, vs => by
    unfold freeEntries
    split
    · exact .pure _
    · cases vs with
      | nil => exact .fail _
      | cons v vs => exact .bind (up_freeIds _ _) fun l => .bind (up_freeEntries fuel small ts vs) fun r => .pure _

theorem up_findReusable {o : Option Nat} : Up (findReusable o) := by
  intro w a w' h
  have hs : Up ((freeScan (2 * w.nextPage) o).run (2 * w.nextPage) [(w.freeRoot, 0)] []) := by
    refine Scan.up (fun n => ?_) _ _ _
    unfold freeScan
    cases n <;> first | exact up_freeEntries _ _ _ _ | exact .fail _
  have hm : ∀ l : List (Nat × Nat), Up (modW fun w => { w with reusable := Mvcc.optimize l }) := by
    intro l w a w' h
    cases h
    exact ⟨rfl, fun _ _ => rfl⟩
  exact Up.bind hs hm w a w' h

variable {c : Conf} {kw : Nat} {hc : ConfOk c kw} {H : String → Db.TagHash} {d d' : PDb} {hp : HPage} {h : Header}
  {PE PT PK PF : Multiset (Nat × Node)} {ix : Nat → List Nat} {F : Multiset (Nat × Nat)} {s : Spec.Db} {o : Option Nat}
  {PE' PT' PK' PF' : Multiset (Nat × Node)} {ix' : Nat → List Nat} {N : Multiset Nat} {s' : Spec.Db} {w : Writer} {x : Prepared}

open Classical in
/-- A new writer has read nothing but pages in use. -/
theorem LiveAt.fresh (L : LiveAt c hc H d hp h PE PT PK PF ix F s) : ∃ wr b r ds, d.writer c = .ok ⟨d, hp, wr⟩ ∧
    wr = freshWriter c kw h b r ds ∧ ∀ p n, ds p = some n → (p, n) ∈ PF + (PE + PT + PK) := by
  -- the same with only the pages in use
  obtain ⟨b, hbdef⟩ : ∃ b : Nat → Option Node, b = fun p => if p ∈ ids (PF + (PE + PT + PK)) then d.base c p else none := ⟨_, rfl⟩
  have hb : Sees b (PF + (PE + PT + PK)) := by
    intro p n hpn
    rw [hbdef]
    simp only [mem_ids_of hpn, if_true]
    exact L.sees p n hpn
  obtain ⟨w, h1, -, T⟩ := L.beginAt (ds := fun _ => none) hb (by simp)
  obtain ⟨hbase, h2⟩ := up_findReusable _ _ _ h1
  have h2 := h2 (d.base c) (by
    intro p n hp
    have hp : b p = some n := hp
    rw [hbdef] at hp
    simp only at hp
    split at hp
    · exact hp
    · cases hp)
  have h2 : findReusable d.oldest (newWriter c d h) = (.ok (), { w with base := d.base c }) := h2
  obtain ⟨-, ds, r, e⟩ := findReusable_frame h1 []
  refine ⟨{ w with base := d.base c }, d.base c, r, ds, ?_, ?_, fun p n hpn => ?_⟩
  · unfold PDb.writer
    rw [L.latest]
    show (asHeader hp.node >>= _) = _
    rw [L.node]
    show (match findReusable d.oldest (newWriter c d h) with
      | (.error e, _) => Except.error e
      | (.ok (), w) => .ok (PW.mk d hp w)) = _
    rw [h2]
  · rw [e, ← L.width]
    rfl
  · have hc1 := T.inv.own.cached p n (by rw [e]; exact hpn)
    rw [hbase] at hc1
    have hc1 : b p = some n := hc1
    rw [hbdef] at hc1
    simp only at hc1
    split at hc1
    · next hin =>
      obtain ⟨m, hm⟩ := mem_ids.mp hin
      rw [L.sees p m hm] at hc1
      cases hc1; exact hm
    · cases hc1

/-- What writing a prepared commit changes, whether it succeeds or not. -/
theorem ioCommit_frame (X : PreparedAt c kw hp h w x) (io : PipeIO) (hz : d.file.Zeroed) :
    Touched c.g.pageSize (x.hp.id :: w.dirty.ids) d.file (ioCommit c io x d).2.file ∧ (ioCommit c io x d).2.cache = d.cache := by
  obtain ⟨h1, -⟩ := X.writes d.file hz
  have h1' : Touched c.g.pageSize (x.hp.id :: w.dirty.ids) d.file (writeEach c.g x.pages d.file) := h1.mono fun p hp => .tail _ hp
  unfold ioCommit
  rw [X.ids]
  cases io.fault with
  | some ft =>
    cases ft with
    | data junk => exact ⟨(scramble_touched _ _ hz).mono fun p hp => .tail _ hp, rfl⟩
    | header junk => exact ⟨h1'.trans ((scramble_touched [x.hp.id] _ h1.zeroed).mono (by simp)), rfl⟩
  | none =>
    obtain ⟨h2, -⟩ := writeAt_page (p := x.hp.id) (g := c.g) X.len X.head h1.zeroed
    exact ⟨h1'.trans (h2.mono (by simp)), rfl⟩

/-- The transaction goes on while other things happen to the database. -/
theorem Ready.elsewhere (R : Ready c hc H d h F o w PE' PT' PK' PF' ix' N s') (hb : ∀ p, Rests h F p → d'.base c p = d.base c p) :
    Ready c hc H d' h F o w PE' PT' PK' PF' ix' N s' :=
  ⟨fun p hp => (R.base p hp).trans (hb p hp).symm, R.tsn, R.inv, R.freed, R.reused, R.queue, R.trees, R.index, R.next, R.grows⟩

/-! ## The invariant -/

/-- No batch in flight: the writer is at the committed header. -/
structure IdleOk (c : Conf) (kw : Nat) (st : Pipe) (hp : HPage) (h : Header) (P : Multiset (Nat × Node)) : Prop where
  fly : st.fly = none
  hp : st.hp = hp
  wr : ∃ b r ds, st.wr = freshWriter c kw h b r ds ∧ ∀ p n, ds p = some n → (p, n) ∈ P
  wet : ∀ p n m, (p, n) ∈ P → st.wet.get p = some m → m = n

/-- The batch in flight. -/
structure FlyOk (c : Conf) {kw : Nat} (hc : ConfOk c kw) (H : String → Db.TagHash) (st : Pipe) (f : Flight) (hp : HPage) (h : Header)
    (F : Multiset (Nat × Nat)) (o : Option Nat) (w : Writer) (PE PT PK PF : Multiset (Nat × Node)) (ix : Nat → List Nat) (N : Multiset Nat)
    (s : Spec.Db) : Prop where
  fly : st.fly = some f
  ready : Ready c hc H st.db h F o w PE PT PK PF ix N s
  prep : PreparedAt c kw hp h w f.x
  hp : st.hp = f.x.hp
  wet : st.wet = f.x.wet
  wr : st.wr = primed w
  head : f.head = Spec.head s.log

/-- `s'` comes after `s`, and the positions in `rs` are those of events in it. -/
def Leads (s s' : Spec.Db) (rs : List (Except Err Nat)) : Prop := Props.Grown s s' ∧ ∀ p, .ok p ∈ rs → p ≤ s'.log.length

/-- The batch `b` is a transaction on a database with the header `h`, the pages `P` and the free pages `F`, which shows `s`, and `G`
holds of `s` and what it leads to. -/
def Built (G : Spec.Db → Spec.Db → Prop) (c : Conf) {kw : Nat} (hc : ConfOk c kw) (H : String → Db.TagHash) (hp : HPage) (h : Header) (P : Multiset (Nat × Node))
    (F : Multiset (Nat × Nat)) (s : Spec.Db) (b : Db.Batch PW) (o : Option Nat) : Prop :=
  ∃ d0 PE PT PK PF ix PE' PT' PK' PF' ix' s', LiveAt c hc H d0 hp h PE PT PK PF ix F s ∧ d0.oldest = o ∧
    (∀ x, x ∈ PF + (PE + PT + PK) ↔ x ∈ P) ∧ b.w.hp = hp ∧ TxAt c hc d0 h F b.w.wr PE' PT' PK' PF' ix' (Db.Abs.of H s') ∧
    Leads s s' b.results ∧ G s s'

/-- The positions answered and announced are those of events in `s`. -/
def Told (st : Pipe) (s : Spec.Db) : Prop :=
  (∀ x ∈ st.answers, ∀ p, x.2 = .ok p → p ≤ s.log.length) ∧ ∀ p, some p ∈ st.heads → p ≤ s.log.length

/-- What the writer thread is doing.  `K t x`: the page `x` of a snapshot with number `t` will not be taken by the batches in
flight and built.  `GF` and `GB` hold of the databases before and after these batches. -/
inductive Stage (GF GB : Spec.Db → Spec.Db → Prop) (c : Conf) {kw : Nat} (hc : ConfOk c kw) (H : String → Db.TagHash) (st : Pipe) (bld : Option (Db.Batch PW × Option Nat))
    (hp : HPage) (h : Header) (P : Multiset (Nat × Node)) (F : Multiset (Nat × Nat)) (s : Spec.Db) : (Nat → Nat × Node → Prop) → Prop
  | idle : IdleOk c kw st hp h P → bld = none → Stage GF GB c hc H st bld hp h P F s (Kept P F false none)
  | built {b o} : IdleOk c kw st hp h P → bld = some (b, o) → (b.abort = none → Built GB c hc H hp h P F s b o) →
      Stage GF GB c hc H st bld hp h P F s (Kept P F true o)
  | fly {f o w PE' PT' PK' PF' ix' N s'} : FlyOk c hc H st f hp h F o w PE' PT' PK' PF' ix' N s' → Leads s s' f.results ∧ GF s s' → bld = none →
      Stage GF GB c hc H st bld hp h P F s (Kept P F true o)
  | both {f o w PE' PT' PK' PF' ix' N s' b ob} : FlyOk c hc H st f hp h F o w PE' PT' PK' PF' ix' N s' → Leads s s' f.results ∧ GF s s' → bld = some (b, ob) →
      (b.abort = none → Built GB c hc H f.x.hp (newHeader w h.schema) (PF' + (PE' + PT' + PK')) (newFree w N F o) s' b ob) →
      (∀ m, ob = some m → m ≤ h.tsn) →
      Stage GF GB c hc H st bld hp h P F s fun t x => Kept P F true o t x ∧ Kept (PF' + (PE' + PT' + PK')) (newFree w N F o) true ob t x

structure PSysAt (GF GB : Spec.Db → Spec.Db → Prop) (c : Conf) {kw : Nat} (hc : ConfOk c kw) (H : String → Db.TagHash) (σ : PSys) (hp : HPage) (h : Header)
    (PE PT PK PF : Multiset (Nat × Node)) (ix : Nat → List Nat) (F : Multiset (Nat × Nat)) (s : Spec.Db) : Prop where
  live : LiveAt c hc H σ.st.db hp h PE PT PK PF ix F s
  safe : SafeAt c kw σ.st.db hp h (PF + (PE + PT + PK))
  slots : SlotsOk σ.st.db.m h
  wf : σ.reg.WF
  count : ∀ t, σ.reg.count t = σ.rd.countP (Phase.holds t)
  told : Told σ.st s
  stage : ∃ K, Stage GF GB c hc H σ.st σ.bld hp h (PF + (PE + PT + PK)) F s K ∧ ∀ ph ∈ σ.rd, PhaseOk c hc H σ.st.db h K ph

/-- The committed database is `s`. -/
def PSysOfG (GF GB : Spec.Db → Spec.Db → Prop) (c : Conf) {kw : Nat} (hc : ConfOk c kw) (H : String → Db.TagHash) (σ : PSys) (s : Spec.Db) : Prop :=
  ∃ hp h PE PT PK PF ix F, PSysAt GF GB c hc H σ hp h PE PT PK PF ix F s

def PSysOf (c : Conf) {kw : Nat} (hc : ConfOk c kw) (H : String → Db.TagHash) (σ : PSys) (s : Spec.Db) : Prop :=
  PSysOfG (fun _ _ => True) (fun _ _ => True) c hc H σ s

def PSysInv (c : Conf) {kw : Nat} (hc : ConfOk c kw) (H : String → Db.TagHash) (σ : PSys) : Prop := ∃ s, PSysOf c hc H σ s

variable {GF GB GF' GB' : Spec.Db → Spec.Db → Prop}

theorem PSysOfG.mono {σ : PSys} (h : PSysOfG GF GB c hc H σ s) (hF : ∀ s s', GF s s' → GF' s s') (hB : ∀ s s', GB s s' → GB' s s') :
    PSysOfG GF' GB' c hc H σ s := by
  obtain ⟨hp, h, PE, PT, PK, PF, ix, F, I⟩ := h
  obtain ⟨K, S, hrd⟩ := I.stage
  refine ⟨hp, h, PE, PT, PK, PF, ix, F, I.live, I.safe, I.slots, I.wf, I.count, I.told, K, ?_, hrd⟩
  have up : ∀ {hp h P F s b o}, Built GB c hc H hp h P F s b o → Built GB' c hc H hp h P F s b o := by
    rintro hp h P F s b o ⟨d0, PE, PT, PK, PF, ix, PE', PT', PK', PF', ix', s', h1, h2, h3, h4, h5, h6, h7⟩
    exact ⟨d0, PE, PT, PK, PF, ix, PE', PT', PK', PF', ix', s', h1, h2, h3, h4, h5, h6, hB _ _ h7⟩
  cases S with
  | idle I hb => exact .idle I hb
  | built I hb B => exact .built I hb fun h => up (B h)
  | fly K G hb => exact .fly K ⟨G.1, hF _ _ G.2⟩ hb
  | both K G hb B hm => exact .both K ⟨G.1, hF _ _ G.2⟩ hb (fun h => up (B h)) hm

/-- With nothing in flight and nothing built there is nothing to say about them. -/
theorem PSysOfG.idle {σ : PSys} (h : PSysOfG GF GB c hc H σ s) (hf : σ.st.fly = none) (hb : σ.bld = none) : PSysOfG GF' GB' c hc H σ s := by
  obtain ⟨hp, h, PE, PT, PK, PF, ix, F, I⟩ := h
  obtain ⟨K, S, hrd⟩ := I.stage
  refine ⟨hp, h, PE, PT, PK, PF, ix, F, I.live, I.safe, I.slots, I.wf, I.count, I.told, K, ?_, hrd⟩
  cases S with
  | idle I hb => exact .idle I hb
  | built I hb' B => rw [hb] at hb'; cases hb'
  | fly K G hb => rw [K.fly] at hf; cases hf
  | both K G hb' B hm => rw [hb] at hb'; cases hb'

theorem LiveAt.rests_eq (L : LiveAt c hc H d hp h PE PT PK PF ix F s) {PE1 PT1 PK1 PF1 : Multiset (Nat × Node)} {ix1 : Nat → List Nat}
    {s1 : Spec.Db} (L' : LiveAt c hc H d' hp h PE1 PT1 PK1 PF1 ix1 F s1)
    (hP : ∀ x, x ∈ PF + (PE + PT + PK) ↔ x ∈ PF1 + (PE1 + PT1 + PK1)) : ∀ p, Rests h F p → d'.base c p = d.base c p := by
  intro p hp
  obtain ⟨n, hn⟩ := mem_ids.mp (L.mem_of_rests hp)
  rw [L.sees p n hn, L'.sees p n ((hP _).mp hn)]

theorem FlyOk.elsewhere {st : Pipe} {f : Flight} (K : FlyOk c hc H st f hp h F o w PE' PT' PK' PF' ix' N s')
    (L : LiveAt c hc H st.db hp h PE PT PK PF ix F s) (L' : LiveAt c hc H d' hp h PE PT PK PF ix F s) :
    FlyOk c hc H { st with db := d' } f hp h F o w PE' PT' PK' PF' ix' N s' :=
  ⟨K.fly, K.ready.elsewhere (L.rests_eq L' fun _ => .rfl), K.prep, K.hp, K.wet, K.wr, K.head⟩

/-- The writer thread is not disturbed by what happens to the database. -/
theorem Stage.elsewhere {st : Pipe} {bld : Option (Db.Batch PW × Option Nat)} {K : Nat → Nat × Node → Prop}
    (S : Stage GF GB c hc H st bld hp h (PF + (PE + PT + PK)) F s K)
    (L : LiveAt c hc H st.db hp h PE PT PK PF ix F s) (L' : LiveAt c hc H d' hp h PE PT PK PF ix F s) :
    Stage GF GB c hc H { st with db := d' } bld hp h (PF + (PE + PT + PK)) F s K := by
  cases S with
  | idle I hb => exact .idle ⟨I.1, I.2, I.3, I.4⟩ hb
  | built I hb B => exact .built ⟨I.1, I.2, I.3, I.4⟩ hb B
  | fly K G hb => exact .fly (K.elsewhere L L') G hb
  | both K G hb B hm => exact .both (K.elsewhere L L') G hb B hm

theorem PSysAt.recache {σ : PSys} (I : PSysAt GF GB c hc H σ hp h PE PT PK PF ix F s) {cache : Nat → Option Node}
    (hcache : ∀ p m, cache p = some m → σ.st.db.cache p = some m ∨ readPage c.g kw p σ.st.db.file = .ok m) :
    PSysAt GF GB c hc H { σ with st := { σ.st with db := { σ.st.db with cache := cache } } } hp h PE PT PK PF ix F s := by
  have L' : LiveAt c hc H { σ.st.db with cache := cache } hp h PE PT PK PF ix F s := I.live.recache hcache σ.st.db.oldest
  obtain ⟨K, S, hrd⟩ := I.stage
  exact ⟨L', I.safe.recache cache σ.st.db.oldest, I.slots, I.wf, I.count, I.told, K, S.elsewhere I.live L', fun ph hph =>
    (hrd ph hph).mono (.inr rfl) (fun b hb => ⟨b, hb, Nat.le_refl _⟩) fun t x _ _ hg hk => ⟨hg.recache hcache σ.st.db.oldest, hk⟩⟩

theorem PhaseOk.holds_le {K : Nat → Nat × Node → Prop} {ph : Phase} (hph : PhaseOk c hc H d h K ph) {t : Nat} (ht : ph.holds t = true) :
    t ≤ h.tsn := by
  cases ph with
  | start => cases ht
  | closed => cases ht
  | saw0 a => cases ht
  | saw b => cases ht
  | registered b => have : b.tsn = t := by simpa [Phase.holds] using ht
                    exact this ▸ Seen.le hph
  | stale b => have : b.tsn = t := by simpa [Phase.holds] using ht
               exact this ▸ Seen.le hph
  | re0 b a d0 => have : b.tsn = t := by simpa [Phase.holds] using ht
                  exact this ▸ Seen.le hph.1
  | live b d0 pend => have : b.tsn = t := by simpa [Phase.holds] using ht
                      exact this ▸ Seen.le hph.1

/-- Pages freed after a registered snapshot are not handed out. -/
theorem min_not_old {r : Registry} (hw : r.WF) {t t' : Nat} (hpos : 0 < r.count t) (ht : t < t') : ¬ oldEnough r.min t' = true := by
  intro ho
  rcases Registry.min_spec hw with ⟨-, h0⟩ | ⟨m, hm, -, hle⟩
  · have := h0 t
    omega
  · have := hle t hpos
    rw [hm] at ho
    simp [oldEnough] at ho
    omega

/-! ## Every step keeps the invariant -/

theorem FlyOk.tsn {st : Pipe} {f : Flight} (K : FlyOk c hc H st f hp h F o w PE' PT' PK' PF' ix' N s') : w.tsn = h.tsn + 1 := K.ready.tsn

/-- The pages of the newest snapshot are protected, unless a batch built on the one in flight believes that there is no reader. -/
theorem Stage.protects {st : Pipe} {bld : Option (Db.Batch PW × Option Nat)} {K : Nat → Nat × Node → Prop} {r : Registry} {rd : List Phase}
    (S : Stage GF GB c hc H st bld hp h (PF + (PE + PT + PK)) F s K) (L : LiveAt c hc H st.db hp h PE PT PK PF ix F s)
    (hx : ¬ PSys.Exposed ⟨st, r, rd, bld⟩) : ∀ x ∈ PF + (PE + PT + PK), K h.tsn x := by
  intro x hm
  cases S with
  | idle => exact .inl hm
  | built => exact .inl hm
  | fly => exact .inl hm
  | @both f o w PE' PT' PK' PF' ix' N s' b ob K G hb B hle =>
    refine ⟨.inl hm, ?_⟩
    rcases K.ready.kept L x hm with h1 | h1
    · exact .inl h1
    · have ht := K.tsn
      refine .inr ⟨w.tsn, by omega, h1, fun _ ho => ?_⟩
      cases ob with
      | none => exact hx ⟨by simp [K.fly], b, hb⟩
      | some m =>
        have := hle m rfl
        simp [oldEnough] at ho
        omega

theorem PSysAt.reader {d' : PDb} {st : Pipe} {r r' : Registry} {rd rd' : List Phase} {ph ph' : Phase} {bld : Option (Db.Batch PW × Option Nat)}
    (I : PSysAt GF GB c hc H ⟨st, r, rd ++ ph :: rd', bld⟩ hp h PE PT PK PF ix F s) (hstep : RStep c st.db r ph d' r' ph')
    (hx : (∃ h, ph = .registered h) → ¬ PSys.Exposed ⟨st, r, rd ++ ph :: rd', bld⟩) :
    PSysAt GF GB c hc H ⟨{ st with db := d' }, r', rd ++ ph' :: rd', bld⟩ hp h PE PT PK PF ix F s := by
  have hpos : ∀ t, ph.holds t = true → 0 < r.count t := by
    intro t ht
    have := I.count t
    simp only [List.countP_append, List.countP_cons, ht, if_true] at this
    omega
  obtain ⟨hw, hr⟩ := hstep.registry I.wf hpos
  obtain ⟨K, S, hrd⟩ := I.stage
  obtain ⟨h1, cache, rfl, h2⟩ := PhaseOk.step I.live I.slots (hrd ph (by simp)) hstep fun hb => S.protects I.live (hx hb)
  refine PSysAt.recache (σ := ⟨st, r', rd ++ ph' :: rd', bld⟩) ⟨I.live, I.safe, I.slots, hw, fun t => ?_, I.told, K, S, fun q hq => ?_⟩ h2
  · have h1 := I.count t
    have h2 := hr t
    simp only [List.countP_append, List.countP_cons] at h1 ⊢
    omega
  · rcases List.mem_append.mp hq with hq | hq
    · exact hrd q (List.mem_append_left _ hq)
    · rcases List.mem_cons.mp hq with rfl | hq
      · exact h1
      · exact hrd q (List.mem_append_right _ (.tail _ hq))

open Classical in
/-- The requests `js`, answered `rs`, lead from `s` to `s'`. -/
def Gives (c : Conf) (js : List Db.Job) (rs : List (Except Err Nat)) (s s' : Spec.Db) : Prop :=
  SaysAll rs (appendAll (Accepted c.g.pageSize) s (js.map (·.req))).1 ∧ s' = (appendAll (Accepted c.g.pageSize) s (js.map (·.req))).2

/-- The batch `b` is that of the requests `js`, the first of those waiting. -/
structure Gathers (j : Db.Job) (q : List Db.Msg) (b : Db.Batch PW) (q' : List Db.Msg) (js : List Db.Job) : Prop where
  split : Db.appendJobs (.append j :: q) = js ++ Db.appendJobs q'
  resp : b.responders = js.map (·.id)
  len : b.results.length = js.length
  bad : ∀ i e, b.abort = some (i, e) → Db.Fatal e

open Classical in
/-- Building a batch on the transaction `wr`. -/
theorem builds_tx {env : Db.Env} (he : Db.EnvOk env) (hH : ∀ t, NormalizedTo kw (env.H t)) {st : Pipe} {max vis : Nat} {io : PipeIO} {j : Db.Job}
    {q q' : List Db.Msg} {b : Db.Batch PW} (ha : Props.AfterOkAll (.append j :: q)) (hB : Props.PipeBuilds c env max vis io st j q b q')
    {d0 : PDb} (hopen : ∃ wr, findReusable io.oldest { st.wr with base := wetBase c (st.seen c io.junk) st.wet } = (.ok (), wr) ∧
      Tx c hc env.H ⟨d0, st.hp, wr⟩ s (Db.Abs.of env.H s)) :
    ∃ js, Gathers j q b q' js ∧ (b.abort = none →
      ∃ s', Tx c hc env.H ⟨d0, b.w.hp, b.w.wr⟩ s (Db.Abs.of env.H s') ∧ Leads s s' b.results ∧ Gives c js b.results s s') := by
  obtain ⟨wr, h1, T⟩ := hopen
  obtain ⟨wr', b1, k1, k2, k3⟩ := hB
  rw [k1] at h1
  cases h1
  have haj : Db.AfterOk j.req := ha j (by simp [Db.appendJobs])
  have haq : ∀ j ∈ Db.appendJobs q, Db.AfterOk j.req := fun j' hj => ha j' (by simp [Db.appendJobs, hj])
  rcases pipeBatch_spec he hH (d := d0) (w := ⟨st.db, st.hp, wr⟩) T max vis j q haj haq with
    ⟨b2, b3, q2, js', h2, h3, hB, hq, -⟩ | ⟨-, ⟨m, h2⟩ | ⟨b2, m, h2, h3⟩⟩
  · rw [k2] at h2; cases h2
    rw [k3] at h3; cases h3
    refine ⟨j :: js', ⟨by simp [Db.appendJobs, hq], hB.resp, hB.len, fun i e h => (hB.bad i e h).1⟩, fun hab => ?_⟩
    obtain ⟨hrep, hsay⟩ := hB.good hab
    obtain ⟨tr, -, t2, t3⟩ := Spec.appendAll_trace _ _ _ hsay
    refine ⟨_, hrep, ⟨Props.trace_grown (t3 .nil), fun p hp => ?_⟩, hsay, rfl⟩
    have hp' : .ok p ∈ tr.map (·.2.1) := t2 ▸ hp
    obtain ⟨x, hx, e⟩ := List.mem_map.mp hp'
    exact Props.trace_ok_le (t3 .nil) (List.mem_append_left _ hx) e
  · rw [k2] at h2; cases h2
  · rw [k2] at h2; cases h2
    rw [k3] at h3; cases h3

theorem IdleOk.idleAt {st : Pipe} (I : IdleOk c kw st hp h (PF + (PE + PT + PK))) (L : LiveAt c hc H st.db hp h PE PT PK PF ix F s)
    (S : SafeAt c kw st.db hp h (PF + (PE + PT + PK))) : IdleAt c hc H st s := by
  have hp := I.hp
  subst hp
  obtain ⟨b, r, ds, h1, h2⟩ := I.wr
  have hs : Sees (wetBase c st.db st.wet) (PF + (PE + PT + PK)) := by
    intro p n hpn
    unfold wetBase
    cases hw : st.wet.get p with
    | some m => rw [I.wet p n m hpn hw]
    | none => exact L.sees p n hpn
  exact ⟨I.fly, h, PE, PT, PK, PF, ix, F, L, S, b, r, ds, h1, hs, fun p n hpn => hs p n (h2 p n hpn)⟩

theorem FlyOk.flyAt {st : Pipe} {f : Flight} (K : FlyOk c hc H st f hp h F o w PE' PT' PK' PF' ix' N s')
    (L : LiveAt c hc H st.db hp h PE PT PK PF ix F s) (S : SafeAt c kw st.db hp h (PF + (PE + PT + PK))) : FlyAt c hc H st f s s' :=
  ⟨K.fly, hp, h, PE, PT, PK, PF, ix, F, o, w, PE', PT', PK', PF', ix', N, L, S, K.ready, K.prep, K.hp, K.wet, K.wr⟩

/-- What is committed once the batch in flight lands. -/
theorem FlyOk.landed {st : Pipe} {f : Flight} (K : FlyOk c hc H st f hp h F o w PE' PT' PK' PF' ix' N s')
    (L : LiveAt c hc H st.db hp h PE PT PK PF ix F s) (S : SafeAt c kw st.db hp h (PF + (PE + PT + PK))) (io : PipeIO) :
    LiveAt c hc H (landed c io f.x st.db) f.x.hp (newHeader w h.schema) PE' PT' PK' PF' ix' (newFree w N F o) s' := by
  rcases ioCommit_spec K.ready L S K.prep { io with fault := none } with ⟨d', h1, -, L', -⟩ | ⟨e, d', h1, -⟩
  swap
  · unfold ioCommit at h1
    simp only [Prod.mk.injEq] at h1
    exact nomatch h1.1
  have hland : Uma.Page.landed c io f.x st.db = publish io.keep f.x d' := by unfold Uma.Page.landed; rw [h1]
  rw [hland]
  exact L'

theorem Tx.built {b : Db.Batch PW} {s1 : Spec.Db} (T : Tx c hc H ⟨{ d with oldest := o }, b.w.hp, b.w.wr⟩ s1 (Db.Abs.of H s'))
    (hG : Leads s1 s' b.results ∧ GB s1 s') (L : LiveAt c hc H d hp h PE PT PK PF ix F s) : Built GB c hc H hp h (PF + (PE + PT + PK)) F s1 b o := by
  obtain ⟨h1, PE1, PT1, PK1, PF1, ix1, F1, L1, S1, PE', PT', PK', PF', ix', T⟩ := T
  have L1 : LiveAt c hc H { d with oldest := o } b.w.hp h1 PE1 PT1 PK1 PF1 ix1 F1 s1 := L1
  obtain ⟨e1, e2, e3, e4⟩ := (L.reader o).unique L1
  subst e1 e2 e3
  exact ⟨_, _, _, _, _, _, _, _, _, _, _, _, L1, rfl, e4, rfl, T, hG⟩

theorem PSysOfG.build {env : Db.Env} (he : Db.EnvOk env) (hH : ∀ t, NormalizedTo kw (env.H t)) {st : Pipe} {r : Registry} {rd : List Phase}
    {max vis : Nat} {io : PipeIO} {j : Db.Job} {q q' : List Db.Msg} {b : Db.Batch PW} (hI : PSysOfG GF GB c hc env.H ⟨st, r, rd, none⟩ s)
    (hio : io.oldest = r.min) (ha : Props.AfterOkAll (.append j :: q)) (hB : Props.PipeBuilds c env max vis io st j q b q') :
    ∃ js, Gathers j q b q' js ∧ PSysOfG GF (Gives c js b.results) c hc env.H ⟨st, r, rd, some (b, r.min)⟩ s := by
  obtain ⟨hp, h, PE, PT, PK, PF, ix, F, I⟩ := hI
  obtain ⟨K, S, hrd⟩ := I.stage
  have L := I.live
  have hpos : ∀ ph ∈ rd, ∀ t, ph.holds t = true → 0 < r.count t := fun ph hph t ht => by
    rw [show r.count t = rd.countP (Phase.holds t) from I.count t]
    exact List.countP_pos_iff.mpr ⟨ph, hph, ht⟩
  cases S with
  | idle D hb =>
    have ho := (D.idleAt L I.safe).opens io.junk r.min
    rw [← hio] at ho
    obtain ⟨js, hjs, hG⟩ := builds_tx he hH ha hB ho
    refine ⟨js, hjs, hp, h, PE, PT, PK, PF, ix, F, L, I.safe, I.slots, I.wf, I.count, I.told, _, .built D rfl fun hab => ?_, fun ph hph => ?_⟩
    · obtain ⟨s', T, G⟩ := hG hab
      rw [← hio]
      exact T.built G L
    · refine (hrd ph hph).mono (.inr rfl) (fun b hb => ⟨b, hb, Nat.le_refl _⟩) fun t x ht _ hg hk => ⟨hg, ?_⟩
      rcases hk with hk | ⟨t', hk1, hk2, -⟩
      · exact .inl hk
      · exact .inr ⟨t', hk1, hk2, fun _ => min_not_old I.wf (hpos ph hph t ht) hk1⟩
  | built D hb => cases hb
  | both D _ hb => cases hb
  | @fly f o w PE' PT' PK' PF' ix' N s' D G hb =>
    obtain ⟨js, hjs, hG⟩ := builds_tx he hH ha hB ((D.flyAt L I.safe).opens io)
    refine ⟨js, hjs, hp, h, PE, PT, PK, PF, ix, F, L, I.safe, I.slots, I.wf, I.count, I.told, _, .both D G rfl (fun hab => ?_) (fun m hm => ?_), fun ph hph => ?_⟩
    · obtain ⟨s', T, G⟩ := hG hab
      rw [← hio]
      exact T.built G (D.landed L I.safe io)
    · rcases Registry.min_spec I.wf with ⟨h0, -⟩ | ⟨m', hm', hc0, -⟩
      · have h0 : r.min = none := h0
        rw [h0] at hm; cases hm
      · have hm' : r.min = some m' := hm'
        rw [hm'] at hm; cases hm
        have hc0 : 0 < r.count m := hc0
        rw [show r.count m = rd.countP (Phase.holds m) from I.count m] at hc0
        obtain ⟨ph, hph, ht⟩ := List.countP_pos_iff.mp hc0
        exact (hrd ph hph).holds_le ht
    · refine (hrd ph hph).mono (.inr rfl) (fun b hb => ⟨b, hb, Nat.le_refl _⟩) fun t x ht hle hg hk => ⟨hg, hk, ?_⟩
      have htsn := D.tsn
      rcases hk with hk | ⟨t', hk1, hk2, hk3⟩
      · rcases D.ready.kept L x hk with h1 | h1
        · exact .inl h1
        · exact .inr ⟨w.tsn, by omega, h1, fun _ => min_not_old I.wf (hpos ph hph t ht) (by omega)⟩
      · refine .inr ⟨t', hk1, ?_, fun _ => min_not_old I.wf (hpos ph hph t ht) hk1⟩
        exact Multiset.mem_add.mpr (.inr (Multiset.mem_add.mpr (.inr (Multiset.mem_filter.mpr ⟨hk2, hk3 rfl⟩))))

/-- Pages protected from the batch in flight are none of its pages. -/
theorem FlyOk.spares {st : Pipe} {f : Flight} (D : FlyOk c hc H st f hp h F o w PE' PT' PK' PF' ix' N s')
    (L : LiveAt c hc H st.db hp h PE PT PK PF ix F s) {t : Nat} {x : Nat × Node} (hk : Kept (PF + (PE + PT + PK)) F true o t x) :
    2 ≤ x.1 ∧ x.1 ∉ w.dirty.ids := by
  obtain ⟨h1, h2⟩ := L.kept_not_may hk
  exact ⟨h1, fun hd => h2 (D.ready.own.mayDirty _ hd)⟩

theorem Stage.flying {st : Pipe} {bld : Option (Db.Batch PW × Option Nat)} {P : Multiset (Nat × Node)} {K : Nat → Nat × Node → Prop}
    (S : Stage GF GB c hc H st bld hp h P F s K) {f : Flight} (hf : st.fly = some f) :
    ∃ o w PE' PT' PK' PF' ix' N s', FlyOk c hc H st f hp h F o w PE' PT' PK' PF' ix' N s' ∧ (Leads s s' f.results ∧ GF s s') ∧
      ∀ t x, K t x → Kept P F true o t x := by
  cases S with
  | idle D => rw [D.fly] at hf; cases hf
  | built D => rw [D.fly] at hf; cases hf
  | fly D G hb =>
    have := D.fly
    rw [hf] at this; cases this
    exact ⟨_, _, _, _, _, _, _, _, _, D, G, fun _ _ h => h⟩
  | both D G hb =>
    have := D.fly
    rw [hf] at this; cases this
    exact ⟨_, _, _, _, _, _, _, _, _, D, G, fun _ _ h => h.1⟩

theorem PSysOfG.scribble {st : Pipe} {r : Registry} {rd : List Phase} {bld : Option (Db.Batch PW × Option Nat)} {f : Flight} {file : File}
    {cache : Nat → Option Node} (hI : PSysOfG GF GB c hc H ⟨st, r, rd, bld⟩ s) (hf : st.fly = some f)
    (ht : Touched c.g.pageSize (f.x.pages.map (·.1)) st.db.file file) (hcache : ∀ p, cache p = st.db.cache p ∨ p ∈ f.x.pages.map (·.1)) :
    PSysOfG GF GB c hc H ⟨{ st with db := { st.db with file := file, cache := cache, loose := st.db.loose ++ f.x.pages.map (·.1) } }, r, rd, bld⟩ s := by
  obtain ⟨hp, h, PE, PT, PK, PF, ix, F, I⟩ := hI
  obtain ⟨K, S, hrd⟩ := I.stage
  obtain ⟨o, w, PE', PT', PK', PF', ix', N, s', D, G, hK⟩ := S.flying hf
  have L := I.live
  rw [D.prep.ids] at ht hcache ⊢
  have hmay := D.ready.not_dirty L
  have hd2 : ∀ p ∈ w.dirty.ids, 2 ≤ p := fun p hp => (D.ready.own.lt (D.ready.own.dirtyIn p hp)).1
  have L' : LiveAt c hc H { st.db with file := file, cache := cache, loose := st.db.loose ++ w.dirty.ids } hp h PE PT PK PF ix F s := by
    refine L.elsewhere rfl ht hmay fun p n hpn m hm => ?_
    rcases hcache p with e | e
    · have hm : cache p = some m := hm
      rw [e] at hm
      exact L.cache p n m hpn hm
    · exact absurd (mem_ids_of hpn) (hmay p e)
  have hslot := L.slot
  refine ⟨hp, h, PE, PT, PK, PF, ix, F, L', ?_, I.slots, I.wf, I.count, I.told, K, S.elsewhere L L', fun ph hph => ?_⟩
  · exact I.safe.loosen (d' := { st.db with file := file, cache := cache, loose := st.db.loose ++ w.dirty.ids }) ht
      (fun p hp => ⟨hmay p hp, by have := hd2 p hp; omega⟩) rfl rfl (.inl ⟨rfl, hd2⟩)
  · refine (hrd ph hph).mono (.inr rfl) (fun b hb => ⟨b, hb, Nat.le_refl _⟩) fun t x _ _ hg hk => ⟨?_, hk⟩
    have hnd := (D.spares L (hK t x hk)).2
    refine ⟨ht.read hnd hg.1, fun m hm => hg.2 m ?_⟩
    have hm : cache x.1 = some m := hm
    rwa [(hcache x.1).resolve_right hnd] at hm

/-- The writes of the batch in flight leave protected pages alone. -/
theorem FlyOk.good {st : Pipe} {f : Flight} (D : FlyOk c hc H st f hp h F o w PE' PT' PK' PF' ix' N s')
    (L : LiveAt c hc H st.db hp h PE PT PK PF ix F s) (io : PipeIO) {t : Nat} {x : Nat × Node} (hk : Kept (PF + (PE + PT + PK)) F true o t x)
    (hg : Good c kw st.db x) : Good c kw (ioCommit c io f.x st.db).2 x ∧ Good c kw (publish io.keep f.x (ioCommit c io f.x st.db).2) x := by
  obtain ⟨ht, hcache⟩ := ioCommit_frame (d := st.db) D.prep io L.zeroed
  obtain ⟨h2, hnd⟩ := D.spares L hk
  have hslot := L.slot
  have hr : readPage c.g kw x.1 (ioCommit c io f.x st.db).2.file = .ok x.2 := by
    refine ht.read (fun hmem => ?_) hg.1
    rcases List.mem_cons.mp hmem with e | e
    · rw [D.prep.hp] at e
      simp only at e
      omega
    · exact hnd e
  refine ⟨⟨hr, fun m hm => hg.2 m (by rw [hcache] at hm; exact hm)⟩, hr, fun m hm => hg.2 m ?_⟩
  have hm : cacheAfter io.keep f.x.wet (ioCommit c io f.x st.db).2.cache x.1 = some m := hm
  rw [hcache, D.prep.wet] at hm
  unfold cacheAfter at hm
  split at hm
  · split at hm
    · next n hn => exact absurd (Pages.mem_ids.mpr ⟨n, hn⟩) hnd
    · exact hm
  · cases hm

/-- Back to the committed database. -/
theorem LiveAt.rollback {st : Pipe} (L : LiveAt c hc H st.db hp h PE PT PK PF ix F s) (hf : st.fly = none) (o : Option Nat) :
    IdleOk c kw (st.rollback c o) hp h (PF + (PE + PT + PK)) ∧ (st.rollback c o).db = st.db ∧ (st.rollback c o).answers = st.answers ∧
      (st.rollback c o).heads = st.heads := by
  obtain ⟨wr, b, r, ds, h1, h2, h3⟩ := (L.reader o).fresh
  unfold Pipe.rollback
  rw [h1]
  exact ⟨⟨hf, rfl, ⟨b, r, ds, h2, h3⟩, fun p n m _ hm => by cases hm⟩, rfl, rfl, rfl⟩

theorem failAll_error {rs : List Nat} {e : Err} {x : Db.Answer} (hx : x ∈ failAll rs e) {p : Nat} : x.2 ≠ .ok p := by
  obtain ⟨t, -, rfl⟩ := List.mem_map.mp hx
  simp

theorem abort_error {rs : List Nat} {i : Nat} {e : Err} {x : Db.Answer} (hx : x ∈ Db.abortAnswers rs i e) {p : Nat} : x.2 ≠ .ok p := by
  obtain ⟨⟨t, k⟩, -, rfl⟩ := List.mem_map.mp hx
  dsimp only
  split <;> simp

theorem PSysOfG.fail {st : Pipe} {r : Registry} {rd : List Phase} {bld : Option (Db.Batch PW × Option Nat)} {f : Flight} {io : PipeIO}
    {st' : Pipe} (hI : PSysOfG GF GB c hc H ⟨st, r, rd, bld⟩ s) (hf : st.fly = some f) (ha : st.acknowledge c io f = (false, st')) :
    PSysOfG GF' GB' c hc H ⟨{ st'.rollback c r.min with answers := (st'.rollback c r.min).answers ++ dropped bld }, r, rd, none⟩ s ∧
      ∃ e, Db.Fatal e ∧ (st'.rollback c r.min).answers = st.answers ++ failAll f.responders e := by
  obtain ⟨hp, h, PE, PT, PK, PF, ix, F, I⟩ := hI
  obtain ⟨K, S, hrd⟩ := I.stage
  obtain ⟨o, w, PE', PT', PK', PF', ix', N, s', D, G, hK⟩ := S.flying hf
  have L := I.live
  unfold Pipe.acknowledge at ha
  rcases ioCommit_spec D.ready L I.safe D.prep io with ⟨d', h1, -⟩ | ⟨e, d', h1, hfat, L', S', hm⟩
  · simp only at h1
    rw [h1] at ha; cases ha
  simp only at h1
  rw [h1] at ha
  cases ha
  have hgood : ∀ {t x}, K t x → Good c kw st.db x → Good c kw d' x := fun {t x} hk hg => by
    have := (D.good L io (hK t x hk) hg).1
    rwa [h1] at this
  obtain ⟨R, e1, e2, e3⟩ := LiveAt.rollback (st := { st with db := d', fly := none, answers := st.answers ++ failAll f.responders e }) L' rfl r.min
  refine ⟨⟨hp, h, PE, PT, PK, PF, ix, F, ?_, ?_, ?_, I.wf, I.count, ⟨fun x hx p hp => ?_, fun p hp => ?_⟩, _, .idle ⟨R.1, R.2, R.3, R.4⟩ rfl, fun ph hph => ?_⟩, e, hfat, e2⟩
  · simp only [e1]; exact L'
  · simp only [e1]; exact S'
  · simp only [e1, hm]; exact I.slots
  · simp only [e2] at hx
    rcases List.mem_append.mp hx with hx | hx
    · rcases List.mem_append.mp hx with hx | hx
      · exact I.told.1 x hx p hp
      · exact absurd hp (failAll_error hx)
    · cases bld with
      | none => cases hx
      | some y => exact absurd hp (failAll_error hx)
  · simp only [e3] at hp; exact I.told.2 p hp
  · simp only [e1]
    refine (hrd ph hph).mono (.inr rfl) (fun b hb => ⟨b, by rw [hm]; exact hb, Nat.le_refl _⟩) fun t x _ _ hg hk => ⟨hgood hk hg, ?_⟩
    rcases hK t x hk with hk | ⟨t', k1, k2, -⟩
    · exact .inl hk
    · exact .inr ⟨t', k1, k2, by simp⟩

theorem PSysOfG.land {st : Pipe} {r : Registry} {rd : List Phase} {bld : Option (Db.Batch PW × Option Nat)} {f : Flight} {io : PipeIO}
    {st' : Pipe} (hI : PSysOfG GF GB c hc H ⟨st, r, rd, bld⟩ s) (hf : st.fly = some f) (ha : st.acknowledge c io f = (true, st')) :
    ∃ s', PSysOfG GF' GB c hc H ⟨st', r, rd, bld⟩ s' ∧ Props.Grown s s' ∧ GF s s' ∧ f.head = Spec.head s'.log := by
  obtain ⟨hp, h, PE, PT, PK, PF, ix, F, I⟩ := hI
  obtain ⟨K, S, hrd⟩ := I.stage
  have L := I.live
  obtain ⟨a, b, hs0, hs1, hsa, hsb⟩ := slots_seen L.latest L.node I.slots
  simp only at hs0 hs1
  -- everything that does not depend on whether a batch was built meanwhile
  have main : ∀ {o w PE' PT' PK' PF' ix' N s'}, FlyOk c hc H st f hp h F o w PE' PT' PK' PF' ix' N s' → (Leads s s' f.results ∧ GF s s') →
      (∀ t x, K t x → Kept (PF + (PE + PT + PK)) F true o t x) → ∀ K' : Nat → Nat × Node → Prop,
      (∀ t x, t ≤ h.tsn → K t x → K' t x) →
      (IdleOk c kw st' f.x.hp (newHeader w h.schema) (PF' + (PE' + PT' + PK')) →
        Stage GF' GB c hc H st' bld f.x.hp (newHeader w h.schema) (PF' + (PE' + PT' + PK')) (newFree w N F o) s' K') →
      ∃ s', PSysOfG GF' GB c hc H ⟨st', r, rd, bld⟩ s' ∧ Props.Grown s s' ∧ GF s s' ∧ f.head = Spec.head s'.log := by
    intro o w PE' PT' PK' PF' ix' N s' D ⟨G, hGF⟩ hK K' hKK hst
    unfold Pipe.acknowledge at ha
    rcases ioCommit_spec D.ready L I.safe D.prep io with ⟨d', h1, -, L', S', -, C⟩ | ⟨e, d', h1, -⟩
    swap
    · rw [h1] at ha; cases ha
    rw [h1] at ha
    cases ha
    have htsn := D.tsn
    have hpin := C.pinned
    have hnode := L'.node
    have htn : (newHeader w h.schema).tsn = w.tsn := rfl
    have hgood : ∀ {t x}, K t x → Good c kw st.db x → Good c kw (publish io.keep f.x d') x := fun {t x} hk hg => by
      have := (D.good L io (hK t x hk) hg).2
      rwa [h1] at this
    refine ⟨s', ⟨f.x.hp, _, _, _, _, _, _, _, L', S', ?_, I.wf, I.count, ⟨fun x hx p hp => ?_, fun p hp => ?_⟩, K', hst ⟨rfl, D.hp, ?_, ?_⟩, fun ph hph => ?_⟩, G.1, hGF, D.head⟩
    · intro y hy hyt
      simp only [hpin] at hy
      unfold pinHeader at hy
      split at hy
      · rcases hy with hy | hy
        · simp only [hnode] at hy; cases hy; rfl
        · simp only [hs1] at hy; cases hy
          have := hsb.le; omega
      · rcases hy with hy | hy
        · simp only [hs0] at hy; cases hy
          have := hsa.le; omega
        · simp only [hnode] at hy; cases hy; rfl
    · rcases List.mem_append.mp hx with hx | hx
      · have := I.told.1 x hx p hp
        have := G.1.1.length_le
        omega
      · refine G.2 p ?_
        rw [← hp]
        exact (List.of_mem_zip hx).2
    · rcases List.mem_append.mp hp with hp | hp
      · have := I.told.2 p hp
        have := G.1.1.length_le
        omega
      · rw [List.mem_singleton, D.head] at hp
        unfold Spec.head at hp
        split at hp
        · cases hp
        · cases hp; exact Nat.le_refl _
    · exact ⟨w.base, w.reusable, fun _ => none, D.wr.trans (D.ready.primed_eq h.schema), by simp⟩
    · intro p n m hpn hm
      have hm : st.wet.get p = some m := hm
      rw [D.wet, D.prep.wet] at hm
      have hv := D.ready.own.sees p n hpn
      unfold Writer.view at hv
      rw [hm] at hv
      exact Option.some.inj hv
    · refine (hrd ph hph).mono (.inl (by omega)) (fun y hy => ?_) fun t x _ hle hg hk => ⟨hgood hk hg, hKK t x hle hk⟩
      simp only [hs1] at hy
      cases hy
      simp only [hpin]
      unfold pinHeader
      split
      · exact ⟨b, hs1, Nat.le_refl _⟩
      · exact ⟨_, hnode, by have := hsb.le; omega⟩
  cases S with
  | idle D => rw [D.fly] at hf; cases hf
  | built D => rw [D.fly] at hf; cases hf
  | @fly f' o w PE' PT' PK' PF' ix' N s' D G hb =>
    have := D.fly
    rw [hf] at this; cases this
    refine main D G (fun _ _ h => h) _ (fun t x hle hk => ?_) fun J => .idle J hb
    have htsn := D.tsn
    rcases hk with hk | ⟨t', k1, k2, k3⟩
    · rcases D.ready.kept L x hk with h1 | h1
      · exact .inl h1
      · exact .inr ⟨w.tsn, by omega, h1, by simp⟩
    · exact .inr ⟨t', k1, Multiset.mem_add.mpr (.inr (Multiset.mem_add.mpr (.inr (Multiset.mem_filter.mpr ⟨k2, k3 rfl⟩)))), by simp⟩
  | both D G hb B =>
    have := D.fly
    rw [hf] at this; cases this
    exact main D G (fun _ _ h => h.1) _ (fun t x _ hk => hk.2) fun J => .built J hb B

theorem PSysOfG.dispatch (hg : c.g.pageSize = defaultPageSize) {st : Pipe} {r : Registry} {rd : List Phase} {b : Db.Batch PW} {o : Option Nat}
    {io : PipeIO} (hI : PSysOfG GF GB c hc H ⟨st, r, rd, some (b, o)⟩ s) (hf : st.fly = none) :
    PSysOfG GB GB' c hc H ⟨st.dispatch c io b, r, rd, none⟩ s ∧
      (((st.dispatch c io b).answers = st.answers ∧ ∃ f, (st.dispatch c io b).fly = some f ∧ f.responders = b.responders ∧ f.results = b.results) ∨
        (st.dispatch c io b).fly = none ∧ ∃ as, (st.dispatch c io b).answers = st.answers ++ as ∧
          ((∃ i e, b.abort = some (i, e) ∧ as = Db.abortAnswers b.responders i e) ∨ ∃ e, Db.Fatal e ∧ as = failAll b.responders e)) := by
  obtain ⟨hp, h, PE, PT, PK, PF, ix, F, I⟩ := hI
  obtain ⟨K, S, hrd⟩ := I.stage
  have L := I.live
  cases S with
  | idle D hb => cases hb
  | fly D _ hb => cases hb
  | both D => rw [D.fly] at hf; cases hf
  | built D hb B =>
  cases hb
  have back : ∀ as : List Db.Answer, (∀ x ∈ as, ∀ p, x.2 ≠ .ok p) →
      PSysOfG GB GB' c hc H ⟨{ st with answers := st.answers ++ as }.rollback c io.oldest, r, rd, none⟩ s ∧
      ({ st with answers := st.answers ++ as }.rollback c io.oldest).fly = none ∧
      ({ st with answers := st.answers ++ as }.rollback c io.oldest).answers = st.answers ++ as := by
    intro as has
    obtain ⟨R, e1, e2, e3⟩ := LiveAt.rollback (st := { st with answers := st.answers ++ as }) L hf io.oldest
    refine ⟨⟨hp, h, PE, PT, PK, PF, ix, F, ?_, ?_, ?_, I.wf, I.count, ⟨fun x hx p hp => ?_, fun p hp => ?_⟩, _, .idle R rfl, fun ph hph => ?_⟩, R.1, e2⟩
    · simp only [e1]; exact L
    · simp only [e1]; exact I.safe
    · simp only [e1]; exact I.slots
    · simp only [e2] at hx
      rcases List.mem_append.mp hx with hx | hx
      · exact I.told.1 x hx p hp
      · exact absurd hp (has x hx p)
    · simp only [e3] at hp; exact I.told.2 p hp
    · simp only [e1]
      refine (hrd ph hph).mono (.inr rfl) (fun b hb => ⟨b, hb, Nat.le_refl _⟩) fun t x _ _ hg hk => ⟨hg, ?_⟩
      rcases hk with hk | ⟨t', k1, k2, -⟩
      · exact .inl hk
      · exact .inr ⟨t', k1, k2, by simp⟩
  unfold Pipe.dispatch
  cases ha : b.abort with
  | some y =>
    obtain ⟨k1, k2, k3⟩ := back (Db.abortAnswers b.responders y.1 y.2) fun x hx p hp => abort_error hx hp
    exact ⟨k1, .inr ⟨k2, _, k3, .inl ⟨_, _, rfl, rfl⟩⟩⟩
  | none =>
    simp only
    obtain ⟨d0, PE1, PT1, PK1, PF1, ix1, PE', PT', PK', PF', ix', s', L1, ho, hP, hbp, T, G⟩ := B ha
    rw [hbp]
    rcases prepareCommit_spec hg L1 T io.ordLaw with ⟨y, w', PF'', N, h1, R, X⟩ | ⟨e, h1, hfat⟩
    · rw [h1]
      rw [ho] at R
      refine ⟨⟨hp, h, PE, PT, PK, PF, ix, F, L, I.safe, I.slots, I.wf, I.count, I.told, _,
        .fly ⟨rfl, R.elsewhere (L1.rests_eq L hP), X, rfl, rfl, rfl, ?_⟩ G rfl, hrd⟩, .inl ⟨rfl, _, rfl, rfl, rfl⟩⟩
      show Db.headOfNext w'.nextPos = _
      rw [R.next]
      exact Db.headOfNext_eq _
    · rw [h1]
      obtain ⟨k1, k2, k3⟩ := back (failAll b.responders e) fun x hx p => failAll_error hx
      exact ⟨k1, .inr ⟨k2, _, k3, .inr ⟨e, hfat, rfl⟩⟩⟩

/-- The database was just opened. -/
theorem PSysOfG.opened (hL : LiveS c hc H d s) {st : Pipe} (hs : Pipe.start c d = .ok st) : PSysOfG GF GB c hc H (.init st) s := by
  obtain ⟨hp, h, PE, PT, PK, PF, ix, F, L, S, hsl⟩ := hL
  obtain ⟨wr, b, r, ds, h1, h2, h3⟩ := L.fresh
  unfold Pipe.start at hs
  rw [h1] at hs
  cases hs
  exact ⟨hp, h, PE, PT, PK, PF, ix, F, L, S, hsl, .nil, fun _ => rfl, by simp [PSys.init, Told], _,
    .idle ⟨rfl, rfl, ⟨b, r, ds, h2, h3⟩, fun p n m _ hm => by cases hm⟩ rfl, by simp [PSys.init]⟩

theorem PSysOf.opened (hL : LiveS c hc H d s) {st : Pipe} (hs : Pipe.start c d = .ok st) : PSysOf c hc H (.init st) s := PSysOfG.opened hL hs

theorem PSysAt.crash {σ : PSys} (I : PSysAt GF GB c hc H σ hp h PE PT PK PF ix F s) (hd : σ.st.db.doubt = false) {f : File}
    (hf : PipeCrash c σ.st f) {kw0 : Nat} (hk0 : kw0 ≤ 16) : ∃ d' s', reopen c kw0 f = .ok d' ∧ LiveS c hc H d' s' ∧ Props.Grown s s' ∧
      (s' = s ∨ σ.st.fly.isSome = true ∧ GF s s') := by
  have L := I.live
  obtain ⟨K, S, -⟩ := I.stage
  cases hf with
  | idle _ hf =>
    obtain ⟨d', h1, h2, -⟩ := crash_recovers ⟨hp, h, PE, PT, PK, PF, ix, F, L, I.safe⟩ hd hf hk0
    exact ⟨d', s, h1, h2, .refl s, .inl rfl⟩
  | data fl hfl V =>
    obtain ⟨o, w, PE', PT', PK', PF', ix', N, s', D, G, -⟩ := S.flying hfl
    rw [D.prep.ids] at V
    obtain ⟨d', h1, h2, h3⟩ := D.ready.dataCrash L I.safe hd V hk0
    exact ⟨d', s, h1, h2, .refl s, .inl rfl⟩
  | header fl f1 f2 d1 hfl hf1 hd1 hf2 V =>
    obtain ⟨o, w, PE', PT', PK', PF', ix', N, s', D, G, -⟩ := S.flying hfl
    rw [D.prep.ids] at hd1
    rw [D.prep.hp] at V hf2
    obtain ⟨htouch, hread⟩ := D.prep.writes σ.st.db.file L.zeroed
    rw [← hf1] at htouch hread
    obtain ⟨-, hr⟩ := writeAt_page (p := 1 - hp.id) D.prep.len D.prep.head htouch.zeroed
    simp only at hf2
    rw [← hf2] at hr
    obtain ⟨d', h1, h2, h3⟩ := D.ready.headCrash L I.safe hd htouch hread (readPage_header_width hr) hd1 V hk0
    rcases h2 with h2 | h2
    · exact ⟨d', s, h1, h2, .refl s, .inl rfl⟩
    · exact ⟨d', s', h1, h2, G.1.1, .inr ⟨by rw [hfl]; rfl, G.2⟩⟩

theorem PSysOfG.arrive {σ : PSys} (hI : PSysOfG GF GB c hc H σ s) : PSysOfG GF GB c hc H { σ with rd := σ.rd ++ [.start] } s := by
  obtain ⟨hp, h, PE, PT, PK, PF, ix, F, I⟩ := hI
  obtain ⟨K, S, hrd⟩ := I.stage
  refine ⟨hp, h, PE, PT, PK, PF, ix, F, I.live, I.safe, I.slots, I.wf, fun t => ?_, I.told, K, S, fun ph hph => ?_⟩
  · rw [List.countP_append, ← I.count t]; simp [Phase.holds]
  · rcases List.mem_append.mp hph with hph | hph
    · exact hrd ph hph
    · rw [List.mem_singleton.mp hph]; trivial

theorem PSysOfG.evict {st : Pipe} {r : Registry} {rd : List Phase} {bld : Option (Db.Batch PW × Option Nat)} (hI : PSysOfG GF GB c hc H ⟨st, r, rd, bld⟩ s)
    (p : Nat) : PSysOfG GF GB c hc H ⟨{ st with db := { st.db with cache := fun q => if q = p then none else st.db.cache q } }, r, rd, bld⟩ s := by
  obtain ⟨hp, h, PE, PT, PK, PF, ix, F, I⟩ := hI
  refine ⟨hp, h, PE, PT, PK, PF, ix, F, I.recache fun q m hm => ?_⟩
  split at hm
  · cases hm
  · exact .inl hm

theorem PSysOfG.load {st : Pipe} {r : Registry} {rd : List Phase} {bld : Option (Db.Batch PW × Option Nat)} (hI : PSysOfG GF GB c hc H ⟨st, r, rd, bld⟩ s)
    {p : Nat} {n : Node} (hr : readPage c.g st.db.m.kw p st.db.file = .ok n) :
    PSysOfG GF GB c hc H ⟨{ st with db := { st.db with cache := fun q => if q = p then some n else st.db.cache q } }, r, rd, bld⟩ s := by
  obtain ⟨hp, h, PE, PT, PK, PF, ix, F, I⟩ := hI
  refine ⟨hp, h, PE, PT, PK, PF, ix, F, I.recache fun q m hm => ?_⟩
  split at hm
  · next e =>
    cases hm; subst e
    have hw : st.db.m.kw = kw := I.live.width
    rw [hw] at hr; exact .inr hr
  · exact .inl hm

theorem PSysOf.step (hg : c.g.pageSize = defaultPageSize) {env : Db.Env} (he : Db.EnvOk env) (hH : ∀ t, NormalizedTo kw (env.H t)) {σ σ' : PSys}
    (hI : PSysOf c hc env.H σ s) (hstep : PStep c env (fun σ => ¬ σ.Exposed) σ σ') : ∃ s', PSysOf c hc env.H σ' s' ∧ Props.Grown s s' := by
  cases hstep with
  | arrive => exact ⟨s, hI.arrive, .refl s⟩
  | reader hr hx =>
    obtain ⟨hp, h, PE, PT, PK, PF, ix, F, I⟩ := hI
    exact ⟨s, ⟨hp, h, PE, PT, PK, PF, ix, F, I.reader hr hx⟩, .refl s⟩
  | evict st r rd bld p => exact ⟨s, hI.evict p, .refl s⟩
  | load _ _ hr => exact ⟨s, hI.load hr, .refl s⟩
  | build hio ha hB =>
    obtain ⟨js, -, h⟩ := hI.build he hH hio ha hB
    exact ⟨s, h.mono (fun _ _ h => h) fun _ _ _ => trivial, .refl s⟩
  | scribble hf ht hcache => exact ⟨s, hI.scribble hf ht hcache, .refl s⟩
  | land hf ha =>
    obtain ⟨s', h1, h2, -⟩ := hI.land hf ha
    exact ⟨s', h1, h2⟩
  | fail hf ha => exact ⟨s, (hI.fail hf ha).1, .refl s⟩
  | dispatch hf => exact ⟨s, (hI.dispatch hg hf).1, .refl s⟩
  | crash hd hf hk ho hs =>
    obtain ⟨hp, h, PE, PT, PK, PF, ix, F, I⟩ := hI
    obtain ⟨d', s', h1, h2, h3, -⟩ := I.crash hd hf hk
    rw [ho] at h1; cases h1
    exact ⟨s', .opened h2 hs, h3⟩

/-- The committed database only grows. -/
theorem PSysOf.runs (hg : c.g.pageSize = defaultPageSize) {env : Db.Env} (he : Db.EnvOk env) (hH : ∀ t, NormalizedTo kw (env.H t)) {σ σ' : PSys}
    (hI : PSysOf c hc env.H σ s) (hr : PRuns c env (fun σ => ¬ σ.Exposed) σ σ') : ∃ s', PSysOf c hc env.H σ' s' ∧ Props.Grown s s' := by
  induction hr with
  | refl => exact ⟨s, hI, .refl s⟩
  | tail _ hs ih =>
    obtain ⟨s1, h1, h2⟩ := ih
    obtain ⟨s2, h3, h4⟩ := h1.step hg he hH hs
    exact ⟨s2, h3, h2.trans h4⟩

theorem PSysInv.opened (hL : LiveS c hc H d s) {st : Pipe} (hs : Pipe.start c d = .ok st) : PSysInv c hc H (.init st) := ⟨s, .opened hL hs⟩

theorem PSysInv.runs (hg : c.g.pageSize = defaultPageSize) {env : Db.Env} (he : Db.EnvOk env) (hH : ∀ t, NormalizedTo kw (env.H t)) {σ σ' : PSys}
    (hI : PSysInv c hc env.H σ) (hr : PRuns c env (fun σ => ¬ σ.Exposed) σ σ') : PSysInv c hc env.H σ' := by
  obtain ⟨s, h⟩ := hI
  obtain ⟨s', h1, -⟩ := h.runs hg he hH hr
  exact ⟨s', h1⟩

end Uma.Page
