import Verif.Props.Page
import Mathlib.Logic.Relation

/-!
# Readers, the writer and crashes, interleaved

`Mvcc::reader` and `Reader::drop` (umadb-core/src/mvcc.rs 688-720, 2453-2459), page reads through the cache (603-625), the
writer (722-755) and `commit` (810-854) as a transition system.  Atomic are: loading one of the two pinned headers, an
operation of the registry (under its mutex), reading a page from the file, and one insertion into or removal from the cache.

Simplifications.  A transaction is computed in one step, when it asks the registry for the oldest reader (mvcc.rs 1141):
until it commits it changes nothing but its own pages, and the pages it reads do not change (`TxAt.base`).  While
`commit` writes the data pages and moves them into the cache, their slots in the file and their entries in the cache may
hold anything (`SStep.scribble`).  Errors of reads by readers end the reader; they are not modelled.  Only one thread
writes.
-/

namespace Uma.Page
open Uma.Codec Uma.Mvcc Uma.Spec

/-! ## The system -/

/-- `get_latest_header_page` followed by `as_header_node`, mvcc.rs 536-585, from the pages loaded from the two slots. -/
def observe (a b : HPage) : Except Err Header := do
  let p ← latestPage a b
  asHeader p.node

/-- Where a thread is in the life of a `Reader`.  The database `d0` is what the whole database was when slot 0 was loaded
the second time; nothing depends on it. -/
inductive Phase where
  /-- At the head of the loop, mvcc.rs 690. -/
  | start
  | saw0 (a : HPage)
  | saw (h : Header)
  | registered (h : Header)
  | re0 (h : Header) (a : HPage) (d0 : PDb)
  /-- The second look found a newer header; `unregister` comes next. -/
  | stale (h : Header)
  /-- `reader` returned; page reads in progress have read `pend` from the file. -/
  | live (h : Header) (d0 : PDb) (pend : List (Nat × Node))
  | closed

/-- The reader is in the registry with transaction number `t`. -/
def Phase.holds (t : Nat) : Phase → Bool
  | .registered h | .re0 h _ _ | .stale h | .live h _ _ => h.tsn == t
  | _ => false

/-- One step of a reader. -/
inductive RStep (c : Conf) : PDb → Registry → Phase → PDb → Registry → Phase → Prop
  | load0 (d r) : RStep c d r .start d r (.saw0 d.m.h0)
  | load1 {d : PDb} {r a h} : observe a d.m.h1 = .ok h → RStep c d r (.saw0 a) d r (.saw h)
  | register (d r h) : RStep c d r (.saw h) d (r.register h.tsn) (.registered h)
  | reload0 (d r h) : RStep c d r (.registered h) d r (.re0 h d.m.h0 d)
  | confirm {d : PDb} {r a h h' d0} : observe a d.m.h1 = .ok h' → h'.tsn = h.tsn → RStep c d r (.re0 h a d0) d r (.live h d0 [])
  | outdated {d : PDb} {r a h h' d0} : observe a d.m.h1 = .ok h' → h'.tsn ≠ h.tsn → RStep c d r (.re0 h a d0) d r (.stale h)
  | retry (d r h) : RStep c d r (.stale h) d (r.unregister h.tsn) .start
  /-- A page below the roots of the snapshot is read from the file, mvcc.rs 614-617. -/
  | fetch {d : PDb} {r h d0 pend p n} : p ∈ usedPages c d h → d.cache p = none → readPage c.g d.m.kw p d.file = .ok n →
      RStep c d r (.live h d0 pend) d r (.live h d0 ((p, n) :: pend))
  /-- What was read goes into the cache. -/
  | fill (d r h d0 l p n l') : RStep c d r (.live h d0 (l ++ (p, n) :: l'))
      { d with cache := fun q => if q = p then some n else d.cache q } r (.live h d0 (l ++ l'))
  | close (d r h d0) : RStep c d r (.live h d0 []) d (r.unregister h.tsn) .closed

/-- The transaction of the writer: computed, or being written after `process_freed_page_ids`. -/
inductive Busy where
  | built (w : PW)
  | writing (w : PW) (io : IO) (wr : Writer)

def Busy.pw : Busy → PW
  | .built w => w
  | .writing w _ _ => w

structure Sys where
  d : PDb
  reg : Registry
  rd : List Phase
  tx : Option Busy

/-- The database was just opened. -/
def Sys.init (d : PDb) : Sys := ⟨d, [], [], none⟩

/-- One step of a reader, of the writer, of the cache, or a crash. -/
inductive SStep (c : Conf) (env : Db.Env) : Sys → Sys → Prop
  | arrive (σ) : SStep c env σ { σ with rd := σ.rd ++ [.start] }
  | reader {d r rd rd' ph d' r' ph' tx} : RStep c d r ph d' r' ph' →
      SStep c env ⟨d, r, rd ++ ph :: rd', tx⟩ ⟨d', r', rd ++ ph' :: rd', tx⟩
  /-- The cache drops a page. -/
  | evict (σ) (p : Nat) : SStep c env σ { σ with d := { σ.d with cache := fun q => if q = p then none else σ.d.cache q } }
  /-- The writer reads a page of the committed database into the cache. -/
  | load {σ} {h p n} : σ.d.header = .ok h → p ∈ usedPages c σ.d h → readPage c.g σ.d.m.kw p σ.d.file = .ok n →
      SStep c env σ { σ with d := { σ.d with cache := fun q => if q = p then some n else σ.d.cache q } }
  /-- The writer thread computes a batch. -/
  | batch {d r rd max vis j q b q'} : Props.AfterOkAll (.append j :: q) →
      Props.Builds (pageBackend c) env max vis { d with oldest := r.min } j q b q' → b.abort = none →
      SStep c env ⟨d, r, rd, none⟩ ⟨{ d with oldest := r.min }, r, rd, some (.built b.w)⟩
  /-- A request through the direct interface, db.rs 214-239. -/
  | append {d r rd req w p w'} : Db.AfterOk req → PDb.writer c { d with oldest := r.min } = .ok w →
      Db.processAppend (pageBackend c) env req (fun _ => Db.Cancel.never) w = (.ok p, w') →
      SStep c env ⟨d, r, rd, none⟩ ⟨{ d with oldest := r.min }, r, rd, some (.built w')⟩
  /-- `process_freed_page_ids`. -/
  | settle {d r rd w io wr} : processFreed io.ord w.wr = (.ok (), wr) →
      SStep c env ⟨d, r, rd, some (.built w)⟩ ⟨d, r, rd, some (.writing w io wr)⟩
  /-- Data pages are being written and moved into the cache. -/
  | scribble {d r rd w io wr file cache} : Touched c.g.pageSize wr.dirty.ids d.file file →
      (∀ p, cache p = d.cache p ∨ p ∈ wr.dirty.ids) →
      SStep c env ⟨d, r, rd, some (.writing w io wr)⟩
        ⟨{ d with file := file, cache := cache, loose := d.loose ++ wr.dirty.ids }, r, rd, some (.writing w io wr)⟩
  /-- `commit` succeeds or fails. -/
  | finish {d r rd w io wr res d'} : commitPages c io w.hp wr d = (res, d') →
      SStep c env ⟨d, r, rd, some (.writing w io wr)⟩ ⟨d', r, rd, none⟩
  /-- A crash, but not while a header is being written; the database is opened again. -/
  | crash {σ : Sys} {f kw0 d'} : σ.d.doubt = false → Crash c σ.d f → kw0 ≤ 16 → reopen c kw0 f = .ok d' → SStep c env σ (.init d')
  /-- A crash during `commit`. -/
  | commitCrash {d r rd w io wr f kw0 d'} : d.doubt = false → CommitCrash c io { w with db := d } f → kw0 ≤ 16 →
      reopen c kw0 f = .ok d' → SStep c env ⟨d, r, rd, some (.writing w io wr)⟩ (.init d')

/-- Any number of steps. -/
def Runs (c : Conf) (env : Db.Env) : Sys → Sys → Prop := Relation.ReflTransGen (SStep c env)

/-! ## Lemmas about the database -/

variable {c : Conf} {kw : Nat} {hc : ConfOk c kw} {H : String → Db.TagHash} {d : PDb} {hp : HPage} {h : Header}
  {PE PT PK PF : Multiset (Nat × Node)} {ix : Nat → List Nat} {F : Multiset (Nat × Nat)} {s : Spec.Db}
  {PE' PT' PK' PF' : Multiset (Nat × Node)} {ix' : Nat → List Nat} {w : Writer} {a : Db.Abs}

/-- The transaction goes on while other things happen to the database. -/
theorem TxAt.elsewhere (T : TxAt c hc d h F w PE' PT' PK' PF' ix' a) (L : LiveAt c hc H d hp h PE PT PK PF ix F s) {d' : PDb}
    (L' : LiveAt c hc H d' hp h PE PT PK PF ix F s) (ho : d'.oldest = d.oldest) :
    TxAt c hc d' h F w PE' PT' PK' PF' ix' a := by
  refine ⟨fun p hp => ?_, T.tsn, by rw [ho]; exact T.inv, by rw [ho]; exact T.queue, T.trees, T.index, T.bound, T.nextPos, T.room, T.grows⟩
  obtain ⟨n, hn⟩ := mem_ids.mp (L.mem_of_rests hp)
  rw [T.base p hp, L.sees p n hn, L'.sees p n hn]

/-- What is committed is determined by the database. -/
theorem LiveAt.unique (L : LiveAt c hc H d hp h PE PT PK PF ix F s) {hp1 : HPage} {h1 : Header} {PE1 PT1 PK1 PF1 : Multiset (Nat × Node)}
    {ix1 : Nat → List Nat} {F1 : Multiset (Nat × Nat)} {s1 : Spec.Db} (L1 : LiveAt c hc H d hp1 h1 PE1 PT1 PK1 PF1 ix1 F1 s1) :
    hp1 = hp ∧ h1 = h ∧ F1 = F ∧ ∀ x, x ∈ PF1 + (PE1 + PT1 + PK1) ↔ x ∈ PF + (PE + PT + PK) := by
  have e1 : hp1 = hp := Except.ok.inj (L1.latest.symm.trans L.latest)
  have e2 : h1 = h := Except.ok.inj (L1.header_eq.symm.trans L.header_eq)
  subst e1 e2
  refine ⟨rfl, rfl, L1.free_eq.symm.trans L.free_eq, fun x => ?_⟩
  have hids : ids (PF1 + (PE1 + PT1 + PK1)) = ids (PF + (PE + PT + PK)) := L1.used_eq.symm.trans L.used_eq
  obtain ⟨p, n⟩ := x
  constructor
  · intro hx
    obtain ⟨m, hm⟩ := mem_ids.mp (hids ▸ mem_ids_of hx)
    have := L.sees p m hm
    rw [L1.sees p n hx] at this
    cases this; exact hm
  · intro hx
    obtain ⟨m, hm⟩ := mem_ids.mp (hids ▸ mem_ids_of hx : p ∈ ids (PF1 + (PE1 + PT1 + PK1)))
    have := L1.sees p m hm
    rw [L.sees p n hx] at this
    cases this; exact hm

/-- What `commit` changes, whether it succeeds or not. -/
theorem commitPages_frame (hc : ConfOk c kw) {io : IO} {d' : PDb} {r : Except Err Unit} (hkw : w.kw = kw) (hn : w.dirty.ids.Nodup)
    (hz : d.file.Zeroed) (he : commitPages c io hp w d = (r, d')) :
    Touched c.g.pageSize ((if hp.id = 0 then 1 else 0) :: w.dirty.ids) d.file d'.file ∧
    (∀ p, p ∉ w.dirty.ids → d'.cache p = d.cache p ∨ d'.cache p = none) ∧ d'.oldest = d.oldest := by
  have ps9 : 9 ≤ c.g.pageSize := by have := hc.ps; omega
  have hid : ∀ {p}, cowHeader hp w.roots = .ok p → p.id = if hp.id = 0 then 1 else 0 := by
    intro p hp
    unfold cowHeader at hp
    obtain ⟨_, -, hp⟩ := Props.bind_ok_iff.mp hp
    cases hp; rfl
  have hcache : ∀ p, p ∉ w.dirty.ids → cacheAfter io.keep w.dirty d.cache p = d.cache p ∨ cacheAfter io.keep w.dirty d.cache p = none := by
    intro p hp
    unfold cacheAfter
    split
    · split
      · next n hn => exact absurd (Pages.mem_ids.mpr ⟨n, hn⟩) hp
      · exact .inl rfl
    · exact .inr rfl
  unfold commitPages at he
  split at he
  · cases he; exact ⟨.refl hz, fun _ _ => .inl rfl, rfl⟩
  next hfit =>
  have hfit := not_not.mp hfit
  split at he
  · cases he
    exact ⟨(scramble_touched _ _ hz).mono fun p hp => List.mem_cons_of_mem _ hp, fun _ _ => .inl rfl, rfl⟩
  obtain ⟨ht, -⟩ := writePages_spec ps9 hc.big (hkw ▸ hc.kw) c.zeroFill hn hfit hz
  split at he
  · next e f hwr =>
    rw [hwr] at ht
    cases he
    exact ⟨ht.mono fun p hp => List.mem_cons_of_mem _ hp, fun _ _ => .inl rfl, rfl⟩
  next m f hwr =>
  rw [hwr] at ht
  simp only at ht
  have ht' : Touched c.g.pageSize ((if hp.id = 0 then 1 else 0) :: w.dirty.ids) d.file f := ht.mono fun p hp => List.mem_cons_of_mem _ hp
  unfold commitHead at he
  split at he
  · cases he; exact ⟨ht', hcache, rfl⟩
  next p hcow =>
  have hp := hid hcow
  split at he
  · cases he; exact ⟨ht', hcache, rfl⟩
  next hfit2 =>
  split at he
  · cases he
    exact ⟨ht'.trans ((scramble_touched [p.id] _ ht.zeroed).mono (by simp [hp])), hcache, rfl⟩
  rcases writeOnePage_result ps9 hc.big (hkw ▸ hc.kw) (buf := (List.range c.g.pageSize).map io.buf) (by simp) c.zeroFill p.id
    (not_not.mp hfit2) ht.zeroed with ⟨f', h1, h2, -⟩ | ⟨e, h1, -⟩
  · have he := he
    simp only [PDb.fsync, h1] at he
    cases he
    exact ⟨ht'.trans (h2.mono (by simp [hp])), hcache, rfl⟩
  · simp only [PDb.fsync, h1] at he
    cases he
    exact ⟨ht', hcache, rfl⟩

/-! ## The invariant -/

/-- Page `x` is in the file, and the cache does not contradict it. -/
def Good (c : Conf) (kw : Nat) (d : PDb) (x : Nat × Node) : Prop :=
  readPage c.g kw x.1 d.file = .ok x.2 ∧ ∀ m, d.cache x.1 = some m → m = x.2

/-- A page of the snapshot with number `t0` is still in use, or was freed later - and cannot be taken by the running
transaction. -/
def Kept (P : Multiset (Nat × Node)) (F : Multiset (Nat × Nat)) (busy : Bool) (o : Option Nat) (t0 : Nat) (x : Nat × Node) : Prop :=
  x ∈ P ∨ ∃ t, t0 < t ∧ (x.1, t) ∈ F ∧ (busy = true → ¬ oldEnough o t = true)

/-- The snapshot with header `b`, the newest in `d0`, is protected: its pages are in the file, and `K` of them. -/
def Held (c : Conf) {kw : Nat} (hc : ConfOk c kw) (H : String → Db.TagHash) (d : PDb) (K : Nat → Nat × Node → Prop)
    (b : Header) (d0 : PDb) (pend : List (Nat × Node)) : Prop :=
  ∃ hp PE PT PK PF ix F0 s, LiveAt c hc H d0 hp b PE PT PK PF ix F0 s ∧
    (∀ x ∈ PF + (PE + PT + PK), Good c kw d x ∧ K b.tsn x) ∧ ∀ x ∈ pend, x ∈ PF + (PE + PT + PK)

/-- An observed header is the newest or older. -/
def Seen (h b : Header) : Prop := b.tsn < h.tsn ∨ b = h

/-- `K t x`: the page `x` of a snapshot with number `t` is not taken. -/
def PhaseOk (c : Conf) {kw : Nat} (hc : ConfOk c kw) (H : String → Db.TagHash) (d : PDb) (h : Header)
    (K : Nat → Nat × Node → Prop) : Phase → Prop
  | .start | .closed => True
  | .saw0 a => ∃ b, a.node = .header b ∧ Seen h b
  | .saw b | .registered b | .stale b => Seen h b
  | .re0 b a d0 => Seen h b ∧ ∃ b0, a.node = .header b0 ∧ Seen h b0 ∧
      (Held c hc H d K b d0 [] ∨ b.tsn < b0.tsn ∨ ∃ b1, d.m.h1.node = .header b1 ∧ b.tsn < b1.tsn)
  | .live b d0 pend => Seen h b ∧ Held c hc H d K b d0 pend

/-- `G s s'`: what is known of the contents `s'` that the running transaction leads to when the committed ones are `s`. -/
structure SysAt (G : Spec.Db → Spec.Db → Prop) (c : Conf) {kw : Nat} (hc : ConfOk c kw) (H : String → Db.TagHash) (σ : Sys) (hp : HPage) (h : Header)
    (PE PT PK PF : Multiset (Nat × Node)) (ix : Nat → List Nat) (F : Multiset (Nat × Nat)) (s : Spec.Db) : Prop where
  live : LiveAt c hc H σ.d hp h PE PT PK PF ix F s
  safe : SafeAt c kw σ.d hp h (PF + (PE + PT + PK))
  slots : SlotsOk σ.d.m h
  tx : ∀ b, σ.tx = some b → b.pw.hp = hp ∧
    (∃ PE' PT' PK' PF' ix' s', TxAt c hc σ.d h F b.pw.wr PE' PT' PK' PF' ix' (Db.Abs.of H s') ∧ G s s') ∧
    ∀ w io wr, b = .writing w io wr → processFreed io.ord w.wr = (.ok (), wr)
  wf : σ.reg.WF
  count : ∀ t, σ.reg.count t = σ.rd.countP (Phase.holds t)
  rd : ∀ ph ∈ σ.rd, PhaseOk c hc H σ.d h (Kept (PF + (PE + PT + PK)) F σ.tx.isSome σ.d.oldest) ph

/-- The committed database is `s`. -/
def SysOfG (G : Spec.Db → Spec.Db → Prop) (c : Conf) {kw : Nat} (hc : ConfOk c kw) (H : String → Db.TagHash) (σ : Sys) (s : Spec.Db) : Prop :=
  ∃ hp h PE PT PK PF ix F, SysAt G c hc H σ hp h PE PT PK PF ix F s

abbrev SysOf (c : Conf) {kw : Nat} (hc : ConfOk c kw) (H : String → Db.TagHash) (σ : Sys) (s : Spec.Db) : Prop :=
  SysOfG Props.Grown c hc H σ s

def SysInv (c : Conf) {kw : Nat} (hc : ConfOk c kw) (H : String → Db.TagHash) (σ : Sys) : Prop := ∃ s, SysOf c hc H σ s

theorem Seen.le {h b : Header} (hs : Seen h b) : b.tsn ≤ h.tsn := by
  rcases hs with h1 | rfl
  · omega
  · exact Nat.le_refl _

theorem Seen.mono {h h' b : Header} (hs : Seen h b) (ht : h.tsn < h'.tsn ∨ h = h') : Seen h' b := by
  rcases ht with ht | rfl
  · exact .inl (by have := hs.le; omega)
  · exact hs

variable {G G' : Spec.Db → Spec.Db → Prop} {P : Multiset (Nat × Node)} {K K' : Nat → Nat × Node → Prop} {h' : Header} {d' : PDb}

theorem Held.mono {b : Header} {d0 : PDb} {pend : List (Nat × Node)} (hh : Held c hc H d K b d0 pend)
    (hk : ∀ x, Good c kw d x → K b.tsn x → Good c kw d' x ∧ K' b.tsn x) : Held c hc H d' K' b d0 pend := by
  obtain ⟨hp, PE, PT, PK, PF, ix, F0, s, h1, h2, h3⟩ := hh
  exact ⟨hp, PE, PT, PK, PF, ix, F0, s, h1, fun x hx => hk x (h2 x hx).1 (h2 x hx).2, h3⟩

theorem PhaseOk.mono {ph : Phase} (hph : PhaseOk c hc H d h K ph) (ht : h.tsn < h'.tsn ∨ h = h')
    (hs : ∀ b, d.m.h1.node = .header b → ∃ b', d'.m.h1.node = .header b' ∧ b.tsn ≤ b'.tsn)
    (hk : ∀ t x, ph.holds t = true → t ≤ h.tsn → Good c kw d x → K t x → Good c kw d' x ∧ K' t x) :
    PhaseOk c hc H d' h' K' ph := by
  cases ph with
  | start => trivial
  | closed => trivial
  | saw0 a =>
    obtain ⟨b, h1, h2⟩ := hph
    exact ⟨b, h1, h2.mono ht⟩
  | saw b => exact Seen.mono hph ht
  | registered b => exact Seen.mono hph ht
  | stale b => exact Seen.mono hph ht
  | re0 b a d0 =>
    obtain ⟨h1, b0, h2, h3, h4⟩ := hph
    refine ⟨h1.mono ht, b0, h2, h3.mono ht, ?_⟩
    rcases h4 with h4 | h4 | ⟨b1, h4, h5⟩
    · exact .inl (h4.mono fun x => hk _ x (by simp [Phase.holds]) h1.le)
    · exact .inr (.inl h4)
    · obtain ⟨b', h6, h7⟩ := hs b1 h4
      exact .inr (.inr ⟨b', h6, by omega⟩)
  | live b d0 pend => exact ⟨hph.1.mono ht, hph.2.mono fun x => hk _ x (by simp [Phase.holds]) hph.1.le⟩

/-- Headers in the slots are the newest or older. -/
theorem slots_seen (hl : latestPage d.m.h0 d.m.h1 = .ok hp) (hn : hp.node = .header h) (hs : SlotsOk d.m h) :
    ∃ a b, d.m.h0.node = .header a ∧ d.m.h1.node = .header b ∧ Seen h a ∧ Seen h b := by
  obtain ⟨a, b, h1, h2, h3, h4⟩ := latestPage_ok hl hn
  refine ⟨a, b, h1, h2, ?_, ?_⟩
  · by_cases e : a.tsn = h.tsn
    · exact .inr (hs a (.inl h1) e)
    · exact .inl (by omega)
  · by_cases e : b.tsn = h.tsn
    · exact .inr (hs b (.inr h2) e)
    · exact .inl (by omega)

theorem observe_eq {x y : HPage} {a b : Header} (h0 : x.node = .header a) (h1 : y.node = .header b) :
    observe x y = .ok (if b.tsn > a.tsn then b else a) := by
  unfold observe latestPage
  rw [h0, h1]
  show ((if b.tsn > a.tsn then Except.ok y else .ok x : Except Err HPage) >>= fun p => asHeader p.node) = _
  split
  · show asHeader y.node = _; rw [h1]; rfl
  · show asHeader x.node = _; rw [h0]; rfl

theorem observe_latest : PDb.header d = observe d.m.h0 d.m.h1 := rfl

/-- Changes of the cache that only bring in what is in the file. -/
theorem Good.recache {x : Nat × Node} (hx : Good c kw d x) {cache : Nat → Option Node}
    (hcache : ∀ p m, cache p = some m → d.cache p = some m ∨ readPage c.g kw p d.file = .ok m) (o : Option Nat) :
    Good c kw { d with cache := cache, oldest := o } x := by
  refine ⟨hx.1, fun m hm => ?_⟩
  rcases hcache _ _ hm with h1 | h1
  · exact hx.2 m h1
  · rw [hx.1] at h1; cases h1; rfl

theorem SafeAt.recache (S : SafeAt c kw d hp h P) (cache : Nat → Option Node) (o : Option Nat) :
    SafeAt c kw { d with cache := cache, oldest := o } hp h P := ⟨S.1, S.2, S.3, S.4, S.5, S.6, S.7, S.8⟩

theorem SysAt.recache {σ : Sys} (I : SysAt G c hc H σ hp h PE PT PK PF ix F s) {cache : Nat → Option Node}
    (hcache : ∀ p m, cache p = some m → σ.d.cache p = some m ∨ readPage c.g kw p σ.d.file = .ok m) :
    SysAt G c hc H { σ with d := { σ.d with cache := cache } } hp h PE PT PK PF ix F s := by
  have L' : LiveAt c hc H { σ.d with cache := cache } hp h PE PT PK PF ix F s := I.live.recache hcache σ.d.oldest
  refine ⟨L', I.safe.recache cache σ.d.oldest, I.slots, fun b hb => ?_, I.wf, I.count, fun ph hph => ?_⟩
  · obtain ⟨h1, ⟨_, _, _, _, _, _, T, G⟩, h2⟩ := I.tx b hb
    exact ⟨h1, ⟨_, _, _, _, _, _, T.elsewhere I.live L' rfl, G⟩, h2⟩
  · exact (I.rd ph hph).mono (.inr rfl) (fun b hb => ⟨b, hb, Nat.le_refl _⟩) fun t x _ _ hg hk => ⟨hg.recache hcache σ.d.oldest, hk⟩

/-- A page that is protected from the running transaction. -/
theorem LiveAt.kept_not_may (L : LiveAt c hc H d hp h PE PT PK PF ix F s) {o : Option Nat} {t : Nat} {x : Nat × Node}
    (hk : Kept (PF + (PE + PT + PK)) F true o t x) : 2 ≤ x.1 ∧ ¬ May h F o x.1 := by
  rcases hk with hx | ⟨t', -, h1, h2⟩
  · exact ⟨(L.body (mem_ids_of hx)).1, L.not_may (mem_ids_of hx)⟩
  have hmem : x.1 ∈ F.map (·.1) := Multiset.mem_map.mpr ⟨_, h1, rfl⟩
  have hb : x.1 ∈ bodyIds h.nextPage := by rw [← L.account]; exact Multiset.mem_add.mpr (.inr hmem)
  have hb := mem_bodyIds.mp hb
  refine ⟨hb.1, ?_⟩
  rintro (h3 | ⟨t'', h3, h4⟩)
  · omega
  · have hn : (F.map (·.1)).Nodup := (Multiset.nodup_add.mp L.nodup).2.1
    have := Multiset.inj_on_of_nodup_map hn _ h1 _ h3 rfl
    cases this
    exact h2 rfl h4

/-! ## Every step keeps the invariant -/

theorem SysOfG.crashed (hL : LiveS c hc H d s) : SysOfG G c hc H (.init d) s := by
  obtain ⟨hp, h, PE, PT, PK, PF, ix, F, L, S, hs⟩ := hL
  exact ⟨hp, h, PE, PT, PK, PF, ix, F, L, S, hs, (by intro b hb; cases hb), .nil, fun _ => rfl, by simp [Sys.init]⟩

theorem SysOf.crashed (hL : LiveS c hc H d s) : SysOf c hc H (.init d) s := SysOfG.crashed hL

/-- A reader's step that leaves the database alone. -/
theorem SysAt.phase {r r' : Registry} {rd rd' : List Phase} {ph ph' : Phase} {tx : Option Busy}
    (I : SysAt G c hc H ⟨d, r, rd ++ ph :: rd', tx⟩ hp h PE PT PK PF ix F s) (hw : r'.WF)
    (hr : ∀ t, r'.count t + (if ph.holds t then 1 else 0) = r.count t + if ph'.holds t then 1 else 0)
    (hph : PhaseOk c hc H d h (Kept (PF + (PE + PT + PK)) F tx.isSome d.oldest) ph') :
    SysAt G c hc H ⟨d, r', rd ++ ph' :: rd', tx⟩ hp h PE PT PK PF ix F s := by
  refine ⟨I.live, I.safe, I.slots, I.tx, hw, fun t => ?_, fun q hq => ?_⟩
  · have h1 := I.count t
    have h2 := hr t
    simp only [List.countP_append, List.countP_cons] at h1 ⊢
    omega
  · rcases List.mem_append.mp hq with hq | hq
    · exact I.rd q (List.mem_append_left _ hq)
    · rcases List.mem_cons.mp hq with rfl | hq
      · exact hph
      · exact I.rd q (List.mem_append_right _ (.tail _ hq))

/-- How a step of a reader changes its registration. -/
theorem RStep.registry {r r' : Registry} {ph ph' : Phase} (hstep : RStep c d r ph d' r' ph') (hw : r.WF)
    (hpos : ∀ t, ph.holds t = true → 0 < r.count t) :
    r'.WF ∧ ∀ t, r'.count t + (if ph.holds t then 1 else 0) = r.count t + if ph'.holds t then 1 else 0 := by
  have un : ∀ b : Header, (∀ t, (b.tsn == t) = true → 0 < r.count t) → ∀ t, (r.unregister b.tsn).count t + (if b.tsn == t then 1 else 0) = r.count t := by
    intro b hpos t
    rw [Registry.count_unregister hw]
    have := hpos t
    simp only [beq_iff_eq, eq_comm (a := t)] at this ⊢
    by_cases e : b.tsn = t
    · have := this e
      rw [if_pos e]; omega
    · rw [if_neg e]; omega
  cases hstep with
  | load0 => exact ⟨hw, by simp [Phase.holds]⟩
  | load1 ho => exact ⟨hw, by simp [Phase.holds]⟩
  | register =>
    refine ⟨hw.register _, fun t => ?_⟩
    rw [Registry.count_register hw]
    simp only [Phase.holds, beq_iff_eq, Bool.false_eq_true, if_false, Nat.add_zero, eq_comm (a := t)]
  | reload0 b' => exact ⟨hw, by simp [Phase.holds]⟩
  | confirm ho ht => exact ⟨hw, by simp [Phase.holds]⟩
  | outdated ho ht => exact ⟨hw, by simp [Phase.holds]⟩
  | retry b =>
    refine ⟨hw.unregister _, fun t => ?_⟩
    simpa [Phase.holds] using un b hpos t
  | fetch hused hcache hr => exact ⟨hw, by simp [Phase.holds]⟩
  | fill b d0 l p n l' => exact ⟨hw, by simp [Phase.holds]⟩
  | close b d0 =>
    refine ⟨hw.unregister _, fun t => ?_⟩
    simpa [Phase.holds] using un b hpos t

/-- A step of a reader keeps what is known of it, and brings into the cache only what is in the file.  The second look at
the headers needs the pages of the newest snapshot to be protected. -/
theorem PhaseOk.step {r r' : Registry} {ph ph' : Phase} (L : LiveAt c hc H d hp h PE PT PK PF ix F s) (hslots : SlotsOk d.m h)
    (hph : PhaseOk c hc H d h K ph) (hstep : RStep c d r ph d' r' ph')
    (hK : (∃ b, ph = .registered b) → ∀ x ∈ PF + (PE + PT + PK), K h.tsn x) :
    PhaseOk c hc H d h K ph' ∧ ∃ cache, d' = { d with cache := cache } ∧
      ∀ p m, cache p = some m → d.cache p = some m ∨ readPage c.g kw p d.file = .ok m := by
  obtain ⟨a, b, hs0, hs1, ha, hb⟩ := slots_seen L.latest L.node hslots
  have same : ∃ cache, d = { d with cache := cache } ∧
      ∀ p m, cache p = some m → d.cache p = some m ∨ readPage c.g kw p d.file = .ok m := ⟨d.cache, rfl, fun _ _ h => .inl h⟩
  cases hstep with
  | load0 => exact ⟨⟨a, hs0, ha⟩, same⟩
  | load1 ho =>
    obtain ⟨b0, h1, h2⟩ := hph
    rw [observe_eq h1 hs1] at ho
    refine ⟨?_, same⟩
    cases ho
    show Seen h _
    split
    · exact hb
    · exact h2
  | register => exact ⟨hph, same⟩
  | reload0 b' =>
    refine ⟨⟨hph, a, hs0, ha, ?_⟩, same⟩
    rcases hph with hlt | rfl
    · -- the newest header is in one of the slots
      obtain ⟨x, hx⟩ : ∃ x, observe d.m.h0 d.m.h1 = .ok x ∧ x = h := ⟨h, L.header_eq, rfl⟩
      rw [observe_eq hs0 hs1] at hx
      obtain ⟨hx, rfl⟩ := hx
      have hx := Except.ok.inj hx
      split at hx
      · subst hx; exact .inr (.inr ⟨b, hs1, hlt⟩)
      · subst hx; exact .inr (.inl hlt)
    · left
      exact ⟨hp, PE, PT, PK, PF, ix, F, s, L, fun x hx => ⟨⟨L.file _ _ hx, fun m hm => L.cache _ _ m hx hm⟩, hK ⟨_, rfl⟩ x hx⟩, by simp⟩
  | @confirm a' h1 h' d0 ho ht =>
    obtain ⟨k1, b0, k2, k3, k4⟩ := hph
    refine ⟨⟨k1, ?_⟩, same⟩
    rw [observe_eq k2 hs1] at ho
    have ho := Except.ok.inj ho
    rcases k4 with k4 | k4 | ⟨b1, k4, k5⟩
    · exact k4
    · exfalso
      split at ho <;> subst ho <;> omega
    · exfalso
      rw [hs1] at k4; cases k4
      split at ho <;> subst ho <;> omega
  | outdated ho ht => exact ⟨hph.1, same⟩
  | retry b => exact ⟨trivial, same⟩
  | @fetch b d0 pend p n hused hcache hr =>
    obtain ⟨k1, hp0, PE0, PT0, PK0, PF0, ix0, F0, s0, L0, k2, k3⟩ := hph
    refine ⟨⟨k1, hp0, PE0, PT0, PK0, PF0, ix0, F0, s0, L0, k2, fun x hx => ?_⟩, same⟩
    rcases List.mem_cons.mp hx with rfl | hx
    · have hsees : Sees (d.base c) (PF0 + (PE0 + PT0 + PK0)) := by
        intro q m hq
        have hb := L0.body (mem_ids_of hq)
        unfold PDb.base PDb.read
        rw [if_neg (by omega)]
        cases hcq : d.cache q with
        | some m' => rw [(k2 _ hq).1.2 m' hcq]; rfl
        | none => simp only [show d.m.kw = kw from L.width, (k2 _ hq).1.1]; rfl
      have hmem : p ∈ ids (PF0 + (PE0 + PT0 + PK0)) := by
        rw [← L0.reach_eq hsees]; exact Multiset.mem_coe.mpr hused
      obtain ⟨m, hm⟩ := mem_ids.mp hmem
      have := (k2 _ hm).1.1
      rw [show d.m.kw = kw from L.width] at hr
      rw [hr] at this
      cases this; exact hm
    · exact k3 x hx
  | fill b d0 l p n l' =>
    obtain ⟨k1, hp0, PE0, PT0, PK0, PF0, ix0, F0, s0, L0, k2, k3⟩ := hph
    have hpn := k2 _ (k3 (p, n) (by simp))
    refine ⟨⟨k1, hp0, PE0, PT0, PK0, PF0, ix0, F0, s0, L0, k2, fun x hx => k3 x (by simp at hx ⊢; tauto)⟩, _, rfl, fun q m hm => ?_⟩
    split at hm
    · next e => cases hm; subst e; exact .inr hpn.1.1
    · exact .inl hm
  | close b d0 => exact ⟨trivial, same⟩

theorem SysAt.reader {d' : PDb} {r r' : Registry} {rd rd' : List Phase} {ph ph' : Phase} {tx : Option Busy}
    (I : SysAt G c hc H ⟨d, r, rd ++ ph :: rd', tx⟩ hp h PE PT PK PF ix F s) (hstep : RStep c d r ph d' r' ph') :
    SysAt G c hc H ⟨d', r', rd ++ ph' :: rd', tx⟩ hp h PE PT PK PF ix F s := by
  have hpos : ∀ t, ph.holds t = true → 0 < r.count t := by
    intro t ht
    have := I.count t
    simp only [List.countP_append, List.countP_cons, ht, if_true] at this
    omega
  obtain ⟨hw, hr⟩ := hstep.registry I.wf hpos
  obtain ⟨h1, cache, rfl, h2⟩ := PhaseOk.step I.live I.slots (I.rd ph (by simp)) hstep fun _ x hx => .inl hx
  exact (I.phase hw hr h1).recache h2

/-- The writer starts a transaction: it cannot take pages of any registered snapshot. -/
theorem SysAt.begin {r : Registry} {rd : List Phase} (I : SysAt G c hc H ⟨d, r, rd, none⟩ hp h PE PT PK PF ix F s) {w : PW} {s' : Spec.Db}
    (hdb : w.db = { d with oldest := r.min }) (hT : Tx c hc H w s (Db.Abs.of H s')) (hG : G' s s') :
    SysOfG G' c hc H ⟨{ d with oldest := r.min }, r, rd, some (.built w)⟩ s := by
  obtain ⟨h1, PE1, PT1, PK1, PF1, ix1, F1, L1, S1, PE', PT', PK', PF', ix', T⟩ := hT
  rw [hdb] at L1 S1 T
  have L0 : LiveAt c hc H { d with oldest := r.min } hp h PE PT PK PF ix F s := I.live.recache (fun _ _ h => .inl h) _
  obtain ⟨e1, e2, e3, e4⟩ := L0.unique L1
  subst e1 e2 e3
  refine ⟨_, _, _, _, _, _, _, _, L1, S1, I.slots, ?_, I.wf, I.count, fun ph hph => ?_⟩
  · rintro b hb
    cases hb
    exact ⟨rfl, ⟨_, _, _, _, _, _, T, hG⟩, by intro _ _ _ h; cases h⟩
  · refine (I.rd ph hph).mono (.inr rfl) (fun b hb => ⟨b, hb, Nat.le_refl _⟩) fun t x ht _ hg hk => ⟨hg, ?_⟩
    rcases hk with hk | ⟨t', hk1, hk2, -⟩
    · exact .inl ((e4 x).mpr hk)
    · refine .inr ⟨t', hk1, hk2, fun _ ho => ?_⟩
      have hpos : 0 < r.count t := by
        rw [show r.count t = rd.countP (Phase.holds t) from I.count t]
        exact List.countP_pos_iff.mpr ⟨ph, hph, ht⟩
      rcases Registry.min_spec I.wf with ⟨-, h0⟩ | ⟨m, hm, -, hle⟩
      · have h0 := h0 t
        simp only at h0
        omega
      · have := hle t hpos
        have hm : r.min = some m := hm
        have ho : oldEnough r.min t' = true := ho
        rw [hm] at ho
        simp [oldEnough] at ho
        omega

theorem SysAt.tx_ready {r : Registry} {rd : List Phase} {w : PW} {io : IO} {wr : Writer}
    (I : SysAt G c hc H ⟨d, r, rd, some (.writing w io wr)⟩ hp h PE PT PK PF ix F s) :
    w.hp = hp ∧ ∃ PE' PT' PK' PF' ix' N s', Ready c hc H d h F d.oldest wr PE' PT' PK' PF' ix' N s' ∧ G s s' ∧ w.wr.nextPos = s'.log.length + 1 := by
  obtain ⟨h1, ⟨PE', PT', PK', PF', ix', s', T, G⟩, h2⟩ := I.tx _ rfl
  obtain ⟨u, wr', hrun, PF'', N, R⟩ := T.ready io.ordLaw
  have h2 := h2 w io wr rfl
  have hrun : processFreed io.ord w.wr = (.ok u, wr') := hrun
  rw [hrun] at h2
  cases h2
  exact ⟨h1, _, _, _, _, _, _, _, R, G, T.nextPos⟩

theorem SysOfG.scribble {r : Registry} {rd : List Phase} {w : PW} {io : IO} {wr : Writer} {file : File} {cache : Nat → Option Node}
    (hI : SysOfG G c hc H ⟨d, r, rd, some (.writing w io wr)⟩ s) (ht : Touched c.g.pageSize wr.dirty.ids d.file file)
    (hcache : ∀ p, cache p = d.cache p ∨ p ∈ wr.dirty.ids) :
    SysOfG G c hc H ⟨{ d with file := file, cache := cache, loose := d.loose ++ wr.dirty.ids }, r, rd, some (.writing w io wr)⟩ s := by
  obtain ⟨hp, h, PE, PT, PK, PF, ix, F, I⟩ := hI
  obtain ⟨-, _, _, _, _, _, _, _, R, -⟩ := I.tx_ready
  have hmay := R.not_dirty I.live
  have hd2 : ∀ p ∈ wr.dirty.ids, 2 ≤ p := fun p hp => (R.own.lt (R.own.dirtyIn p hp)).1
  have L' : LiveAt c hc H { d with file := file, cache := cache, loose := d.loose ++ wr.dirty.ids } hp h PE PT PK PF ix F s := by
    refine I.live.elsewhere rfl ht hmay fun p n hpn m hm => ?_
    rcases hcache p with e | e
    · have hm : cache p = some m := hm
      rw [e] at hm
      exact I.live.cache p n m hpn hm
    · exact absurd (mem_ids_of hpn) (hmay p e)
  have hslot := I.live.slot
  refine ⟨hp, h, PE, PT, PK, PF, ix, F, L', ?_, I.slots, fun b hb => ?_, I.wf, I.count, fun ph hph => ?_⟩
  · have := I.safe.loosen (d' := { d with file := file, cache := cache, loose := d.loose ++ wr.dirty.ids }) ht
      (fun p hp => ⟨hmay p hp, by have := hd2 p hp; omega⟩) rfl rfl (.inl ⟨rfl, hd2⟩)
    exact this
  · obtain ⟨h1, ⟨_, _, _, _, _, _, T, G⟩, h2⟩ := I.tx b hb
    exact ⟨h1, ⟨_, _, _, _, _, _, T.elsewhere I.live L' rfl, G⟩, h2⟩
  · refine (I.rd ph hph).mono (.inr rfl) (fun b hb => ⟨b, hb, Nat.le_refl _⟩) fun t x _ _ hg hk => ⟨?_, hk⟩
    have hnd : x.1 ∉ wr.dirty.ids := fun hd => (I.live.kept_not_may hk).2 (R.own.mayDirty _ hd)
    refine ⟨ht.read hnd hg.1, fun m hm => hg.2 m ?_⟩
    have hm : cache x.1 = some m := hm
    rwa [(hcache x.1).resolve_right hnd] at hm

theorem SysOfG.finish (G' : Spec.Db → Spec.Db → Prop) {r : Registry} {rd : List Phase} {w : PW} {io : IO} {wr : Writer} {res : Except Err Unit} {d' : PDb}
    (hI : SysOfG G c hc H ⟨d, r, rd, some (.writing w io wr)⟩ s) (he : commitPages c io w.hp wr d = (res, d')) :
    (res = .ok () ∧ ∃ s', SysOfG G' c hc H ⟨d', r, rd, none⟩ s' ∧ G s s' ∧ w.wr.nextPos = s'.log.length + 1) ∨
      ∃ e, res = .error e ∧ Db.Fatal e ∧ SysOfG G' c hc H ⟨d', r, rd, none⟩ s := by
  obtain ⟨hp, h, PE, PT, PK, PF, ix, F, I⟩ := hI
  obtain ⟨e, PE', PT', PK', PF', ix', N, s', R, hG, hnext⟩ := I.tx_ready
  rw [e] at he
  obtain ⟨ht, hcache, ho⟩ := commitPages_frame hc R.width R.own.dirtyNodup I.live.zeroed he
  have good : ∀ {t x}, Good c kw d x → Kept (PF + (PE + PT + PK)) F true d.oldest t x → Good c kw d' x := by
    intro t x hg hk
    obtain ⟨h2, hm⟩ := I.live.kept_not_may hk
    have hnd : x.1 ∉ wr.dirty.ids := fun hd => hm (R.own.mayDirty _ hd)
    refine ⟨ht.read ?_ hg.1, fun m hm => ?_⟩
    · intro hmem
      rcases List.mem_cons.mp hmem with e | e
      · split at e <;> omega
      · exact hnd e
    · rcases hcache _ hnd with e | e
      · rw [e] at hm; exact hg.2 m hm
      · rw [e] at hm; cases hm
  obtain ⟨a, b, hs0, hs1, ha, hb⟩ := slots_seen I.live.latest I.live.node I.slots
  simp only at hs0 hs1
  rcases commitPages_spec R I.live I.safe io with ⟨d2, hp', h1, L', S', hdoubt, C⟩ | ⟨err, d2, h1, hfat, L', S', hm⟩
  · rw [he] at h1
    cases h1
    have htsn := C.tsn
    have hpin := C.pinned
    have hnode := L'.node
    refine .inl ⟨rfl, s', ⟨hp', _, _, _, _, _, _, _, L', S', ?_, (by intro b hb; cases hb), I.wf, I.count, fun ph hph => ?_⟩, hG, hnext⟩
    · intro x hx hxt
      simp only [hpin] at hx
      unfold pinHeader at hx
      split at hx
      · rcases hx with hx | hx
        · simp only [hnode] at hx; cases hx; rfl
        · simp only [hs1] at hx; cases hx
          have := hb.le; omega
      · rcases hx with hx | hx
        · simp only [hs0] at hx; cases hx
          have := ha.le; omega
        · simp only [hnode] at hx; cases hx; rfl
    · refine (I.rd ph hph).mono (.inl (by omega)) (fun x hx => ?_) fun t x _ htle hg hk => ⟨good hg hk, ?_⟩
      · simp only [hs1] at hx
        cases hx
        simp only [hpin]
        unfold pinHeader
        split
        · exact ⟨b, hs1, Nat.le_refl _⟩
        · exact ⟨_, hnode, by have := hb.le; omega⟩
      · rcases hk with hk | ⟨t', h2, h3, h4⟩
        · rcases C.kept x hk with h2 | h2
          · exact .inl h2
          · exact .inr ⟨_, by omega, h2, by simp⟩
        · exact .inr ⟨t', h2, C.later _ h3 (h4 rfl), by simp⟩
  · rw [he] at h1
    cases h1
    have hm : d'.m = d.m := hm
    refine .inr ⟨err, rfl, hfat, ⟨hp, h, PE, PT, PK, PF, ix, F, L', S', ?_, (by intro b hb; cases hb), I.wf, I.count, fun ph hph => ?_⟩⟩
    · show SlotsOk d'.m h
      rw [hm]; exact I.slots
    · refine (I.rd ph hph).mono (.inr rfl) (fun x hx => ⟨x, by rw [hm]; exact hx, Nat.le_refl _⟩) fun t x _ _ hg hk => ⟨good hg hk, ?_⟩
      rcases hk with hk | ⟨t', h2, h3, -⟩
      · exact .inl hk
      · exact .inr ⟨t', h2, h3, by simp⟩

theorem SysOf.finish {r : Registry} {rd : List Phase} {w : PW} {io : IO} {wr : Writer} {res : Except Err Unit} {d' : PDb}
    (hI : SysOf c hc H ⟨d, r, rd, some (.writing w io wr)⟩ s) (he : commitPages c io w.hp wr d = (res, d')) :
    ∃ s', SysOf c hc H ⟨d', r, rd, none⟩ s' ∧ Props.Grown s s' ∧ ∀ u, res = .ok u → w.wr.nextPos = s'.log.length + 1 := by
  rcases SysOfG.finish Props.Grown hI he with ⟨-, s', h1, h2, h3⟩ | ⟨e, h0, -, h1⟩
  · exact ⟨s', h1, h2, fun _ _ => h3⟩
  · exact ⟨s, h1, .refl s, by intro u hu; rw [h0] at hu; cases hu⟩

open Classical in
theorem SysOf.step {env : Db.Env} (he : Db.EnvOk env) (hH : ∀ t, NormalizedTo kw (env.H t)) {σ σ' : Sys}
    (hI : SysOf c hc env.H σ s) (hstep : SStep c env σ σ') : ∃ s', SysOf c hc env.H σ' s' ∧ Props.Grown s s' := by
  cases hstep with
  | arrive =>
    obtain ⟨hp, h, PE, PT, PK, PF, ix, F, I⟩ := hI
    refine ⟨s, ⟨hp, h, PE, PT, PK, PF, ix, F, I.live, I.safe, I.slots, I.tx, I.wf, fun t => ?_, fun ph hph => ?_⟩, .refl s⟩
    · rw [List.countP_append, ← I.count t]; simp [Phase.holds]
    · rcases List.mem_append.mp hph with hph | hph
      · exact I.rd ph hph
      · rw [List.mem_singleton.mp hph]; trivial
  | reader hr =>
    obtain ⟨hp, h, PE, PT, PK, PF, ix, F, I⟩ := hI
    exact ⟨s, ⟨hp, h, PE, PT, PK, PF, ix, F, I.reader hr⟩, .refl s⟩
  | evict _ p =>
    obtain ⟨hp, h, PE, PT, PK, PF, ix, F, I⟩ := hI
    refine ⟨s, ⟨hp, h, PE, PT, PK, PF, ix, F, I.recache fun q m hm => ?_⟩, .refl s⟩
    split at hm
    · cases hm
    · exact .inl hm
  | @load _ h1 p n hh hu hr =>
    obtain ⟨hp, h, PE, PT, PK, PF, ix, F, I⟩ := hI
    refine ⟨s, ⟨hp, h, PE, PT, PK, PF, ix, F, I.recache fun q m hm => ?_⟩, .refl s⟩
    split at hm
    · next e => cases hm; subst e; rw [I.live.width] at hr; exact .inr hr
    · exact .inl hm
  | @batch d r rd max vis j q b q' ha hb hab =>
    obtain ⟨hp, h, PE, PT, PK, PF, ix, F, I⟩ := hI
    have hL : (pageLawful hc hH).RepD { d with oldest := r.min } s :=
      ⟨hp, h, PE, PT, PK, PF, ix, F, I.live.recache (fun _ _ h => .inl h) _, I.safe.recache _ _⟩
    obtain ⟨js, -, -, hbi⟩ := hb.binv he (pageLawful hc hH) hL ha
    obtain ⟨tr, -, -, h⟩ := Spec.appendAll_trace _ _ _ (hbi.good hab).2
    exact ⟨s, I.begin hb.db (hbi.good hab).1 (Props.trace_grown (h .nil)), .refl s⟩
  | @append d r rd req w p w' ha hw hpa =>
    obtain ⟨hp, h, PE, PT, PK, PF, ix, F, I⟩ := hI
    have hL : (pageLawful hc hH).RepD { d with oldest := r.min } s :=
      ⟨hp, h, PE, PT, PK, PF, ix, F, I.live.recache (fun _ _ h => .inl h) _, I.safe.recache _ _⟩
    rcases (pageLawful hc hH).begin hL with ⟨w1, hb1, hw1⟩ | ⟨e, -, hf⟩
    swap
    · exact hf.elim
    have hb1 : PDb.writer c { d with oldest := r.min } = .ok w1 := hb1
    rw [hw] at hb1; cases hb1
    have K : Props.Keeps (pageBackend c) fun w : PW => w.db = { d with oldest := r.min } :=
      ⟨fun _ h => h, fun _ _ _ h => h, fun _ _ _ _ h => h, fun _ _ _ h => h⟩
    have hdb : w.db = { d with oldest := r.min } := by
      unfold PDb.writer at hw
      simp only [bind, Except.bind] at hw
      split at hw
      · cases hw
      split at hw
      · cases hw
      split at hw
      · cases hw
      · cases hw; rfl
    have hdb' := K.processAppend env req (fun _ => Db.Cancel.never) w hdb
    rcases Db.processAppend_spec he (pageLawful hc hH) hw1 ha (fun _ => Db.Cancel.never) with
      ⟨_, res, w2, k1, k2, k3, k4⟩ | ⟨e, w2, k1, -⟩ | ⟨-, m, k1⟩
    · rw [hpa] at k1 hdb'; cases k1
      exact ⟨s, I.begin hdb' k3 (Props.append_grown _ _ _), .refl s⟩
    · rw [hpa] at k1; cases k1
    · rw [hpa] at k1; cases k1
  | @settle d r rd w io wr hw =>
    obtain ⟨hp, h, PE, PT, PK, PF, ix, F, I⟩ := hI
    refine ⟨s, ⟨hp, h, PE, PT, PK, PF, ix, F, I.live, I.safe, I.slots, fun b hb => ?_, I.wf, I.count, I.rd⟩, .refl s⟩
    cases hb
    obtain ⟨h1, h2, -⟩ := I.tx _ rfl
    refine ⟨h1, h2, fun w' io' wr' hb => ?_⟩
    cases hb; exact hw
  | scribble ht hcache => exact ⟨s, hI.scribble ht hcache, .refl s⟩
  | finish hf =>
    obtain ⟨s', h1, h2, -⟩ := hI.finish hf
    exact ⟨s', h1, h2⟩
  | crash hd hf hk ho =>
    obtain ⟨hp, h, PE, PT, PK, PF, ix, F, I⟩ := hI
    obtain ⟨d2, k1, k2, -⟩ := crash_recovers ⟨hp, h, PE, PT, PK, PF, ix, F, I.live, I.safe⟩ hd hf hk
    rw [ho] at k1; cases k1
    exact ⟨s, .crashed k2, .refl s⟩
  | @commitCrash d r rd w io wr f kw0 d' hd hf hk ho =>
    obtain ⟨hp, h, PE, PT, PK, PF, ix, F, I⟩ := hI
    obtain ⟨e, ⟨PE', PT', PK', PF', ix', s', T, G⟩, -⟩ := I.tx _ rfl
    have hT : Tx c hc env.H { w with db := d } s (Db.Abs.of env.H s') := by
      refine ⟨h, PE, PT, PK, PF, ix, F, ?_, ?_, PE', PT', PK', PF', ix', T⟩
      · show LiveAt c hc env.H d w.hp h PE PT PK PF ix F s
        rw [show w.hp = hp from e]; exact I.live
      · show SafeAt c kw d w.hp h _
        rw [show w.hp = hp from e]; exact I.safe
    obtain ⟨d2, k1, k2, -⟩ := commit_crash_recovers hT hd hf hk
    rw [ho] at k1; cases k1
    rcases k2 with k2 | k2
    · exact ⟨s, .crashed k2, .refl s⟩
    · exact ⟨s', .crashed k2, G⟩

/-- The committed database only grows. -/
theorem SysOf.runs {env : Db.Env} (he : Db.EnvOk env) (hH : ∀ t, NormalizedTo kw (env.H t)) {σ σ' : Sys}
    (hI : SysOf c hc env.H σ s) (hr : Runs c env σ σ') : ∃ s', SysOf c hc env.H σ' s' ∧ Props.Grown s s' := by
  induction hr with
  | refl => exact ⟨s, hI, .refl s⟩
  | tail _ hs ih =>
    obtain ⟨s1, h1, h2⟩ := ih
    obtain ⟨s2, h3, h4⟩ := h1.step he hH hs
    exact ⟨s2, h3, h2.trans h4⟩

theorem SysInv.crashed (hL : LiveS c hc H d s) : SysInv c hc H (.init d) := ⟨s, .crashed hL⟩

theorem SysInv.runs {env : Db.Env} (he : Db.EnvOk env) (hH : ∀ t, NormalizedTo kw (env.H t)) {σ σ' : Sys}
    (hI : SysInv c hc env.H σ) (hr : Runs c env σ σ') : SysInv c hc env.H σ' := by
  obtain ⟨s, h⟩ := hI
  obtain ⟨s', h1, -⟩ := h.runs he hH hr
  exact ⟨s', h1⟩

end Uma.Page
