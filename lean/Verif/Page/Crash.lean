import Verif.Page.Lawful

/-!
# Crashes and recovery

What a crash leaves on the disk, at rest or at any point of `Mvcc::commit`, and that `Mvcc::new` (mvcc.rs 397-534) finds the
state before or after the transaction in it.

Crash model: an `fsync` that returned makes everything written before it durable; everything written later is kept, lost
or torn page by page - a torn data page may hold anything, a torn header page is recognised by its checksum.  A crash
settles the fate of every write made before it: see finding 16 in DESIGN.md for what happens when the process is killed and
restarted, and the machine then fails before anything is synced.
-/

namespace Uma.Page
open Uma.Codec Uma.Mvcc Uma.Spec

/-- What a crash leaves when the synced content was `disk`, the pages `loose` were written since, and the header slots held
in turn what they hold in the files `since`. -/
structure Survives (c : Conf) (disk : File) (loose : List Nat) (since : List File) (f : File) : Prop where
  touched : Touched c.g.pageSize loose disk f
  headers : ∀ k, k = 0 ∨ k = 1 → Unreadable c.g f k ∨
    ∃ f0 ∈ disk :: since, ∀ kw, readPage c.g kw k f = readPage c.g kw k f0

/-- A crash while no transaction is being written. -/
def Crash (c : Conf) (d : PDb) (f : File) : Prop := Survives c d.disk d.loose [d.file] f

/-- A crash during `Mvcc::commit`, mvcc.rs 810-854: while the data pages are written and synced, or while the header is. -/
inductive CommitCrash (c : Conf) (io : IO) (w : PW) (f : File) : Prop where
  | data (wr : Writer) : processFreed io.ord w.wr = (.ok (), wr) →
      Survives c w.db.disk (w.db.loose ++ wr.dirty.ids) [w.db.file] f → CommitCrash c io w f
  | header (wr : Writer) (f1 f2 : File) (n : Nat) (p : HPage) (d1 : PDb) : processFreed io.ord w.wr = (.ok (), wr) →
      (∀ x ∈ wr.dirty, NodeFits wr.kw x.2) → writePages c.g wr.kw c.zeroFill wr.dirty w.db.file = (.ok n, f1) →
      d1 = PDb.fsync c wr.dirty.ids { w.db with file := f1 } →
      cowHeader w.hp wr.roots = .ok p → NodeFits wr.kw p.node →
      writeOnePage c.g wr.kw ((List.range c.g.pageSize).map io.buf) c.zeroFill p.id p.node f1 = (.ok (), f2) →
      Survives c d1.disk (p.id :: d1.loose) [f1, f2] f → CommitCrash c io w f

/-- Opening the file after a crash; `kw0` is the tag key width left by another database of the process.  The slot that
does not hold the header found may have been rewritten, without `fsync`. -/
def reopen (c : Conf) (kw0 : Nat) (f : File) : Except Err PDb :=
  match openExisting c.g kw0 c.zeroFill f with
  | (.error e, _) => .error e
  | (.ok m, f') => do
    let p ← latestPage m.h0 m.h1
    .ok (.fresh f' m f [1 - p.id] none)

/-! ## Roots -/

theorem Tr.root {κ E : Type} {Y : Layout κ E} {K : Kid κ E} (h : Tr Y K) :
    ∃ n, (K.id, n) ∈ K.pg ∧ (Y.ops.isLeaf n = true ∨ ∃ keys kids, n = Y.ops.inner keys kids) := by
  cases h with
  | leaf _ h =>
    obtain ⟨n, Q, h1, h2⟩ := Y.leaf_page _ h
    exact ⟨n, by rw [h1]; simp, .inl h2⟩
  | node id m R _ _ _ => exact ⟨_, by simp only [nodeKid]; exact Multiset.mem_add.mpr (.inl (Multiset.mem_singleton.mpr rfl)), .inr ⟨_, _, rfl⟩⟩

variable {c : Conf} {kw : Nat} {hc : ConfOk c kw} {H : String → Db.TagHash} {d : PDb} {hp : HPage} {h : Header}
  {PE PT PK PF : Multiset (Nat × Node)} {ix : Nat → List Nat} {F : Multiset (Nat × Nat)} {s : Spec.Db}

/-- The checks made on opening succeed. -/
theorem LiveAt.usable (L : LiveAt c hc H d hp h PE PT PK PF ix F s) {f : File}
    (hf : ∀ p n, (p, n) ∈ PF + (PE + PT + PK) → readPage c.g kw p f = .ok n)
    (hsch : (h.schema = 0 ∧ kw = 8) ∨ (h.schema = 1 ∧ kw = 16)) : Props.Usable c.g f h kw := by
  have holds : ∀ {p n} {P : Node → Prop}, (p, n) ∈ PF + (PE + PT + PK) → P n → Props.Holds c.g kw f p P :=
    fun hpn hP => ⟨(L.body (mem_ids_of hpn)).1, _, hf _ _ hpn, hP⟩
  refine ⟨hsch, ?_, ?_, ?_, ?_⟩
  · obtain ⟨es, hes, -⟩ := L.free
    rcases hes with ⟨K, hK, h1, rfl, -, -⟩ | ⟨-, h1⟩
    · obtain ⟨n, hn, hk⟩ := hK.root
      rw [h1]
      refine holds (p := K.id) (n := n) (Multiset.mem_add.mpr (.inl hn)) ?_
      rcases hk with hk | ⟨keys, kids, rfl⟩
      · cases n <;> simp [frLayout, freeOps] at hk
        exact .inl ⟨_, _, rfl⟩
      · exact .inr ⟨_, _, rfl⟩
    · exact holds (n := frNode []) (Multiset.mem_add.mpr (.inl (by rw [h1]; simp))) (.inl ⟨_, _, rfl⟩)
  · obtain ⟨K, hK, h1, rfl, -, -⟩ := L.trees.tags
    obtain ⟨n, hn, hk⟩ := hK.tr.root
    rw [h1]
    refine holds (p := K.id) (n := n) (by simp only [Multiset.mem_add]; tauto) ?_
    rcases hk with hk | ⟨keys, kids, rfl⟩
    · cases n <;> simp [tgLayout, tagsOps] at hk
      exact .inl ⟨_, _, rfl⟩
    · exact .inr ⟨_, _, rfl⟩
  · obtain ⟨K, hK, h1, rfl, -⟩ := L.trees.events
    obtain ⟨n, hn, hk⟩ := hK.tr.root
    rw [h1]
    refine holds (p := K.id) (n := n) (by simp only [Multiset.mem_add]; tauto) ?_
    rcases hk with hk | ⟨keys, kids, rfl⟩
    · cases n <;> simp [evLayout, evOps] at hk
      exact .inl ⟨_, _, rfl⟩
    · exact .inr ⟨_, _, rfl⟩
  · rcases L.trees.track with ⟨h1, -⟩ | ⟨K, hK, h1, rfl, -⟩
    · exact .inl h1
    obtain ⟨n, hn, hk⟩ := hK.tr.root
    rw [h1]
    refine .inr (holds (p := K.id) (n := n) (by simp only [Multiset.mem_add]; tauto) ?_)
    rcases hk with hk | ⟨keys, kids, rfl⟩
    · cases n <;> simp [trLayout, trOps] at hk
      exact .inl ⟨_, _, rfl⟩
    · exact .inr ⟨_, _, rfl⟩

/-- The same trees under another header page, in another file. -/
theorem LiveAt.reload (L : LiveAt c hc H d hp h PE PT PK PF ix F s) {d' : PDb} {i : Nat} (hl : latestPage d'.m.h0 d'.m.h1 = .ok ⟨i, .header h⟩)
    (hi : i = 0 ∨ i = 1) (hkw : d'.m.kw = kw) (hf : ∀ p n, (p, n) ∈ PF + (PE + PT + PK) → readPage c.g kw p d'.file = .ok n)
    (hcache : ∀ p, d'.cache p = none) (hz : d'.file.Zeroed) : LiveAt c hc H d' ⟨i, .header h⟩ h PE PT PK PF ix F s :=
  ⟨hl, rfl, hi, hkw, L.trees, L.index, L.free, L.freeLe, hf, (fun p _ m _ hm => by rw [hcache p] at hm; cases hm), L.account, L.limit,
    L.next, hz⟩

/-! ## Recovery -/

/-- A file from which the state with header `h` in slot `i` is recovered. -/
structure Image (g : Pager) (kw : Nat) (f : File) (i : Nat) (h : Header) (P : Multiset (Nat × Node)) : Prop where
  slot : i = 0 ∨ i = 1
  schema : (h.schema = 0 ∧ kw = 8) ∨ (h.schema = 1 ∧ kw = 16)
  zeroed : f.Zeroed
  head : ∀ kw, readPage g kw i f = .ok (.header h)
  other : OtherOk g f (1 - i) h
  pages : ∀ p n, (p, n) ∈ P → readPage g kw p f = .ok n
  len : 2 * g.pageSize ≤ f.len

/-- Pinned headers with the number of the newest one are copies of it. -/
def SlotsOk (m : Opened) (h : Header) : Prop :=
  ∀ b, (m.h0.node = .header b ∨ m.h1.node = .header b) → b.tsn = h.tsn → b = h

/-- The headers pinned on opening were read from the file. -/
theorem openExisting_slots {g : Pager} {kw0 : Nat} {z : Bool} {f f' : File} {m : Opened} (he : openExisting g kw0 z f = (.ok m, f'))
    {n : Node} (hn : m.h0.node = n ∨ m.h1.node = n) : readPage g kw0 0 f = .ok n ∨ readPage g kw0 1 f = .ok n := by
  unfold openExisting at he
  cases ho : openHeaders g kw0 z f with
  | mk r f1 =>
  rw [ho] at he
  cases r with
  | error e => cases he
  | ok x =>
    obtain ⟨a, b⟩ := x
    have hm : m.h0 = a ∧ m.h1 = b := by
      have h1 := congrArg Prod.fst he
      simp only [Props.bind_ok_iff] at h1
      obtain ⟨_, -, _, -, _, -, h1⟩ := h1
      cases h1; exact ⟨rfl, rfl⟩
    rw [hm.1, hm.2] at hn
    unfold openHeaders at ho
    cases h0 : readPage g kw0 0 f with
    | ok n0 =>
      cases h1 : readPage g kw0 1 f with
      | ok n1 =>
        rw [h0, h1] at ho
        cases ho
        rcases hn with rfl | rfl
        · exact .inl rfl
        · exact .inr rfl
      | error e1 =>
        rw [h0, h1] at ho
        simp only at ho
        split at ho
        · cases ho
        · cases ho
          rcases hn with rfl | rfl <;> exact .inl rfl
    | error e0 =>
      cases h1 : readPage g kw0 1 f with
      | ok n1 =>
        rw [h0, h1] at ho
        simp only at ho
        split at ho
        · cases ho
        · split at ho
          · cases ho
          · cases ho
            rcases hn with rfl | rfl <;> exact .inr rfl
      | error e1 => rw [h0, h1] at ho; cases ho

/-- The state with header `h` is recovered. -/
theorem recover (L : LiveAt c hc H d hp h PE PT PK PF ix F s) {f : File} {i : Nat}
    (I : Image c.g kw f i h (PF + (PE + PT + PK))) {kw0 : Nat} (hk0 : kw0 ≤ 16) :
    ∃ d' i', reopen c kw0 f = .ok d' ∧ LiveAt c hc H d' ⟨i', .header h⟩ h PE PT PK PF ix F s ∧
      SafeAt c kw d' ⟨i', .header h⟩ h (PF + (PE + PT + PK)) ∧ d'.doubt = false ∧ SlotsOk d'.m h := by
  have hps : 71 ≤ c.g.pageSize ∧ c.g.pageSize ≤ 2 ^ 32 := ⟨by have := hc.ps; omega, hc.big⟩
  have hi := I.slot
  have hwidth : ∀ {f' m j}, Props.Current c.g f' m j h → m.kw = kw := by
    intro f' m j hcur
    have h1 := hcur.width
    have h2 := I.schema
    split at h1 <;> omega
  -- the state is safe again
  have safe : ∀ {f' : File} {m : Opened} {j : Nat}, Props.Current c.g f' m j h →
      Touched c.g.pageSize [1 - j] f f' → (∀ kw, readPage c.g kw j f = .ok (.header h)) → OtherOk c.g f (1 - j) h →
      OtherOk c.g f' (1 - j) h →
      LiveAt c hc H (.fresh f' m f [1 - j] none) ⟨j, .header h⟩ h PE PT PK PF ix F s ∧
        SafeAt c kw (.fresh f' m f [1 - j] none) ⟨j, .header h⟩ h (PF + (PE + PT + PK)) := by
    intro f' m j hcur ht hhead ho ho'
    have hj := hcur.slot
    have hP : ∀ p ∈ ids (PF + (PE + PT + PK)), p ∉ [1 - j] := by
      intro p hp hm
      have := L.body hp
      simp only [List.mem_singleton] at hm
      omega
    refine ⟨L.reload (d' := .fresh f' m f [1 - j] none) hcur.pinned hcur.slot (hwidth hcur)
      (fun p n hpn => ht.read (hP p (mem_ids_of hpn)) (I.pages p n hpn)) (fun _ => rfl) hcur.zeroed,
      I.schema, ht, ?_, I.len, I.zeroed, hhead, I.pages, fun _ => ⟨ho', ho⟩⟩
    intro p hp
    refine ⟨fun hin => hP p hin hp, ?_⟩
    have : p ∈ [1 - j] := hp
    simp only [List.mem_singleton] at this
    show p ≠ j
    omega
  have hre : ∀ {f' m j}, openExisting c.g kw0 c.zeroFill f = (.ok m, f') → Props.Current c.g f' m j h →
      reopen c kw0 f = .ok (.fresh f' m f [1 - j] none) := by
    intro f' m j he hcur
    unfold reopen
    rw [he]
    simp only [hcur.pinned]
    rfl
  have slots : ∀ {f' m}, openExisting c.g kw0 c.zeroFill f = (.ok m, f') → SlotsOk m h := by
    intro f' m he b hb ht
    have hi' : ∀ k, k = 0 ∨ k = 1 → readPage c.g kw0 k f = .ok (.header b) → b = h := by
      intro k hk hr
      by_cases e : k = i
      · rw [e, I.head kw0] at hr; cases hr; rfl
      · rw [show k = 1 - i by omega] at hr
        rcases I.other with hun | ⟨h', hr', hlt⟩
        · obtain ⟨e, he⟩ := hun kw0
          rw [he] at hr; cases hr
        · rw [hr' kw0] at hr; cases hr
          exact hlt.resolve_left (by omega)
    rcases openExisting_slots he hb with h1 | h1
    · exact hi' 0 (.inl rfl) h1
    · exact hi' 1 (.inr rfl) h1
  rcases I.other with hun | ⟨h', hr', hlt⟩
  · obtain ⟨e, he⟩ := hun kw0
    obtain ⟨f', e1, e2, e3, e4, e5, e6, hlen⟩ := Props.C22_repair hps hk0 c.zeroFill f I.zeroed (good := i) (bad := 1 - i) (by omega) (I.head kw0) he
    obtain ⟨m, hm⟩ := e5.mpr ⟨kw, e6 kw (L.usable I.pages I.schema)⟩
    have hcur := e4 m hm
    have heq : openExisting c.g kw0 c.zeroFill f = (.ok m, f') := Prod.ext hm e1
    have ht : Touched c.g.pageSize [1 - i] f f' := by
      refine ⟨hcur.zeroed, hlen, fun k hk => e3 k ?_⟩
      have := hk (1 - i) (by simp)
      omega
    obtain ⟨k1, k2⟩ := safe hcur ht I.head I.other (.inr ⟨h, fun k => (e2 k).2, .inr rfl⟩)
    exact ⟨_, i, hre heq hcur, k1, k2, rfl, slots heq⟩
  · -- both readable
    have both : ∀ {a b : Header} (j : Nat), readPage c.g kw0 0 f = .ok (.header a) → readPage c.g kw0 1 f = .ok (.header b) →
        (if b.tsn > a.tsn then b else a) = h → (if b.tsn > a.tsn then j = 1 else j = 0) →
        (∀ kw, readPage c.g kw j f = .ok (.header h)) → OtherOk c.g f (1 - j) h →
        ∃ d' i', reopen c kw0 f = .ok d' ∧ LiveAt c hc H d' ⟨i', .header h⟩ h PE PT PK PF ix F s ∧
          SafeAt c kw d' ⟨i', .header h⟩ h (PF + (PE + PT + PK)) ∧ d'.doubt = false ∧ SlotsOk d'.m h := by
      intro a b j h0 h1 hh hj hhead hoj
      obtain ⟨e1, e2, e3⟩ := Props.C22_newest c.g kw0 c.zeroFill f I.zeroed h0 h1
      rw [hh] at e3
      obtain ⟨m, hm⟩ := e3.mpr ⟨kw, L.usable I.pages I.schema⟩
      have hcur : Props.Current c.g f m j h := by
        have := e2 m hm
        split at this
        · next hlt => rw [if_pos hlt] at hh hj; subst hh; subst hj; exact this
        · next hlt => rw [if_neg hlt] at hh hj; subst hh; subst hj; exact this
      obtain ⟨k1, k2⟩ := safe hcur (.refl I.zeroed) hhead hoj hoj
      exact ⟨_, j, hre (Prod.ext hm e1) hcur, k1, k2, rfl, slots (Prod.ext hm e1)⟩
    have hback : OtherOk c.g f i h' → h' = h → OtherOk c.g f i h := fun ho e => e ▸ ho
    rcases hi with rfl | rfl
    · refine both 0 (I.head kw0) (hr' kw0) ?_ ?_ I.head I.other
      · rcases hlt with hlt | rfl
        · rw [if_neg (by omega)]
        · rw [if_neg (by omega)]
      · rcases hlt with hlt | rfl
        · rw [if_neg (by omega)]
        · rw [if_neg (by omega)]
    · rcases hlt with hlt | rfl
      · refine both 1 (hr' kw0) (I.head kw0) ?_ ?_ I.head I.other
        · rw [if_pos (by omega)]
        · rw [if_pos (by omega)]
      · refine both 0 (hr' kw0) (I.head kw0) ?_ ?_ hr' (.inr ⟨h', I.head, .inr rfl⟩)
        · rw [if_neg (by omega)]
        · rw [if_neg (by omega)]

/-! ## What a crash leaves -/

theorem Survives.image {P : Multiset (Nat × Node)} {disk f : File} {loose : List Nat} {since : List File} (V : Survives c disk loose since f)
    {i : Nat} (hi : i = 0 ∨ i = 1) (hsch : (h.schema = 0 ∧ kw = 8) ∨ (h.schema = 1 ∧ kw = 16)) (hlen : 2 * c.g.pageSize ≤ disk.len)
    (hhead : ∀ kw, readPage c.g kw i disk = .ok (.header h)) (hpages : ∀ p n, (p, n) ∈ P → readPage c.g kw p disk = .ok n)
    (hapart : ∀ p ∈ loose, p ∉ ids P ∧ p ≠ i) (hother : ∀ f0 ∈ disk :: since, OtherOk c.g f0 (1 - i) h) : Image c.g kw f i h P := by
  refine ⟨hi, hsch, V.touched.zeroed, fun k => V.touched.read (fun hm => (hapart _ hm).2 rfl) (hhead k), ?_,
    fun p n hpn => V.touched.read (fun hm => (hapart _ hm).1 (mem_ids_of hpn)) (hpages p n hpn), Nat.le_trans hlen V.touched.len⟩
  rcases V.headers (1 - i) (by omega) with hu | ⟨f0, hf0, he⟩
  · exact .inl hu
  · exact (hother f0 hf0).congr he

/-- The database is `s`, and the pinned headers are in order. -/
def LiveS (c : Conf) {kw : Nat} (hc : ConfOk c kw) (H : String → Db.TagHash) (d : PDb) (s : Spec.Db) : Prop :=
  ∃ hp h PE PT PK PF ix F, LiveAt c hc H d hp h PE PT PK PF ix F s ∧ SafeAt c kw d hp h (PF + (PE + PT + PK)) ∧ SlotsOk d.m h

theorem LiveS.live (h : LiveS c hc H d s) : Live c hc H d s := by
  obtain ⟨hp, h, PE, PT, PK, PF, ix, F, L, S, -⟩ := h
  exact ⟨hp, h, PE, PT, PK, PF, ix, F, L, S⟩

/-- A crash at rest. -/
theorem LiveAt.crashed (L : LiveAt c hc H d hp h PE PT PK PF ix F s) (S : SafeAt c kw d hp h (PF + (PE + PT + PK)))
    (hd : d.doubt = false) {f : File} (hf : Crash c d f) {kw0 : Nat} (hk0 : kw0 ≤ 16) :
    ∃ d' i', reopen c kw0 f = .ok d' ∧ LiveAt c hc H d' ⟨i', .header h⟩ h PE PT PK PF ix F s ∧
      SafeAt c kw d' ⟨i', .header h⟩ h (PF + (PE + PT + PK)) ∧ d'.doubt = false ∧ SlotsOk d'.m h := by
  refine recover L (Survives.image hf L.slot S.schema S.len S.head S.pages S.apart ?_) hk0
  obtain ⟨h1, h2⟩ := S.other hd
  simp [h1, h2]

/-- After a crash at rest the committed state is recovered. -/
theorem crash_recovers (hL : Live c hc H d s) (hd : d.doubt = false) {f : File} (hf : Crash c d f) {kw0 : Nat} (hk0 : kw0 ≤ 16) :
    ∃ d', reopen c kw0 f = .ok d' ∧ LiveS c hc H d' s ∧ d'.doubt = false := by
  obtain ⟨hp, h, PE, PT, PK, PF, ix, F, L, S⟩ := hL
  obtain ⟨d', i', h1, h2, h3, h4, h5⟩ := L.crashed S hd hf hk0
  exact ⟨d', h1, ⟨_, _, _, _, _, _, _, _, h2, h3, h5⟩, h4⟩

variable {o : Option Nat} {PE' PT' PK' PF' : Multiset (Nat × Node)} {ix' : Nat → List Nat} {N : Multiset Nat} {s' : Spec.Db} {w : Writer}

/-- A crash while the data pages of a transaction are written. -/
theorem Ready.dataCrash (R : Ready c hc H d h F o w PE' PT' PK' PF' ix' N s') (L : LiveAt c hc H d hp h PE PT PK PF ix F s)
    (S : SafeAt c kw d hp h (PF + (PE + PT + PK))) (hd : d.doubt = false) {f : File}
    (V : Survives c d.disk (d.loose ++ w.dirty.ids) [d.file] f) {kw0 : Nat} (hk0 : kw0 ≤ 16) :
    ∃ d', reopen c kw0 f = .ok d' ∧ LiveS c hc H d' s ∧ d'.doubt = false := by
  have hown := R.own
  have hdirty2 : ∀ p ∈ w.dirty.ids, 2 ≤ p := fun p hp => (hown.lt (hown.dirtyIn p hp)).1
  have hslot := L.slot
  obtain ⟨d', i', h1, h2, h3, h4, h5⟩ := recover L (V.image L.slot S.schema S.len S.head S.pages
    (fun p hp => (List.mem_append.mp hp).elim (S.apart p) fun hm => ⟨R.not_dirty L p hm, by have := hdirty2 p hm; omega⟩)
    (by obtain ⟨h1, h2⟩ := S.other hd; simp [h1, h2])) hk0
  exact ⟨d', h1, ⟨_, _, _, _, _, _, _, _, h2, h3, h5⟩, h4⟩

/-- A crash while the header is written: `f1` is the file with the data pages, `f2` also with the new header. -/
theorem Ready.headCrash (R : Ready c hc H d h F o w PE' PT' PK' PF' ix' N s') (L : LiveAt c hc H d hp h PE PT PK PF ix F s)
    (S : SafeAt c kw d hp h (PF + (PE + PT + PK))) (hd : d.doubt = false) {f1 f2 f : File}
    (htouch : Touched c.g.pageSize w.dirty.ids d.file f1) (hread : ∀ p n, w.dirty.get p = some n → readPage c.g kw p f1 = .ok n)
    (hnew : ∀ k, readPage c.g k (1 - hp.id) f2 = .ok (.header (newHeader w h.schema))) {d1 : PDb}
    (hd1 : d1 = PDb.fsync c w.dirty.ids { d with file := f1 }) (V : Survives c d1.disk ((1 - hp.id) :: d1.loose) [f1, f2] f)
    {kw0 : Nat} (hk0 : kw0 ≤ 16) :
    ∃ d', reopen c kw0 f = .ok d' ∧ (LiveS c hc H d' s ∨ LiveS c hc H d' s') ∧ d'.doubt = false := by
  have hown := R.own
  have hdirty2 : ∀ p ∈ w.dirty.ids, 2 ≤ p := fun p hp => (hown.lt (hown.dirtyIn p hp)).1
  have hslot := L.slot
  obtain ⟨S1, hloose1, hheadf, hother⟩ := R.settled L S htouch
  rw [← hd1] at S1 hloose1
  have hd1f : d1.file = f1 := by rw [hd1]; rfl
  have hd1d : d1.doubt = false := by rw [hd1]; exact hd
  have hloose : ∀ p ∈ (1 - hp.id) :: d1.loose, p ∉ ids (PF + (PE + PT + PK)) ∧ p ≠ hp.id := by
    intro p hp
    rcases List.mem_cons.mp hp with rfl | hp
    · refine ⟨fun hin => ?_, by omega⟩
      have := L.body hin
      omega
    · exact S1.apart p hp
  have hheadF : ∀ k, readPage c.g k hp.id f = .ok (.header h) := fun k =>
    V.touched.read (fun hm => (hloose _ hm).2 rfl) (S1.head k)
  have hpagesF : ∀ p n, (p, n) ∈ PF + (PE + PT + PK) → readPage c.g kw p f = .ok n := fun p n hpn =>
    V.touched.read (fun hm => (hloose _ hm).1 (mem_ids_of hpn)) (S1.pages p n hpn)
  have hlenF : 2 * c.g.pageSize ≤ f.len := Nat.le_trans S1.len V.touched.len
  have old : OtherOk c.g f (1 - hp.id) h →
      ∃ d', reopen c kw0 f = .ok d' ∧ (LiveS c hc H d' s ∨ LiveS c hc H d' s') ∧ d'.doubt = false := by
    intro ho
    obtain ⟨d', i', h1, h2, h3, h4, h5⟩ := recover L ⟨L.slot, S.schema, V.touched.zeroed, hheadF, ho, hpagesF, hlenF⟩ hk0
    exact ⟨d', h1, .inl ⟨_, _, _, _, _, _, _, _, h2, h3, h5⟩, h4⟩
  have ho1 := S1.other hd1d
  rw [hd1f] at ho1
  rcases V.headers (1 - hp.id) (by omega) with hu | ⟨f0, hf0, he⟩
  · exact old (.inl hu)
  simp only [List.mem_cons, List.not_mem_nil, or_false] at hf0
  rcases hf0 with rfl | rfl | rfl
  · exact old (ho1.2.congr he)
  · exact old (ho1.1.congr he)
  -- the new header made it
  have hdirtyF : ∀ p n, w.dirty.get p = some n → readPage c.g kw p f = .ok n := by
    intro p n hpn
    have hp := Pages.mem_ids.mpr ⟨n, hpn⟩
    refine V.touched.read ?_ ?_
    · intro hm
      rcases List.mem_cons.mp hm with h1 | h1
      · have := hdirty2 p hp
        omega
      · exact hloose1 p h1 hp
    · rw [hd1]
      show readPage c.g kw p (synced _ _ _ f1) = _
      rw [synced_read]
      · exact hread p n hpn
      · intro hm
        refine hloose1 p ?_ hp
        rw [hd1]; exact hm
  have hkw := L.width
  obtain ⟨dx, hdx⟩ : ∃ dx : PDb, dx = .fresh f ⟨⟨1 - hp.id, .header (newHeader w h.schema)⟩, ⟨1 - hp.id, .header (newHeader w h.schema)⟩, kw⟩ f [] none := ⟨_, rfl⟩
  have L2 : LiveAt c hc H dx ⟨1 - hp.id, .header (newHeader w h.schema)⟩ (newHeader w h.schema) PE' PT' PK' PF' ix' (newFree w N F o) s' := by
    refine R.live L ?_ rfl (by show 1 - hp.id = 0 ∨ 1 - hp.id = 1; omega) ?_ ?_ ?_ ?_ ?_ ?_
    · rw [hdx]; simp [PDb.fresh, latestPage, asHeader, bind, Except.bind]
    · rw [hdx]; rfl
    · rw [hdx]; exact hdirtyF
    · rw [hdx]; exact hpagesF
    · rw [hdx]; intro p n m _ hm; cases hm
    · rw [hdx]; intro p n m _ hm; cases hm
    · rw [hdx]; exact V.touched.zeroed
  have I : Image c.g kw f (1 - hp.id) (newHeader w h.schema) (PF' + (PE' + PT' + PK')) := by
    refine ⟨by omega, S.schema, V.touched.zeroed, fun k => by rw [he]; exact hnew k, .inr ⟨h, ?_, .inl ?_⟩, ?_, hlenF⟩
    · rw [show 1 - (1 - hp.id) = hp.id by omega]
      exact hheadF
    · have := R.tsn
      simp only [newHeader]
      omega
    · intro p n hpn
      have := L2.file p n hpn
      rw [hdx] at this
      exact this
  obtain ⟨d', i', h1, h2, h3, h4, h5⟩ := recover L2 I hk0
  exact ⟨d', h1, .inr ⟨_, _, _, _, _, _, _, _, h2, h3, h5⟩, h4⟩

/-- After a crash during a commit, the state before or after the transaction is recovered. -/
theorem commit_crash_recovers {w : PW} (hT : Tx c hc H w s (Db.Abs.of H s')) (hd : w.db.doubt = false) {io : IO} {f : File}
    (hf : CommitCrash c io w f) {kw0 : Nat} (hk0 : kw0 ≤ 16) :
    ∃ d', reopen c kw0 f = .ok d' ∧ (LiveS c hc H d' s ∨ LiveS c hc H d' s') ∧ d'.doubt = false := by
  obtain ⟨h, PE, PT, PK, PF, ix, F, L, S, PE', PT', PK', PF', ix', T⟩ := hT
  obtain ⟨u, wr', hrun, PF'', N, R⟩ := T.ready io.ordLaw
  have hslot := L.slot
  cases hf with
  | data wr hwr V =>
    rw [hrun] at hwr
    cases hwr
    obtain ⟨d', h1, h2, h3⟩ := R.dataCrash L S hd V hk0
    exact ⟨d', h1, .inl h2, h3⟩
  | header wr f1 f2 n p d1 hwr hfit hw1 hd1 hcow hfit2 hw2 V =>
    rw [hrun] at hwr
    cases hwr
    have hcow' : cowHeader w.hp wr'.roots = .ok ⟨1 - w.hp.id, .header (newHeader wr' h.schema)⟩ := by
      have : (if w.hp.id = 0 then 1 else 0) = 1 - w.hp.id := by split <;> omega
      unfold cowHeader
      rw [L.node, this]; rfl
    rw [hcow] at hcow'
    cases hcow'
    obtain ⟨htouch, hread⟩ := R.written L (by rw [← R.width]; exact hfit) hw1
    have hz1 : f1.Zeroed := htouch.zeroed
    have ps9 : 9 ≤ c.g.pageSize := by have := hc.ps; omega
    have hnew : ∀ k, readPage c.g k (1 - w.hp.id) f2 = .ok (.header (newHeader wr' h.schema)) := by
      rcases writeOnePage_result ps9 hc.big (R.width ▸ hc.kw) (buf := (List.range c.g.pageSize).map io.buf) (by simp) c.zeroFill
        (1 - w.hp.id) hfit2 hz1 with ⟨f', h1, h2, h3⟩ | ⟨e, h1, -⟩
      · rw [hw2] at h1; cases h1; exact readPage_header_width h3
      · rw [hw2] at h1; cases h1
    exact R.headCrash L S hd htouch hread hnew hd1 V hk0

end Uma.Page
