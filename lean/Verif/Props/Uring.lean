import Verif.Page.Uring

/-!
# C69: what the I/O thread reports and what it has written
-/

namespace Uma.Props
open Uma.Codec Uma.Mvcc Uma.Spec Uma.Page

variable {g : Pager} {x : Prepared} {k : Kernel} {f : File}

/-- A prepared commit that fits the file: distinct pages of one page each, and a header page that is not one of them. -/
structure Fitting (g : Pager) (x : Prepared) : Prop where
  positive : 0 < g.pageSize
  distinct : (x.pages.map (·.1)).Nodup
  apart : x.hp.id ∉ x.pages.map (·.1)
  size : ∀ y ∈ x.pages, y.2.length = g.pageSize
  header : x.header.length = g.pageSize

/-- Each page is given to the kernel once; the kernel works in any order. -/
def Submitted (x : Prepared) (k : Kernel) : Prop := (k.writes.map (·.page)).Perm x.pages

/-- No short writes: a write that reports success has written everything. -/
def Whole (x : Prepared) (k : Kernel) : Prop :=
  (∀ w ∈ k.writes, w.ok = true → w.page.2.length ≤ w.n) ∧ (k.header.2 = true → x.header.length ≤ k.header.1)

/-- The file after a commit. -/
def fileAfter (g : Pager) (x : Prepared) (k : Kernel) (f : File) : File := runActs g (uringCommit x k).2 f

/-- Success is reported exactly when the kernel reported success for every request. -/
theorem C69_reported (x : Prepared) (k : Kernel) :
    (uringCommit x k).1 = .ok () ↔ (∀ w ∈ k.writes, w.ok = true) ∧ k.syncData = true ∧ k.header.2 = true ∧ k.syncAll = true := by
  unfold uringCommit
  by_cases h1 : k.writes.any (fun w => !w.ok) = true
  · simp only [h1, if_true]
    constructor
    · intro h; cases h
    · rintro ⟨h, -⟩
      obtain ⟨w, hw, ho⟩ := List.any_eq_true.mp h1
      rw [h w hw] at ho
      cases ho
  · rw [if_neg h1]
    have h1 : ∀ w ∈ k.writes, w.ok = true := fun w hw => by
      cases e : w.ok with
      | true => rfl
      | false => exact absurd (List.any_eq_true.mpr ⟨w, hw, by rw [e]; rfl⟩) h1
    cases k.syncData <;> cases k.header.2 <;> cases k.syncAll <;> simp <;> exact h1

theorem uring_cases (x : Prepared) (k : Kernel) :
    (uringCommit x k = (.error (.io "data"), k.writes.map Done.act)) ∨
    ((∀ w ∈ k.writes, w.ok = true) ∧ k.syncData = true ∧
      (uringCommit x k = (.error (.io "header"), k.writes.map Done.act ++ [.sync, .land x.hp.id (x.header.take k.header.1)]) ∨
       (k.header.2 = true ∧
        uringCommit x k = (.ok (), k.writes.map Done.act ++ [.sync, .land x.hp.id (x.header.take k.header.1)] ++ [.sync])))) := by
  unfold uringCommit
  by_cases h1 : k.writes.any (fun w => !w.ok) = true
  · exact .inl (by simp only [h1, if_true])
  · rw [if_neg h1]
    have h1 : ∀ w ∈ k.writes, w.ok = true := fun w hw => by
      cases e : w.ok with
      | true => rfl
      | false => exact absurd (List.any_eq_true.mpr ⟨w, hw, by rw [e]; rfl⟩) h1
    cases k.syncData
    · exact .inl rfl
    · refine .inr ⟨h1, rfl, ?_⟩
      cases hh : k.header.2
      · exact .inl rfl
      · cases k.syncAll
        · exact .inl rfl
        · exact .inr ⟨rfl, rfl⟩

theorem Submitted.mem (h : Submitted x k) {w : Done} (hw : w ∈ k.writes) : w.page ∈ x.pages :=
  h.mem_iff.mp (List.mem_map_of_mem hw)

theorem data_touched (F : Fitting g x) (hs : Submitted x k) (hz : f.Zeroed) :
    Touched g.pageSize (x.pages.map (·.1)) f (runActs g (k.writes.map Done.act) f) :=
  runActs_touched hz fun _ hw => ⟨List.mem_map_of_mem (hs.mem hw), Nat.le_of_eq (F.size _ (hs.mem hw))⟩

theorem data_whole (F : Fitting g x) (hs : Submitted x k) (hw : Whole x k) (ho : ∀ w ∈ k.writes, w.ok = true) (f : File) :
    runActs g (k.writes.map Done.act) f = writeEach g x.pages f := by
  rw [runActs_whole fun w h => ⟨hw.1 w h (ho w h), fun e => by
    have h1 := F.size _ (hs.mem h)
    rw [e] at h1
    have h2 := F.positive
    rw [← h1] at h2
    exact absurd h2 (by decide)⟩]
  exact writeEach_perm hs ((hs.map _).nodup_iff.mpr F.distinct) (fun y hy => Nat.le_of_eq (F.size _ (hs.mem_iff.mp hy))) f

theorem header_whole (F : Fitting g x) (hw : Whole x k) (hh : k.header.2 = true) (f : File) :
    Act.run g (.land x.hp.id (x.header.take k.header.1)) f = f.writeAt (x.hp.id * g.pageSize) x.header := by
  rw [List.take_of_length_le (hw.2 hh)]
  simp only [Act.run]
  rw [if_neg fun e => by
    have h1 := F.header
    have h2 := F.positive
    rw [e] at h1
    rw [← h1] at h2
    exact absurd h2 (by decide)]

/-- Success reported and no short writes: every page and the header can be read back as they were prepared. -/
theorem C69_written_partial (F : Fitting g x) (hs : Submitted x k) (hw : Whole x k) (hz : f.Zeroed)
    (h : (uringCommit x k).1 = .ok ()) :
    (∀ y ∈ x.pages, readPageBytes g y.1 (fileAfter g x k f) = .ok y.2) ∧
    readPageBytes g x.hp.id (fileAfter g x k f) = .ok x.header := by
  unfold fileAfter
  rcases uring_cases x k with e | ⟨ho, -, e | ⟨hh, e⟩⟩
  · rw [e] at h; cases h
  · rw [e] at h; cases h
  · rw [e]
    simp only [runActs_append, runActs]
    rw [data_whole F hs hw ho]
    simp only [show ∀ f, Act.run g .sync f = f from fun _ => rfl]
    rw [header_whole F hw hh]
    have ht : Touched g.pageSize (x.pages.map (·.1)) f (writeEach g x.pages f) :=
      writeEach_touched hz fun y hy => ⟨List.mem_map_of_mem hy, Nat.le_of_eq (F.size y hy)⟩
    refine ⟨fun y hy => ?_, readPageBytes_writeAt F.header _⟩
    refine readPageBytes_congr (writeAt_touched (Nat.le_of_eq F.header) ht.zeroed) ?_
      (readPageBytes_writeEach F.distinct F.size hz y hy)
    intro hm
    simp only [List.mem_singleton] at hm
    exact F.apart (hm ▸ List.mem_map_of_mem hy)

/-- Whatever the kernel does, only the pages of the commit and the header page are written, and the header page only once the data
pages have been reported written and synced. -/
theorem C69_untouched (F : Fitting g x) (hs : Submitted x k) (hz : f.Zeroed) {p : Nat} (hp : p ∉ x.pages.map (·.1))
    (hh : p ≠ x.hp.id ∨ ¬ ((∀ w ∈ k.writes, w.ok = true) ∧ k.syncData = true)) {b : Bytes} (hb : readPageBytes g p f = .ok b) :
    readPageBytes g p (fileAfter g x k f) = .ok b := by
  have ht := data_touched F hs hz
  have h1 := readPageBytes_congr ht hp hb
  have h2 : p ≠ x.hp.id → readPageBytes g p
      (Act.run g (.land x.hp.id (x.header.take k.header.1)) (runActs g (k.writes.map Done.act) f)) = .ok b := fun hne =>
    readPageBytes_congr (land_touched (by rw [List.length_take, F.header]; omega) ht.zeroed) (by simpa using hne) h1
  unfold fileAfter
  rcases uring_cases x k with e | ⟨ho, hsy, e | ⟨-, e⟩⟩
  · rw [e]; exact h1
  · rw [e]
    simp only [runActs_append, runActs]
    exact h2 (hh.resolve_right fun hn => hn ⟨ho, hsy⟩)
  · rw [e]
    simp only [runActs_append, runActs]
    exact h2 (hh.resolve_right fun hn => hn ⟨ho, hsy⟩)

theorem mem_split_last {α : Type} {l as rest : List α} {s t a : α} (he : l ++ [s, t] = as ++ a :: rest) (hl : a ∉ l) (hs : a ≠ s) :
    as = l ++ [s] := by
  induction l generalizing as with
  | nil =>
    cases as with
    | nil => simp only [List.nil_append, List.cons.injEq] at he; exact absurd he.1.symm hs
    | cons b as =>
      simp only [List.nil_append, List.cons_append, List.cons.injEq] at he
      cases as with
      | nil => rw [he.1]; rfl
      | cons c as =>
        have := congrArg List.length he.2
        simp only [List.length_cons, List.length_nil, List.length_append] at this
        omega
  | cons b l ih =>
    cases as with
    | nil => simp only [List.cons_append, List.nil_append, List.cons.injEq] at he; exact absurd (he.1 ▸ List.mem_cons_self) hl
    | cons c as =>
      simp only [List.cons_append, List.cons.injEq] at he
      rw [ih he.2 fun h => hl (.tail _ h), he.1]
      rfl

/-- The header page is touched only after all data pages have been written and then synced: this holds at every moment, so also
for a crash in between. -/
theorem C69_order (F : Fitting g x) (hs : Submitted x k) (hw : Whole x k) {before rest : List Act} {b : Bytes}
    (he : (uringCommit x k).2 = before ++ .land x.hp.id b :: rest) :
    ∃ data, before = data ++ [.sync] ∧ (∀ y ∈ x.pages, Act.land y.1 y.2 ∈ data) ∧
      ∀ id c, Act.land id c ∈ data → (id, c) ∈ x.pages := by
  have hno : Act.land x.hp.id b ∉ k.writes.map Done.act := fun hm => by
    obtain ⟨w, hw', e⟩ := List.mem_map.mp hm
    simp only [Done.act, Act.land.injEq] at e
    exact F.apart (e.1 ▸ List.mem_map_of_mem (hs.mem hw'))
  have key : (∀ w ∈ k.writes, w.ok = true) → before = k.writes.map Done.act ++ [.sync] →
      ∃ data, before = data ++ [.sync] ∧ (∀ y ∈ x.pages, Act.land y.1 y.2 ∈ data) ∧
        ∀ id c, Act.land id c ∈ data → (id, c) ∈ x.pages := fun ho hb => by
    refine ⟨_, hb, fun y hy => ?_, fun id c hm => ?_⟩
    · obtain ⟨w, hwm, e⟩ := List.mem_map.mp (hs.mem_iff.mpr hy)
      refine List.mem_map.mpr ⟨w, hwm, ?_⟩
      unfold Done.act
      rw [List.take_of_length_le (hw.1 w hwm (ho w hwm)), e]
    · obtain ⟨w, hwm, e⟩ := List.mem_map.mp hm
      unfold Done.act at e
      rw [List.take_of_length_le (hw.1 w hwm (ho w hwm))] at e
      simp only [Act.land.injEq] at e
      have := hs.mem hwm
      rw [← e.1, ← e.2]
      exact this
  rcases uring_cases x k with e | ⟨ho, -, e | ⟨-, e⟩⟩
  · rw [e] at he
    have he : k.writes.map Done.act = before ++ .land x.hp.id b :: rest := he
    exact absurd (he ▸ List.mem_append_right _ List.mem_cons_self) hno
  · rw [e] at he
    exact key ho (mem_split_last he hno (by simp))
  · rw [e] at he
    have he : k.writes.map Done.act ++ [.sync, .land x.hp.id (x.header.take k.header.1)] ++ [.sync] = before ++ .land x.hp.id b :: rest := he
    -- the last act is the sync, so what follows the header is not empty
    rcases List.eq_nil_or_concat rest with rfl | ⟨rest', z, rfl⟩
    · have := List.append_inj_right' he (by simp)
      simp at this
    · have h2 : before ++ Act.land x.hp.id b :: (rest' ++ [z]) = (before ++ Act.land x.hp.id b :: rest') ++ [z] := by simp
      rw [List.concat_eq_append, h2] at he
      exact key ho (mem_split_last (List.append_inj_left' he rfl) hno (by simp))

/-- A commit is acknowledged only after a last sync that follows everything that was written. -/
theorem C69_durable (h : (uringCommit x k).1 = .ok ()) : ∃ acts, (uringCommit x k).2 = acts ++ [.sync] ∧
    ∃ n, .land x.hp.id (x.header.take n) ∈ acts := by
  rcases uring_cases x k with e | ⟨-, -, e | ⟨-, e⟩⟩
  · rw [e] at h; cases h
  · rw [e] at h; cases h
  · rw [e]
    exact ⟨_, rfl, k.header.1, by simp⟩

/-- Without short writes the I/O thread does one of the things that the model of the pipelined writer (C46 and others) lets it do. -/
theorem C69_matches (F : Fitting g x) (hs : Submitted x k) (hw : Whole x k) {c : Conf} (hg : c.g = g) {d : PDb} (hz : d.file.Zeroed) :
    ∃ ft : Option Fault, ∀ io : PipeIO, io.fault = ft → io.lost = false →
      (ioCommit c io x d).1 = (uringCommit x k).1 ∧ (ioCommit c io x d).2.file = fileAfter g x k d.file := by
  subst hg
  have ht : Touched c.g.pageSize (x.pages.map (·.1)) d.file (writeEach c.g x.pages d.file) :=
    writeEach_touched hz fun y hy => ⟨List.mem_map_of_mem hy, Nat.le_of_eq (F.size y hy)⟩
  have herr : ∀ (io : PipeIO) m, io.lost = false → io.error m = .io m := fun io m hl => by
    unfold PipeIO.error
    rw [if_neg (by rw [hl]; decide)]
  rcases uring_cases x k with e | ⟨ho, -, e | ⟨hh, e⟩⟩
  · refine ⟨some (.data (runActs c.g (k.writes.map Done.act) d.file)), fun io hf hl => ?_⟩
    unfold ioCommit fileAfter
    rw [hf, e]
    exact ⟨congrArg _ (herr io _ hl), scramble_later (data_touched F hs hz) hz⟩
  · refine ⟨some (.header (Act.run c.g (.land x.hp.id (x.header.take k.header.1)) (writeEach c.g x.pages d.file))), fun io hf hl => ?_⟩
    unfold ioCommit fileAfter
    rw [hf, e]
    refine ⟨congrArg _ (herr io _ hl), ?_⟩
    simp only [runActs_append, runActs]
    rw [data_whole F hs hw ho]
    exact scramble_later (land_touched (by rw [List.length_take, F.header]; omega) ht.zeroed) ht.zeroed
  · refine ⟨none, fun io hf _ => ?_⟩
    unfold ioCommit fileAfter
    rw [hf, e]
    refine ⟨rfl, ?_⟩
    simp only [runActs_append, runActs]
    rw [data_whole F hs hw ho]
    exact (header_whole F hw hh _).symm

/-- A kernel that writes nothing of the data pages and says so. -/
def shortKernel (x : Prepared) : Kernel := ⟨x.pages.map fun y => ⟨y, 0, true⟩, true, (x.header.length, true), true⟩

/-- The number of bytes written is not looked at: with short writes success is reported although not a byte of the data pages has been
written, and the header that refers to them has. -/
theorem C69_short (F : Fitting g x) (f : File) : Submitted x (shortKernel x) ∧ (uringCommit x (shortKernel x)).1 = .ok () ∧
    fileAfter g x (shortKernel x) f = f.writeAt (x.hp.id * g.pageSize) x.header := by
  have hok : (uringCommit x (shortKernel x)).1 = .ok () := (C69_reported x _).mpr ⟨fun w hw => by
    obtain ⟨y, -, rfl⟩ := List.mem_map.mp hw
    rfl, rfl, rfl, rfl⟩
  refine ⟨?_, hok, ?_⟩
  · unfold Submitted shortKernel
    simp only [List.map_map]
    rw [show ((fun w : Done => w.page) ∘ fun y => (⟨y, 0, true⟩ : Done)) = id from rfl, List.map_id]
  · have hn : ∀ (l : List (Nat × Bytes)) (f : File), runActs g ((l.map fun y => (⟨y, 0, true⟩ : Done)).map Done.act) f = f := by
      intro l
      induction l with
      | nil => exact fun _ => rfl
      | cons y l ih =>
        intro f
        simp only [List.map_cons, runActs]
        rw [show Act.run g (Done.act ⟨y, 0, true⟩) f = f from by simp [Done.act, Act.run]]
        exact ih f
    unfold fileAfter
    rcases uring_cases x (shortKernel x) with e | ⟨-, -, e | ⟨-, e⟩⟩
    · rw [e] at hok; cases hok
    · rw [e] at hok; cases hok
    · rw [e]
      simp only [runActs_append, runActs]
      rw [show runActs g ((shortKernel x).writes.map Done.act) f = f from hn x.pages f]
      simp only [show ∀ f, Act.run g .sync f = f from fun _ => rfl]
      have h1 := F.header
      have h2 := F.positive
      simp only [shortKernel, List.take_length, Act.run]
      rw [if_neg fun e => by rw [e] at h1; rw [← h1] at h2; exact absurd h2 (by decide)]

/-- A commit of two pages with pages of four bytes. -/
def exPrepared : Prepared := ⟨⟨1, .tagLeaf []⟩, [9, 9, 9, 9], [(2, [1, 2, 3, 4]), (3, [5, 6, 7, 8])], []⟩

def exPager : Pager := ⟨4, 1⟩

def exBlank : File := ⟨16, 16, fun _ => 0⟩

theorem exFitting : Fitting exPager exPrepared := ⟨by decide, by decide, by decide, by decide, rfl⟩

/-- The claim without the restriction to kernels that write everything is false. -/
theorem C69_written_false : ¬ ∀ (g : Pager) (x : Prepared) (k : Kernel) (f : File), Fitting g x → Submitted x k → f.Zeroed →
    (uringCommit x k).1 = .ok () → ∀ y ∈ x.pages, readPageBytes g y.1 (fileAfter g x k f) = .ok y.2 := by
  intro h
  obtain ⟨h1, h2, h3⟩ := C69_short exFitting exBlank
  have := h exPager exPrepared _ exBlank exFitting h1 (fun _ _ => rfl) h2 (2, [1, 2, 3, 4]) (by simp [exPrepared])
  rw [h3] at this
  exact absurd this (by decide +kernel)

/-- The commit and the file of the example, the second page first. -/
def exKernel : Kernel := ⟨[⟨(3, [5, 6, 7, 8]), 4, true⟩, ⟨(2, [1, 2, 3, 4]), 4, true⟩], true, (4, true), true⟩

example : (uringCommit exPrepared exKernel).1 = .ok () ∧
    readPageBytes exPager 2 (fileAfter exPager exPrepared exKernel exBlank) = .ok [1, 2, 3, 4] ∧
    readPageBytes exPager 3 (fileAfter exPager exPrepared exKernel exBlank) = .ok [5, 6, 7, 8] ∧
    readPageBytes exPager 1 (fileAfter exPager exPrepared exKernel exBlank) = .ok [9, 9, 9, 9] ∧
    readPageBytes exPager 0 (fileAfter exPager exPrepared exKernel exBlank) = .ok [0, 0, 0, 0] :=
  ⟨rfl, by decide +kernel, by decide +kernel, by decide +kernel, by decide +kernel⟩

/-- A data page that fails half way: no header. -/
def exBroken : Kernel := ⟨[⟨(3, [5, 6, 7, 8]), 2, false⟩, ⟨(2, [1, 2, 3, 4]), 4, true⟩], true, (4, true), true⟩

example : (uringCommit exPrepared exBroken).1 = .error (.io "data") ∧
    readPageBytes exPager 3 (fileAfter exPager exPrepared exBroken exBlank) = .ok [5, 6, 0, 0] ∧
    readPageBytes exPager 1 (fileAfter exPager exPrepared exBroken exBlank) = .ok [0, 0, 0, 0] :=
  ⟨rfl, by decide +kernel, by decide +kernel⟩

theorem serializeEach_size {kw : Nat} : ∀ {pages : Pages} {l : List (Nat × Bytes)}, serializeEach kw pages = .ok l →
    ∀ y ∈ l, y.2.length = defaultPageSize
  | [], l, h, y, hy => by
    cases h
    cases hy
  | (q, m) :: ps, l, h, y, hy => by
    obtain ⟨b, l', hb, hs, rfl⟩ := serializeEach_cons h
    rcases List.mem_cons.mp hy with rfl | hy
    · rw [serializePage_length hb, zeroBuffer_length]
    · exact serializeEach_size hs y hy

theorem prepareCommit_size {c : Conf} {ord : Writer → List Nat} {hp : HPage} {w w1 : Writer}
    (h : prepareCommit c ord hp w = .ok (x, w1)) : ∀ y ∈ x.pages, y.2.length = defaultPageSize := by
  unfold prepareCommit at h
  split at h
  · cases h
  split at h
  · cases h
  split at h
  · cases h
  split at h
  · cases h
  split at h
  · cases h
  next ps hps =>
  cases h
  exact serializeEach_size hps

/-- What the pipelined writer sends to the I/O thread fits the file, when the file has pages of 4096 bytes. -/
theorem C69_prepared {c : Conf} {kw : Nat} {hc : ConfOk c kw} {H : String → Db.TagHash} {d : PDb} {hp : HPage} {h : Header}
    {PE PT PK PF PE' PT' PK' PF' : Multiset (Nat × Node)} {ix ix' : Nat → List Nat} {F : Multiset (Nat × Nat)} {s s' : Spec.Db}
    {w w1 : Writer} (hg : c.g.pageSize = defaultPageSize) (L : LiveAt c hc H d hp h PE PT PK PF ix F s)
    (T : TxAt c hc d h F w PE' PT' PK' PF' ix' (Db.Abs.of H s')) {ord : Writer → List Nat} (hord : ∀ w, (ord w).Perm w.freed)
    (hx : prepareCommit c ord hp w = .ok (x, w1)) : Fitting c.g x := by
  rcases prepareCommit_spec hg L T hord with ⟨x', w', PF'', N, e, R, X⟩ | ⟨e, he, -⟩
  · rw [hx] at e
    cases e
    have hown := R.own
    refine ⟨by rw [hg]; decide, by rw [X.ids]; exact hown.dirtyNodup, ?_, fun y hy => by rw [hg]; exact prepareCommit_size hx y hy, X.len⟩
    rw [X.ids, X.hp]
    intro hm
    have h2 := (hown.lt (hown.dirtyIn _ hm)).1
    simp only at h2
    omega
  · rw [hx] at he
    cases he

/-! ## The variant without io_uring -/

/-- Success reported: everything has been written, without a condition on the operating system; and a page of another size than
the file's is refused. -/
theorem C69_blocking {fails : Nat → Option Nat} {syncs : Bool × Bool} {f' : File} (hz : f.Zeroed) (hd : (x.pages.map (·.1)).Nodup)
    (ha : x.hp.id ∉ x.pages.map (·.1)) (h : blockingCommit g fails syncs x f = (.ok (), f')) :
    (∀ y ∈ x.pages, readPageBytes g y.1 f' = .ok y.2) ∧ readPageBytes g x.hp.id f' = .ok x.header ∧
    (∀ y ∈ x.pages, fails y.1 = none) ∧ fails x.hp.id = none ∧ syncs = (true, true) := by
  have hnone : ∀ {id b fl f f'}, writePageData g id b fl f = (.ok (), f') → fl = none := by
    intro id b fl f f' h
    unfold writePageData at h
    split at h
    · cases h
    · cases fl with
      | none => rfl
      | some n => cases h
  have hall : ∀ (l : List (Nat × Bytes)) (f f' : File), writeData g fails l f = (.ok (), f') → ∀ y ∈ l, fails y.1 = none := by
    intro l
    induction l with
    | nil => intro _ _ _ y hy; cases hy
    | cons a l ih =>
      obtain ⟨p, b⟩ := a
      intro f f' h y hy
      unfold writeData at h
      cases e : writePageData g p b (fails p) f with
      | mk r f1 =>
        rw [e] at h
        cases r with
        | error e => cases h
        | ok u =>
          rcases List.mem_cons.mp hy with rfl | hy
          · exact hnone e
          · exact ih f1 f' h y hy
  unfold blockingCommit at h
  cases e : writeData g fails x.pages f with
  | mk r f1 =>
    rw [e] at h
    cases r with
    | error e => cases h
    | ok u =>
      have ht := writeData_touched (g := g) (fails := fails) (s := x.pages.map (·.1)) (l := x.pages) hz fun y hy => List.mem_map_of_mem hy
      rw [e] at ht
      simp only at h
      obtain ⟨s1, s2⟩ := syncs
      cases s1 with
      | false => cases h
      | true =>
        simp only [Bool.not_true, Bool.false_eq_true, if_false] at h
        cases e2 : writePageData g x.hp.id x.header (fails x.hp.id) f1 with
        | mk r f2 =>
          rw [e2] at h
          cases r with
          | error e => cases h
          | ok u =>
            cases s2 with
            | false => cases h
            | true =>
              simp only [Bool.not_true, Bool.false_eq_true, if_false] at h
              cases h
              refine ⟨fun y hy => ?_, writePageData_read e2, hall _ _ _ e, hnone e2, rfl⟩
              have ht2 := writePageData_touched (g := g) (id := x.hp.id) (b := x.header) (fl := fails x.hp.id) ht.zeroed
              rw [e2] at ht2
              refine readPageBytes_congr ht2 ?_ (writeData_read hz hd e y hy)
              intro hm
              simp only [List.mem_singleton] at hm
              exact ha (hm ▸ List.mem_map_of_mem hy)

/-- Only the pages of the commit and the header page are written, and the header page not when a data page or the first `fsync` fails. -/
theorem C69_blocking_untouched {fails : Nat → Option Nat} {syncs : Bool × Bool} (hz : f.Zeroed) {p : Nat}
    (hp : p ∉ x.pages.map (·.1)) (hh : p ≠ x.hp.id ∨ (∃ y ∈ x.pages, fails y.1 ≠ none) ∨ syncs.1 = false) {b : Bytes}
    (hb : readPageBytes g p f = .ok b) : readPageBytes g p (blockingCommit g fails syncs x f).2 = .ok b := by
  have ht := writeData_touched (g := g) (fails := fails) (s := x.pages.map (·.1)) (l := x.pages) hz fun y hy => List.mem_map_of_mem hy
  have h1 := readPageBytes_congr ht hp hb
  have hall : ∀ (l : List (Nat × Bytes)) (f f' : File), writeData g fails l f = (.ok (), f') → ∀ y ∈ l, fails y.1 = none := by
    intro l
    induction l with
    | nil => intro _ _ _ y hy; cases hy
    | cons a l ih =>
      obtain ⟨p, b⟩ := a
      intro f f' h y hy
      unfold writeData at h
      cases e : writePageData g p b (fails p) f with
      | mk r f1 =>
        rw [e] at h
        cases r with
        | error e => cases h
        | ok u =>
          rcases List.mem_cons.mp hy with rfl | hy
          · cases e3 : fails p with
            | none => rfl
            | some n =>
              rw [e3] at e
              unfold writePageData at e
              split at e <;> cases e
          · exact ih f1 f' h y hy
  unfold blockingCommit
  cases e : writeData g fails x.pages f with
  | mk r f1 =>
    rw [e] at h1 ht
    cases r with
    | error e => exact h1
    | ok u =>
      simp only
      have hn := hall _ _ _ e
      cases hs1 : syncs.1 with
      | false => exact h1
      | true =>
        have hne : p ≠ x.hp.id := by
          rcases hh with h | ⟨y, hy, h⟩ | h
          · exact h
          · exact absurd (hn y hy) h
          · rw [hs1] at h; cases h
        simp only [Bool.not_true, Bool.false_eq_true, if_false]
        have ht2 := writePageData_touched (g := g) (id := x.hp.id) (b := x.header) (fl := fails x.hp.id) ht.zeroed
        have h2 := readPageBytes_congr ht2 (by simpa using hne) h1
        cases e2 : writePageData g x.hp.id x.header (fails x.hp.id) f1 with
        | mk r f2 =>
          rw [e2] at h2
          cases r with
          | error e => exact h2
          | ok u =>
            simp only
            split <;> exact h2

/-- When nothing fails and the pages have the size of the file's, success is reported. -/
theorem C69_blocking_done {fails : Nat → Option Nat} (F : Fitting g x) (h1 : ∀ y ∈ x.pages, fails y.1 = none) (h2 : fails x.hp.id = none) :
    (blockingCommit g fails (true, true) x f).1 = .ok () := by
  have hw : ∀ {id b f}, b.length = g.pageSize → ∃ f', writePageData g id b none f = (.ok (), f') := by
    intro id b f hl
    unfold writePageData
    rw [if_neg (not_not.mpr hl)]
    exact ⟨_, rfl⟩
  have hall : ∀ (l : List (Nat × Bytes)) (f : File), (∀ y ∈ l, fails y.1 = none ∧ y.2.length = g.pageSize) →
      ∃ f', writeData g fails l f = (.ok (), f') := by
    intro l
    induction l with
    | nil => exact fun f _ => ⟨f, rfl⟩
    | cons a l ih =>
      obtain ⟨p, b⟩ := a
      intro f h
      obtain ⟨f1, e⟩ := hw (id := p) (f := f) (h _ (.head _)).2
      unfold writeData
      rw [show fails p = none from (h _ (.head _)).1, e]
      exact ih f1 fun y hy => h y (.tail _ hy)
  obtain ⟨f1, e1⟩ := hall x.pages f fun y hy => ⟨h1 y hy, F.size y hy⟩
  obtain ⟨f2, e2⟩ := hw (id := x.hp.id) (f := f1) F.header
  unfold blockingCommit
  rw [e1]
  simp only [Bool.not_true, Bool.false_eq_true, if_false]
  rw [h2, e2]

/-- The file grows when the page lies beyond the length known to the pager, then by one mapping's worth of pages, and else not. -/
theorem C69_grows {id : Nat} {b : Bytes} (hl : b.length = g.pageSize) :
    ∃ f', writePageData g id b none f = (.ok (), f') ∧
      ((id + 1) * g.pageSize ≤ f.known → f'.known = f.known) ∧
      (f.known < (id + 1) * g.pageSize → f'.known = f.known + g.perMap * g.pageSize) ∧
      (f.known = f.len → (id + 1) * g.pageSize ≤ f.known + g.perMap * g.pageSize → f'.known = f'.len) := by
  unfold writePageData
  rw [if_neg (not_not.mpr hl)]
  refine ⟨_, rfl, fun h => ?_, fun h => ?_, fun h h' => ?_⟩ <;> rw [Nat.add_mul, Nat.one_mul] at * <;>
    simp only [Nat.mul_add, Nat.mul_one, Nat.mul_comm g.pageSize id]
  · rw [if_neg (by omega)]; rfl
  · rw [if_pos (by omega)]; rfl
  · split <;> simp only [File.writeAt, File.preallocate] <;> omega

example : (blockingCommit exPager (fun _ => none) (true, true) exPrepared exBlank).1 = .ok () ∧
    readPageBytes exPager 3 (blockingCommit exPager (fun _ => none) (true, true) exPrepared exBlank).2 = .ok [5, 6, 7, 8] ∧
    readPageBytes exPager 1 (blockingCommit exPager (fun i => if i = 3 then some 2 else none) (true, true) exPrepared exBlank).2 =
      .ok [0, 0, 0, 0] :=
  ⟨rfl, by decide +kernel, by decide +kernel⟩

end Uma.Props
