import Verif.Page.PipelineProof
import Verif.Page.FailedHeader

/-!
# The I/O thread

`do_uring_commit` and `do_blocking_commit`, umadb-core/src/io_shell.rs 36-70, 93-112, with `Pager::write_page_data`,
umadb-core/src/pager.rs 390-412.  What the kernel makes of each request is given (`Done`, `Kernel`): it performs the writes of the data
pages in any order, writes some number of the bytes and reports success or failure; `write_at(..).submit()` is one request and
reports how many bytes it wrote, which the program does not look at (io_shell.rs 53-55, 64-65).
Simplification: writes do not interleave byte by byte; the pages are distinct, so that does not matter.
-/

namespace Uma.Page
open Uma.Codec Uma.Mvcc Uma.Spec

/-- A write request that has completed: the page, how many bytes were written, and whether success was reported. -/
structure Done where
  page : Nat × Bytes
  n : Nat
  ok : Bool

/-- What is done to the file. -/
inductive Act where
  /-- Bytes arrive in the slot of a page. -/
  | land (id : Nat) (data : Bytes)
  /-- A successful `sync_data` or `sync_all`. -/
  | sync

/-- Nothing is written, and the file does not grow, when the number of bytes is zero. -/
def Act.run (g : Pager) : Act → File → File
  | .land id data, f => if data = [] then f else f.writeAt (id * g.pageSize) data
  | .sync, f => f

def runActs (g : Pager) : List Act → File → File
  | [], f => f
  | a :: as, f => runActs g as (a.run g f)

def Done.act (w : Done) : Act := .land w.page.1 (w.page.2.take w.n)

/-- The part of the kernel: the data pages in the order in which they were written, `sync_data`, the header, `sync_all`. -/
structure Kernel where
  writes : List Done
  syncData : Bool
  header : Nat × Bool
  syncAll : Bool

/-- `do_uring_commit`, io_shell.rs 36-70: the result and what has been done to the file. -/
def uringCommit (x : Prepared) (k : Kernel) : Except Err Unit × List Act :=
  let data := k.writes.map Done.act
  if k.writes.any (fun w => !w.ok) then (.error (.io "data"), data)
  else if !k.syncData then (.error (.io "data"), data)
  else
    let acts := data ++ [.sync, (Done.mk (x.hp.id, x.header) k.header.1 k.header.2).act]
    if !k.header.2 then (.error (.io "header"), acts)
    else if !k.syncAll then (.error (.io "header"), acts)
    else (.ok (), acts ++ [.sync])

/-- `write_page_data`, pager.rs 390-412: `write_all_at` goes on until everything is written or it fails, here after `n` bytes (`some n`). -/
def writePageData (g : Pager) (id : Nat) (data : Bytes) (fails : Option Nat) (f : File) : Except Err Unit × File :=
  if data.length ≠ g.pageSize then (.error (.internal "Page size mismatch"), f)
  else
    let f := if g.pageSize * (id + 1) > f.known then f.preallocate f.known (g.perMap * g.pageSize) else f
    match fails with
    | none => (.ok (), f.writeAt (id * g.pageSize) data)
    | some n => (.error (.io "write"), Act.run g (.land id (data.take n)) f)

/-- The loop of `do_blocking_commit`, io_shell.rs 95-97. -/
def writeData (g : Pager) (fails : Nat → Option Nat) : List (Nat × Bytes) → File → Except Err Unit × File
  | [], f => (.ok (), f)
  | (id, b) :: l, f =>
    match writePageData g id b (fails id) f with
    | (.error e, f) => (.error e, f)
    | (.ok (), f) => writeData g fails l f

/-- `do_blocking_commit`, io_shell.rs 93-112; `syncs` are the results of the two `fsync`s. -/
def blockingCommit (g : Pager) (fails : Nat → Option Nat) (syncs : Bool × Bool) (x : Prepared) (f : File) : Except Err Unit × File :=
  match writeData g fails x.pages f with
  | (.error e, f) => (.error e, f)
  | (.ok (), f) =>
    if !syncs.1 then (.error (.io "fsync"), f)
    else match writePageData g x.hp.id x.header (fails x.hp.id) f with
      | (.error e, f) => (.error e, f)
      | (.ok (), f) => if !syncs.2 then (.error (.io "fsync"), f) else (.ok (), f)

/-! ## Facts -/

theorem file_ext {f f' : File} (h1 : f.len = f'.len) (h2 : f.known = f'.known) (h3 : ∀ i, f.byte i = f'.byte i) : f = f' := by
  cases f; cases f'
  simp only at h1 h2 h3
  rw [h1, h2, funext h3]

theorem writeAt_nil (f : File) {off : Nat} (h : off ≤ f.len) : f.writeAt off [] = f := by
  refine file_ext (by simp only [File.writeAt, List.length_nil]; omega) rfl fun i => ?_
  simp [File.writeAt]

theorem writeAt_comm {ps p q : Nat} (hpq : p ≠ q) {x y : Bytes} (hx : x.length ≤ ps) (hy : y.length ≤ ps) (f : File) :
    (f.writeAt (p * ps) x).writeAt (q * ps) y = (f.writeAt (q * ps) y).writeAt (p * ps) x := by
  refine file_ext (by simp only [File.writeAt]; omega) rfl fun i => ?_
  by_cases hi : p * ps ≤ i ∧ i < p * ps + x.length
  · have hq : i < q * ps ∨ q * ps + y.length ≤ i := by
      by_contra hc
      exact hpq (slot_unique (i := i) (ps := ps) hi.1 (by omega) (by omega) (by omega))
    rw [writeAt_byte_out _ hq]
    obtain ⟨j, rfl⟩ : ∃ j, i = p * ps + j := ⟨i - p * ps, by omega⟩
    rw [writeAt_byte_in f (by omega), writeAt_byte_in _ (by omega)]
  · rw [writeAt_byte_out (f.writeAt (q * ps) y) (off := p * ps) (data := x) (by omega)]
    by_cases hq : q * ps ≤ i ∧ i < q * ps + y.length
    · obtain ⟨j, rfl⟩ : ∃ j, i = q * ps + j := ⟨i - q * ps, by omega⟩
      rw [writeAt_byte_in _ (by omega), writeAt_byte_in _ (by omega)]
    · rw [writeAt_byte_out _ (off := q * ps) (data := y) (by omega), writeAt_byte_out _ (off := p * ps) (data := x) (by omega),
        writeAt_byte_out _ (off := q * ps) (data := y) (by omega)]

theorem writeEach_perm {g : Pager} {l l' : List (Nat × Bytes)} (h : l.Perm l') :
    (l.map (·.1)).Nodup → (∀ x ∈ l, x.2.length ≤ g.pageSize) → ∀ f, writeEach g l f = writeEach g l' f := by
  induction h with
  | nil => exact fun _ _ _ => rfl
  | cons x _ ih =>
    intro hn hl f
    obtain ⟨p, b⟩ := x
    simp only [writeEach]
    exact ih (List.nodup_cons.mp hn).2 (fun y hy => hl y (.tail _ hy)) _
  | swap x y l =>
    intro hn hl f
    obtain ⟨p, b⟩ := x
    obtain ⟨q, b'⟩ := y
    simp only [writeEach]
    congr 1
    refine writeAt_comm ?_ (hl (q, b') (by simp)) (hl (p, b) (by simp)) f
    simp only [List.map_cons, List.nodup_cons, List.mem_cons, not_or] at hn
    exact hn.1.1
  | trans h1 _ ih1 ih2 =>
    intro hn hl f
    rw [ih1 hn hl, ih2 ((h1.map _).nodup_iff.mp hn) (fun x hx => hl x (h1.mem_iff.mpr hx))]

theorem writeAt_touched {ps p : Nat} {b : Bytes} (hl : b.length ≤ ps) {f : File} (hz : f.Zeroed) :
    Touched ps [p] f (f.writeAt (p * ps) b) := by
  refine ⟨zeroed_writeAt hz _ _, by simp only [File.writeAt]; omega, fun i hi => ?_⟩
  have := hi p (by simp)
  exact writeAt_byte_out f (by omega)

theorem land_touched {g : Pager} {p : Nat} {b : Bytes} (hl : b.length ≤ g.pageSize) {f : File} (hz : f.Zeroed) :
    Touched g.pageSize [p] f (Act.run g (.land p b) f) := by
  simp only [Act.run]
  split
  · exact .refl hz
  · exact writeAt_touched hl hz

theorem runActs_append (g : Pager) (a b : List Act) (f : File) : runActs g (a ++ b) f = runActs g b (runActs g a f) := by
  induction a generalizing f with
  | nil => rfl
  | cons x a ih => simp only [List.cons_append, runActs, ih]

/-- Slots outside of those of the pages written stay as they are. -/
theorem runActs_touched {g : Pager} {l : List Nat} : ∀ {ws : List Done} {f : File}, f.Zeroed →
    (∀ w ∈ ws, w.page.1 ∈ l ∧ w.page.2.length ≤ g.pageSize) → Touched g.pageSize l f (runActs g (ws.map Done.act) f)
  | [], _, hz, _ => .refl hz
  | w :: ws, f, hz, h => by
    have h1 : Touched g.pageSize [w.page.1] f (Act.run g w.act f) :=
      land_touched (Nat.le_trans (by rw [List.length_take]; omega) (h w (.head _)).2) hz
    have h1 := h1.mono (l' := l) fun p hp => by
      simp only [List.mem_singleton] at hp
      exact hp ▸ (h w (.head _)).1
    exact h1.trans (runActs_touched h1.zeroed fun y hy => h y (.tail _ hy))

/-- All bytes written: as one write after the other. -/
theorem runActs_whole {g : Pager} : ∀ {ws : List Done}, (∀ w ∈ ws, w.page.2.length ≤ w.n ∧ w.page.2 ≠ []) →
    ∀ f, runActs g (ws.map Done.act) f = writeEach g (ws.map (·.page)) f
  | [], _, _ => rfl
  | w :: ws, h, f => by
    have hw := h w (.head _)
    simp only [List.map_cons, runActs, writeEach]
    rw [runActs_whole (fun y hy => h y (.tail _ hy))]
    congr 1
    unfold Done.act Act.run
    simp only
    rw [List.take_of_length_le hw.1, if_neg hw.2]

theorem writeEach_touched {g : Pager} {l : List Nat} : ∀ {ws : List (Nat × Bytes)} {f : File}, f.Zeroed →
    (∀ w ∈ ws, w.1 ∈ l ∧ w.2.length ≤ g.pageSize) → Touched g.pageSize l f (writeEach g ws f)
  | [], _, hz, _ => .refl hz
  | (p, b) :: ws, f, hz, h => by
    have h1 := (writeAt_touched (p := p) (h _ (.head _)).2 hz).mono (l' := l) fun q hq => by
      simp only [List.mem_singleton] at hq
      exact hq ▸ (h _ (.head _)).1
    exact h1.trans (writeEach_touched h1.zeroed fun y hy => h y (.tail _ hy))

theorem readPageBytes_congr {g : Pager} {l : List Nat} {f f' : File} (h : Touched g.pageSize l f f') {p : Nat} {b : Bytes} (hp : p ∉ l)
    (hr : readPageBytes g p f = .ok b) : readPageBytes g p f' = .ok b := by
  unfold readPageBytes at hr ⊢
  simp only at hr ⊢
  split at hr
  · cases hr
  next hlen =>
  simp only [File.readAt, List.length_map, List.length_range] at hlen
  have hl := h.len
  have e : f'.readAt (p * g.pageSize) g.pageSize = f.readAt (p * g.pageSize) g.pageSize := by
    unfold File.readAt
    rw [Nat.min_eq_left (by omega), Nat.min_eq_left (by omega)]
    refine List.map_congr_left fun j hj => h.other _ fun q hq hc => ?_
    have hj := List.mem_range.mp hj
    have := slot_unique (a := p) (b := q) (i := p * g.pageSize + j) (ps := g.pageSize) (by omega) (by omega) hc.1 hc.2
    exact hp (this ▸ hq)
  rw [e, if_neg (by simp only [File.readAt, List.length_map, List.length_range]; omega)]
  exact hr

theorem readPageBytes_writeAt {g : Pager} {p : Nat} {b : Bytes} (hl : b.length = g.pageSize) (f : File) :
    readPageBytes g p (f.writeAt (p * g.pageSize) b) = .ok b := by
  have e : (f.writeAt (p * g.pageSize) b).readAt (p * g.pageSize) g.pageSize = b := by
    unfold File.readAt
    rw [Nat.min_eq_left (by simp only [File.writeAt]; omega)]
    refine List.ext_getElem (by simp [hl]) fun i h1 h2 => ?_
    simp only [List.getElem_map, List.getElem_range]
    exact writeAt_byte_in f h2
  unfold readPageBytes
  simp only [e]
  rw [if_neg (by omega)]

theorem readPageBytes_writeEach {g : Pager} : ∀ {l : List (Nat × Bytes)}, (l.map (·.1)).Nodup → (∀ x ∈ l, x.2.length = g.pageSize) →
    ∀ {f : File}, f.Zeroed → ∀ x ∈ l, readPageBytes g x.1 (writeEach g l f) = .ok x.2
  | [], _, _, _, _, x, hx => by cases hx
  | (p, b) :: l, hn, hl, f, hz, x, hx => by
    have hn := List.nodup_cons.mp hn
    have hz' := zeroed_writeAt hz (p * g.pageSize) b
    rcases List.mem_cons.mp hx with rfl | hx
    · exact readPageBytes_congr (writeEach_touched hz' fun w hw => ⟨List.mem_map_of_mem hw, Nat.le_of_eq (hl w (.tail _ hw))⟩) hn.1
        (readPageBytes_writeAt (hl _ (.head _)) f)
    · exact readPageBytes_writeEach hn.2 (fun y hy => hl y (.tail _ hy)) hz' x hx

/-! ### The blocking variant -/

theorem preallocate_touched {ps : Nat} (l : List Nat) {f : File} (hz : f.Zeroed) (c e : Nat) : Touched ps l f (f.preallocate c e) :=
  ⟨zeroed_preallocate _ _, by simp only [File.preallocate]; omega, fun i _ => preallocate_byte hz _ _ i⟩

theorem writePageData_touched {g : Pager} {id : Nat} {b : Bytes} {fl : Option Nat} {f : File} (hz : f.Zeroed) :
    Touched g.pageSize [id] f (writePageData g id b fl f).2 := by
  unfold writePageData
  split
  · exact .refl hz
  next hl =>
  have hl : b.length = g.pageSize := by simpa using hl
  have h1 : Touched g.pageSize [id] f
      (if g.pageSize * (id + 1) > f.known then f.preallocate f.known (g.perMap * g.pageSize) else f) := by
    split
    · exact preallocate_touched _ hz _ _
    · exact .refl hz
  simp only
  cases fl with
  | none => exact h1.trans (writeAt_touched (Nat.le_of_eq hl) h1.zeroed)
  | some n => exact h1.trans (land_touched (by rw [List.length_take]; omega) h1.zeroed)

theorem writePageData_read {g : Pager} {id : Nat} {b : Bytes} {fl : Option Nat} {f f' : File}
    (h : writePageData g id b fl f = (.ok (), f')) : readPageBytes g id f' = .ok b := by
  unfold writePageData at h
  split at h
  · cases h
  next hl =>
  have hl : b.length = g.pageSize := by simpa using hl
  simp only at h
  cases fl with
  | none =>
    cases h
    exact readPageBytes_writeAt hl _
  | some n => cases h

theorem writeData_touched {g : Pager} {fails : Nat → Option Nat} {s : List Nat} : ∀ {l : List (Nat × Bytes)} {f : File}, f.Zeroed →
    (∀ x ∈ l, x.1 ∈ s) → Touched g.pageSize s f (writeData g fails l f).2
  | [], _, hz, _ => .refl hz
  | (p, b) :: l, f, hz, h => by
    have h1 := (writePageData_touched (g := g) (id := p) (b := b) (fl := fails p) hz).mono (l' := s) fun q hq => by
      simp only [List.mem_singleton] at hq
      exact hq ▸ h _ (.head _)
    unfold writeData
    cases e : writePageData g p b (fails p) f with
    | mk r f' =>
      rw [e] at h1
      cases r with
      | error e => exact h1
      | ok u => exact h1.trans (writeData_touched h1.zeroed fun y hy => h y (.tail _ hy))

theorem writeData_read {g : Pager} {fails : Nat → Option Nat} : ∀ {l : List (Nat × Bytes)} {f f' : File}, f.Zeroed →
    (l.map (·.1)).Nodup → writeData g fails l f = (.ok (), f') → ∀ x ∈ l, readPageBytes g x.1 f' = .ok x.2
  | [], _, _, _, _, _, x, hx => by cases hx
  | (p, b) :: l, f, f', hz, hn, h, x, hx => by
    have hn := List.nodup_cons.mp hn
    have h1 := writePageData_touched (g := g) (id := p) (b := b) (fl := fails p) hz
    unfold writeData at h
    cases e : writePageData g p b (fails p) f with
    | mk r f1 =>
      rw [e] at h h1
      cases r with
      | error e => cases h
      | ok u =>
        have h : writeData g fails l f1 = (.ok (), f') := h
        rcases List.mem_cons.mp hx with rfl | hx
        · have ht := writeData_touched (g := g) (fails := fails) (s := l.map (·.1)) (l := l) h1.zeroed fun y hy => List.mem_map_of_mem hy
          rw [h] at ht
          exact readPageBytes_congr ht hn.1 (writePageData_read e)
        · exact writeData_read h1.zeroed hn.2 h x hx

end Uma.Page
