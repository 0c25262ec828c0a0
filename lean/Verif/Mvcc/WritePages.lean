import Verif.Codec.NodeProof
import Verif.Mvcc.Sort

/-!
# Writing pages to the file

`Mvcc::write_pages`, umadb-core/src/mvcc.rs 759-808; `Pager::write_contiguous_pages`, `write_page_data`,
`read_page_from_file`, `preallocate`, umadb-core/src/pager.rs 154-165, 387-490.  A file is its length and its bytes.
Errors of the operating system are not considered here (see the crash model in `Verif/Mvcc/Crash.lean`).
-/

namespace Uma.Mvcc
open Uma.Codec

structure File where
  len : Nat
  /-- The pager's `file_len`, updated by `preallocate` only: a write longer than the preallocation leaves it behind. -/
  known : Nat
  byte : Nat → UInt8

/-- `write_all_at`. -/
def File.writeAt (f : File) (off : Nat) (data : Bytes) : File where
  len := max f.len (off + data.length)
  known := f.known
  byte i := if off ≤ i then (data[i - off]?).getD (f.byte i) else f.byte i

/-- `preallocate`, pager.rs 431-490: the file grows, the new bytes are zero. -/
def File.preallocate (f : File) (current extra : Nat) : File where
  len := max f.len (current + extra)
  known := current + extra
  byte i := if i < f.len then f.byte i else 0

/-- `read_at`: what is there, cut at the end of the file. -/
def File.readAt (f : File) (off n : Nat) : Bytes := (List.range (min n (f.len - off))).map fun i => f.byte (off + i)

/-- The part of the pager's state used here. -/
structure Pager where
  pageSize : Nat
  /-- `mmap_pages_per_map`: pages per preallocation. -/
  perMap : Nat

/-- `write_contiguous_pages`, pager.rs 414-430. -/
def writeContiguous (g : Pager) (start : Nat) (data : Bytes) (f : File) : File :=
  let count := data.length / g.pageSize
  let f := if g.pageSize * (start + count) > f.known then f.preallocate f.known (g.perMap * g.pageSize) else f
  f.writeAt (start * g.pageSize) data

/-- `read_page_from_file`, pager.rs 154-165. -/
def readPageBytes (g : Pager) (id : Nat) (f : File) : Except Err Bytes :=
  let b := f.readAt (id * g.pageSize) g.pageSize
  if b.length < g.pageSize then .error (.io "Page not found") else .ok b

/-- `PageRW::read_page` with file I/O, mvcc.rs 188-200. -/
def readPage (g : Pager) (kw : Nat) (id : Nat) (f : File) : Except Err Node :=
  match readPageBytes g id f with
  | .error e => .error e
  | .ok b => deserializePage kw b

abbrev DirtyPage := Nat × Node

/-- Continuation of a run: `a.page_id.0 + 1 == b.page_id.0`, mvcc.rs 777. -/
def adjacent (a b : DirtyPage) : Bool := a.1 + 1 == b.1

/-- `chunk_by` on slices: maximal stretches whose neighbours satisfy the relation. -/
def chunkBy (r : DirtyPage → DirtyPage → Bool) : List DirtyPage → List (List DirtyPage)
  | [] => []
  | a :: l =>
    match chunkBy r l with
    | [] => [[a]]
    | [] :: cs => [a] :: cs
    | (b :: c) :: cs => if r a b then (a :: b :: c) :: cs else [a] :: (b :: c) :: cs

/-- Serialize the pages of a chunk into one buffer, mvcc.rs 790-795; each slot starts out zeroed (787-788). -/
def serializeChunk (kw pageSize : Nat) (zeroFill : Bool) : List DirtyPage → Except Err Bytes
  | [] => .ok []
  | (_, n) :: ps =>
    match serializePage kw (List.replicate pageSize 0) zeroFill n with
    | .error e => .error e
    | .ok b =>
      match serializeChunk kw pageSize zeroFill ps with
      | .error e => .error e
      | .ok bs => .ok (b ++ bs)

/-- The loop over chunks, mvcc.rs 780-805: an error leaves the earlier chunks written. -/
def writeChunks (g : Pager) (kw : Nat) (zeroFill : Bool) : List (List DirtyPage) → Nat → File → Except Err Nat × File
  | [], count, f => (.ok count, f)
  | c :: cs, count, f =>
    match serializeChunk kw g.pageSize zeroFill c with
    | .error e => (.error e, f)
    | .ok buf => writeChunks g kw zeroFill cs (count + c.length) (writeContiguous g ((c.head?.map (·.1)).getD 0) buf f)

/-- `sort_unstable_by_key(|p| p.page_id.0)`, mvcc.rs 769. -/
def byId (a b : DirtyPage) : Bool := decide (a.1 ≤ b.1)

/-- `write_pages`, mvcc.rs 759-808. -/
def writePages (g : Pager) (kw : Nat) (zeroFill : Bool) (pages : List DirtyPage) (f : File) : Except Err Nat × File :=
  writeChunks g kw zeroFill (chunkBy adjacent (sortBy byId pages)) 0 f

/-! ## Facts -/

theorem shapeOk_of_fits {kw : Nat} {n : Node} (hf : NodeFits kw n) : ShapeOk n := by
  cases n <;> first | trivial | exact hf.2.1

theorem keysTooLong_of_fits {kw : Nat} {n : Node} (hf : NodeFits kw n) : keysTooLong n = false := by
  cases n <;> first | rfl | (simp only [keysTooLong, List.any_eq_false, decide_eq_true_eq]; intro k hk'
                             have := hf.2.2.1 k hk'; omega)

theorem serializePage_length {kw : Nat} {buf : Bytes} {zero : Bool} {n : Node} {page : Bytes}
    (h : serializePage kw buf zero n = .ok page) : page.length = buf.length := by
  unfold serializePage at h
  split at h
  · cases h
  rename_i hl
  have hl : 9 ≤ buf.length := by simpa [pageHeaderSize] using hl
  split at h
  · cases h
  rename_i body hbody
  have hb : body.length ≤ buf.length - pageHeaderSize := by
    unfold serializeNode at hbody
    split at hbody
    · cases hbody
    split at hbody
    · cases hbody
    rename_i hcap
    cases hbody
    omega
  simp only [Except.ok.injEq] at h
  subst h
  simp only [pageHeaderSize] at hb
  cases zero <;> simp [pageHeaderSize] <;> omega

theorem writeAt_byte_out (f : File) {off i : Nat} {data : Bytes} (h : i < off ∨ off + data.length ≤ i) :
    (f.writeAt off data).byte i = f.byte i := by
  simp only [File.writeAt]
  split
  · rw [List.getElem?_eq_none (by omega)]; rfl
  · rfl

theorem writeAt_byte_in (f : File) {off i : Nat} {data : Bytes} (h : i < data.length) :
    (f.writeAt off data).byte (off + i) = data[i] := by
  simp only [File.writeAt, Nat.le_add_right, if_true, Nat.add_sub_cancel_left]
  rw [List.getElem?_eq_getElem h]; rfl

/-- Zero bytes past the end. -/
def File.Zeroed (f : File) : Prop := ∀ i, f.len ≤ i → f.byte i = 0

theorem preallocate_byte {f : File} (hz : f.Zeroed) (c e i : Nat) : (f.preallocate c e).byte i = f.byte i := by
  simp only [File.preallocate]
  split
  · rfl
  · exact (hz i (by omega)).symm

theorem zeroed_preallocate {f : File} (c e : Nat) : (f.preallocate c e).Zeroed := by
  intro i hi
  simp only [File.preallocate] at hi ⊢
  rw [if_neg (by omega)]

theorem zeroed_writeAt {f : File} (hz : f.Zeroed) (off : Nat) (data : Bytes) : (f.writeAt off data).Zeroed := by
  intro i hi
  simp only [File.writeAt] at hi
  rw [writeAt_byte_out _ (.inr (by omega))]
  exact hz i (by omega)

theorem zeroed_writeContiguous {g : Pager} {f : File} (hz : f.Zeroed) (start : Nat) (data : Bytes) :
    (writeContiguous g start data f).Zeroed := by
  unfold writeContiguous
  refine zeroed_writeAt ?_ _ _
  split
  · exact zeroed_preallocate _ _
  · exact hz

theorem writeContiguous_len (g : Pager) (start : Nat) (data : Bytes) (f : File) :
    f.len ≤ (writeContiguous g start data f).len ∧ start * g.pageSize + data.length ≤ (writeContiguous g start data f).len := by
  unfold writeContiguous
  simp only [File.writeAt]
  split
  · simp only [File.preallocate]; omega
  · omega

theorem writeContiguous_out {g : Pager} {f : File} (hz : f.Zeroed) {start i : Nat} {data : Bytes}
    (h : i < start * g.pageSize ∨ start * g.pageSize + data.length ≤ i) :
    (writeContiguous g start data f).byte i = f.byte i := by
  unfold writeContiguous
  simp only
  rw [writeAt_byte_out _ h]
  split
  · exact preallocate_byte hz _ _ _
  · rfl

theorem writeContiguous_in {g : Pager} {f : File} {start i : Nat} {data : Bytes} (h : i < data.length) :
    (writeContiguous g start data f).byte (start * g.pageSize + i) = data[i] := by
  unfold writeContiguous
  exact writeAt_byte_in _ h

theorem chunkBy_flatten (r : DirtyPage → DirtyPage → Bool) (l : List DirtyPage) : (chunkBy r l).flatten = l := by
  induction l with
  | nil => rfl
  | cons a l ih =>
    unfold chunkBy
    split
    · rename_i h; rw [h] at ih; simp at ih; simp [ih]
    · rename_i h; rw [h] at ih; simp at ih; simp [ih]
    · rename_i h; rw [h] at ih
      split
      · simp only [List.flatten_cons, List.cons_append] at ih ⊢; rw [← ih]
      · simp only [List.flatten_cons, List.cons_append, List.nil_append] at ih ⊢; rw [← ih]

/-- A chunk: nonempty, consecutive page ids. -/
def Chunk (c : List DirtyPage) : Prop := ∃ s, c ≠ [] ∧ ∀ i (h : i < c.length), (c[i]).1 = s + i

theorem chunkBy_chunk (l : List DirtyPage) : ∀ c ∈ chunkBy adjacent l, Chunk c := by
  induction l with
  | nil => simp [chunkBy]
  | cons a l ih =>
    have hsingle : Chunk [a] := ⟨a.1, by simp, fun i h => by
      have : i = 0 := by simpa using h
      subst this; rfl⟩
    unfold chunkBy
    split
    · rename_i h
      intro c hc; rw [List.mem_singleton.mp hc]; exact hsingle
    · rename_i cs h
      intro c hc
      rcases List.mem_cons.mp hc with rfl | hc
      · exact hsingle
      · exact ih c (h ▸ .tail _ hc)
    · rename_i b d cs h
      have hbd := ih (b :: d) (h ▸ .head _)
      split
      · rename_i hr
        intro c hc
        rcases List.mem_cons.mp hc with rfl | hc
        · obtain ⟨s, -, hs⟩ := hbd
          have hb : b.1 = s := hs 0 (by simp)
          have hab : a.1 + 1 = b.1 := by simpa [adjacent] using hr
          refine ⟨a.1, by simp, fun i hi => ?_⟩
          cases i with
          | zero => rfl
          | succ i =>
            have := hs i (by simpa using hi)
            rw [List.getElem_cons_succ, this]; omega
        · exact ih c (h ▸ .tail _ hc)
      · intro c hc
        rcases List.mem_cons.mp hc with rfl | hc
        · exact hsingle
        · exact ih c (h ▸ hc)

theorem serializeChunk_spec {kw ps : Nat} {zero : Bool} {c : List DirtyPage} {buf : Bytes}
    (h : serializeChunk kw ps zero c = .ok buf) :
    buf.length = c.length * ps ∧ ∀ i (hi : i < c.length), ∃ b,
      serializePage kw (List.replicate ps 0) zero (c[i]).2 = .ok b ∧
      ∀ j, j < ps → buf[i * ps + j]? = b[j]? := by
  induction c generalizing buf with
  | nil => simp only [serializeChunk, Except.ok.injEq] at h; subst h; simp
  | cons p c ih =>
    obtain ⟨id, n⟩ := p
    unfold serializeChunk at h
    split at h
    · cases h
    rename_i b hb
    split at h
    · cases h
    rename_i bs hbs
    cases h
    obtain ⟨h1, h2⟩ := ih hbs
    have hlen : b.length = ps := by rw [serializePage_length hb]; simp
    refine ⟨by simp [h1, hlen, Nat.add_mul]; omega, fun i hi => ?_⟩
    cases i with
    | zero =>
      refine ⟨b, hb, fun j hj => ?_⟩
      rw [Nat.zero_mul, Nat.zero_add, List.getElem?_append_left (by omega)]
    | succ i =>
      obtain ⟨b', hb', hj'⟩ := h2 i (by simpa using hi)
      refine ⟨b', by simpa using hb', fun j hj => ?_⟩
      rw [← hj' j hj, List.getElem?_append_right (by rw [hlen, Nat.succ_mul]; omega), hlen]
      congr 1
      rw [Nat.succ_mul]; omega

theorem serializeChunk_ok {kw ps : Nat} {zero : Bool} {c : List DirtyPage}
    (h : ∀ p ∈ c, ∃ b, serializePage kw (List.replicate ps 0) zero p.2 = .ok b) :
    ∃ buf, serializeChunk kw ps zero c = .ok buf := by
  induction c with
  | nil => exact ⟨[], rfl⟩
  | cons p c ih =>
    obtain ⟨b, hb⟩ := h p (.head _)
    obtain ⟨bs, hbs⟩ := ih fun q hq => h q (.tail _ hq)
    exact ⟨b ++ bs, by rw [serializeChunk.eq_def]; simp only [hb, hbs]⟩

/-- The slot of page `id` in the file holds `b`. -/
def Slot (ps : Nat) (f : File) (id : Nat) (b : Bytes) : Prop :=
  id * ps + ps ≤ f.len ∧ ∀ j, j < ps → b[j]? = some (f.byte (id * ps + j))

/-- Byte `i` lies in the slot of some page of the list. -/
def Covered (ps : Nat) (pages : List DirtyPage) (i : Nat) : Prop := ∃ p ∈ pages, p.1 * ps ≤ i ∧ i < p.1 * ps + ps

theorem slot_unique {ps a b i : Nat} (h1 : a * ps ≤ i) (h2 : i < a * ps + ps) (h3 : b * ps ≤ i) (h4 : i < b * ps + ps) :
    a = b := by
  have ha : a * ps < (b + 1) * ps := by rw [Nat.succ_mul]; omega
  have hb : b * ps < (a + 1) * ps := by rw [Nat.succ_mul]; omega
  have := Nat.lt_of_mul_lt_mul_right ha
  have := Nat.lt_of_mul_lt_mul_right hb
  omega

theorem chunk_covered {ps : Nat} {c : List DirtyPage} (hc : Chunk c) {i : Nat}
    (h1 : ((c.head?.map (·.1)).getD 0) * ps ≤ i) (h2 : i < ((c.head?.map (·.1)).getD 0) * ps + c.length * ps) :
    Covered ps c i := by
  obtain ⟨s, hne, hs⟩ := hc
  have hlen : 0 < c.length := List.length_pos_iff.mpr hne
  have hhead : (c.head?.map (·.1)).getD 0 = s := by
    cases c with
    | nil => exact absurd rfl hne
    | cons a c => exact hs 0 (by simp)
  rw [hhead] at h1 h2
  have hps : 0 < ps := by
    cases ps with
    | zero => simp at h2
    | succ n => omega
  have hk : (i - s * ps) / ps < c.length := (Nat.div_lt_iff_lt_mul hps).mpr (by omega)
  refine ⟨c[(i - s * ps) / ps], List.getElem_mem _, ?_⟩
  rw [hs _ hk, Nat.add_mul]
  have hdm := Nat.div_add_mod (i - s * ps) ps
  have hmod := Nat.mod_lt (i - s * ps) hps
  rw [Nat.mul_comm ps] at hdm
  omega

theorem writeChunks_spec (g : Pager) (kw : Nat) (zero : Bool) (cs : List (List DirtyPage)) (count : Nat) (f : File)
    (hz : f.Zeroed) (hc : ∀ c ∈ cs, Chunk c) (hn : (cs.flatten.map (·.1)).Nodup) :
    (∀ i, ¬ Covered g.pageSize cs.flatten i → (writeChunks g kw zero cs count f).2.byte i = f.byte i) ∧
    (writeChunks g kw zero cs count f).2.Zeroed ∧
    f.len ≤ (writeChunks g kw zero cs count f).2.len ∧
    ((∀ p ∈ cs.flatten, ∃ b, serializePage kw (List.replicate g.pageSize 0) zero p.2 = .ok b) →
      (writeChunks g kw zero cs count f).1 = .ok (count + cs.flatten.length) ∧
      ∀ p ∈ cs.flatten, ∃ b, serializePage kw (List.replicate g.pageSize 0) zero p.2 = .ok b ∧
        Slot g.pageSize (writeChunks g kw zero cs count f).2 p.1 b) := by
  induction cs generalizing count f with
  | nil => simp [writeChunks, hz]
  | cons c cs ih =>
    have hcc := hc c (.head _)
    rw [List.flatten_cons, List.map_append] at hn
    obtain ⟨hnc, hncs, hdisj⟩ := List.nodup_append.mp hn
    unfold writeChunks
    split
    · rename_i e he
      refine ⟨fun _ _ => rfl, hz, Nat.le_refl _, fun hall => ?_⟩
      obtain ⟨buf, hbuf⟩ := serializeChunk_ok (c := c) fun p hp => hall p (by simp [hp])
      rw [hbuf] at he; cases he
    · rename_i buf hbuf
      obtain ⟨hbl, hbs⟩ := serializeChunk_spec hbuf
      generalize hst : (c.head?.map (·.1)).getD 0 = start
      have hz' := zeroed_writeContiguous (g := g) hz start buf
      obtain ⟨hl1, hl2⟩ := writeContiguous_len g start buf f
      obtain ⟨i1, i2, i3, i4⟩ := ih (count + c.length) (writeContiguous g start buf f) hz'
        (fun c' hc' => hc c' (.tail _ hc')) hncs
      refine ⟨fun i hi => ?_, i2, by omega, fun hall => ?_⟩
      · rw [i1 i (fun ⟨p, hp, h⟩ => hi ⟨p, by simp [hp], h⟩)]
        refine writeContiguous_out hz ?_
        apply Classical.byContradiction
        intro hcon
        have : Covered g.pageSize c i := by
          refine chunk_covered hcc ?_ ?_ <;> rw [hst]
          · omega
          · rw [← hbl]; omega
        obtain ⟨p, hp, h⟩ := this
        exact hi ⟨p, by simp [hp], h⟩
      · obtain ⟨j1, j2⟩ := i4 fun p hp => hall p (by simp [hp])
        refine ⟨by rw [j1, List.flatten_cons, List.length_append, Nat.add_assoc], fun p hp => ?_⟩
        rw [List.flatten_cons, List.mem_append] at hp
        rcases hp with hp | hp
        · obtain ⟨k, hk, rfl⟩ := List.mem_iff_getElem.mp hp
          obtain ⟨b, hb, hj⟩ := hbs k hk
          have hblen : b.length = g.pageSize := by rw [serializePage_length hb]; simp
          obtain ⟨s, hne, hs⟩ := hcc
          have hss : start = s := by
            rw [← hst]
            cases c with
            | nil => exact absurd rfl hne
            | cons a c => exact hs 0 (by simp)
          have hend : (c[k]).1 * g.pageSize + g.pageSize ≤ start * g.pageSize + buf.length := by
            rw [hs k hk, hbl, hss]
            have : (k + 1) * g.pageSize ≤ c.length * g.pageSize := Nat.mul_le_mul_right _ hk
            rw [Nat.add_mul]; rw [Nat.succ_mul] at this; omega
          refine ⟨b, hb, ?_, fun j hjp => ?_⟩
          · omega
          · rw [i1]
            · rw [hs k hk, ← hss, Nat.add_mul, Nat.add_assoc]
              have hlt : k * g.pageSize + j < buf.length := by
                rw [hs k hk, hss, Nat.add_mul] at hend
                omega
              rw [writeContiguous_in hlt, ← hj j hjp, List.getElem?_eq_getElem hlt]
            · rintro ⟨q, hq, hq1, hq2⟩
              have := slot_unique (i := (c[k]).1 * g.pageSize + j) (a := q.1) (b := (c[k]).1) hq1 hq2 (by omega) (by omega)
              exact hdisj _ (List.mem_map_of_mem hp) _ (List.mem_map_of_mem hq) this.symm
        · exact j2 p hp

theorem covered_perm {ps : Nat} {a b : List DirtyPage} (h : a.Perm b) (i : Nat) : Covered ps a i ↔ Covered ps b i := by
  constructor
  · rintro ⟨p, hp, h'⟩; exact ⟨p, h.mem_iff.mp hp, h'⟩
  · rintro ⟨p, hp, h'⟩; exact ⟨p, h.mem_iff.mpr hp, h'⟩

theorem readAt_of_slot {ps : Nat} {f : File} {id : Nat} {b : Bytes} (hb : b.length = ps) (h : Slot ps f id b) :
    f.readAt (id * ps) ps = b := by
  obtain ⟨h1, h2⟩ := h
  unfold File.readAt
  rw [Nat.min_eq_left (by omega)]
  apply List.ext_getElem?
  intro j
  by_cases hj : j < ps
  · rw [h2 j hj]; simp [hj]
  · rw [List.getElem?_eq_none (by simp; omega), List.getElem?_eq_none (by omega)]

end Uma.Mvcc
