import Verif.Mvcc.Open
import Mathlib.Data.Nat.GCD.Basic

/-!
# Reading pages through memory maps

`Pager::new` (size of the windows), `gcd`, `read_page_mmap_slice`, umadb-core/src/pager.rs 103-119, 131-138, 256-357, and the
choice between the two ways of reading in `PageRW::read_page`, mvcc.rs 184-197.

A shared mapping shows the bytes of the file as they are at the time of the access; touching a mapped page past the end of
the file kills the process (SIGBUS), which is modelled as a panic.  Other threads may map windows at any time: `seen1` and
`seen2` say which windows are found mapped at the first and at the second look.  All mappings have the length of a window.
-/

namespace Uma.Mvcc
open Uma.Codec

/-- `gcd`, pager.rs 131-138. -/
def gcdLoop (a b : Nat) : Nat := if _h : b = 0 then a else gcdLoop b (a % b)
termination_by b
decreasing_by exact Nat.mod_lt _ (by omega)

/-- `usize::div_ceil`. -/
def divCeil (a b : Nat) : Nat := a / b + if a % b > 0 then 1 else 0

/-- Pages per window, pager.rs 103-119; `os`: page size of the operating system. -/
def pagesPerMap (os ps : Nat) : Nat :=
  let alignPages := max 1 (os / gcdLoop os ps)
  let minPages := divCeil (256 * 1024 * 1024) ps
  let k := if minPages = 0 then 1 else divCeil minPages alignPages
  alignPages * max 1 k

/-- Bytes per window, pager.rs 302. -/
def Pager.window (g : Pager) : Nat := g.perMap * g.pageSize

/-- Where a window starts in the file, pager.rs 262. -/
def Pager.mapOffset (g : Pager) (m : Nat) : Nat := m * g.perMap * g.pageSize

/-- The view of one page in the mapping of window `m`, pager.rs 270-284 and 582-586. -/
def pageInMap (g : Pager) (m within : Nat) (f : File) : Except Err Bytes :=
  if within + g.pageSize > g.window then .error (.io "Page not found")
  else
    let b := f.readAt (g.mapOffset m + within) g.pageSize
    if b.length < g.pageSize then .error (.panic "SIGBUS") else .ok b

/-- `read_page_mmap_slice` and `as_slice`, pager.rs 256-357. -/
def readPageMmap (g : Pager) (seen1 seen2 : Nat → Bool) (id : Nat) (f : File) : Except Err Bytes :=
  let offset := id * g.pageSize
  let m := id / g.perMap
  let within := offset - g.mapOffset m
  if seen1 m then pageInMap g m within f
  else if seen2 m then pageInMap g m within f
  else if offset + g.pageSize > f.len then .error (.io "Page not found")
  else if f.len < g.mapOffset m + g.window then .error (.io "File too small for memory map")
  else pageInMap g m within f

/-- `ReadMethod`, pager.rs 18-23. -/
inductive ReadMethod where
  | fileIo
  | mmap (seen1 seen2 : Nat → Bool)

/-- `PageRW::read_page`, mvcc.rs 184-197. -/
def readPageVia (r : ReadMethod) (g : Pager) (kw id : Nat) (f : File) : Except Err Node :=
  match (match r with
    | .fileIo => readPageBytes g id f
    | .mmap s1 s2 => readPageMmap g s1 s2 id f) with
  | .error e => .error e
  | .ok b => deserializePage kw b

/-! ## Facts -/

theorem gcdLoop_eq (a b : Nat) : gcdLoop a b = Nat.gcd a b := by
  induction b using Nat.strongRecOn generalizing a with
  | ind b ih =>
    unfold gcdLoop
    split
    · rename_i h; subst h; simp
    · rename_i h
      rw [ih _ (Nat.mod_lt _ (by omega)), Nat.gcd_comm a b, Nat.gcd_rec b a, Nat.gcd_comm]

theorem divCeil_le {a b m : Nat} (hb : 0 < b) : divCeil a b ≤ m ↔ a ≤ m * b := by
  unfold divCeil
  have h := Nat.div_add_mod a b
  have hl := Nat.mod_lt a hb
  rw [Nat.mul_comm] at h
  constructor
  · intro hm
    split at hm
    · have : (a / b + 1) * b ≤ m * b := Nat.mul_le_mul_right _ hm
      rw [Nat.add_mul] at this; omega
    · have : (a / b) * b ≤ m * b := Nat.mul_le_mul_right _ (by omega)
      omega
  · intro ha
    split
    · have : a / b < m := by
        by_contra hc
        have : m * b ≤ a / b * b := Nat.mul_le_mul_right _ (by omega)
        omega
      omega
    · have : a / b ≤ m := by
        by_contra hc
        have : (m + 1) * b ≤ a / b * b := Nat.mul_le_mul_right _ (by omega)
        rw [Nat.add_mul] at this; omega
      omega

/-- The file is a whole number of windows and the pager knows its length; every mapped window lies inside. -/
structure Whole (g : Pager) (f : File) : Prop where
  known : f.known = f.len
  windows : g.window ∣ f.len

theorem Whole.writeContiguous {g : Pager} {f : File} (h : Whole g f) {start : Nat} {data : Bytes} {n : Nat}
    (hps : 0 < g.pageSize) (hl : data.length = n * g.pageSize) (hfit : g.pageSize * (start + n) ≤ f.known + g.window) :
    Whole g (writeContiguous g start data f) ∧ f.known ≤ (writeContiguous g start data f).known ∧
      f.len ≤ (writeContiguous g start data f).len := by
  have hn : data.length / g.pageSize = n := by rw [hl]; exact Nat.mul_div_cancel _ hps
  have hend : start * g.pageSize + data.length = g.pageSize * (start + n) := by
    rw [hl, Nat.mul_add, Nat.mul_comm start, Nat.mul_comm n]
  have hk := h.known
  unfold Mvcc.writeContiguous
  simp only [hn]
  split
  · rename_i hgt
    have hlen : ((f.preallocate f.known (g.perMap * g.pageSize)).writeAt (start * g.pageSize) data).len =
        f.len + g.window := by
      simp only [File.writeAt, File.preallocate, hend]
      unfold Pager.window at *
      omega
    have hkn : ((f.preallocate f.known (g.perMap * g.pageSize)).writeAt (start * g.pageSize) data).known =
        f.known + g.window := rfl
    refine ⟨⟨by rw [hlen, hkn, hk], ?_⟩, by rw [hkn]; omega, by rw [hlen]; omega⟩
    rw [hlen]
    exact Nat.dvd_add h.windows (Nat.dvd_refl _)
  · rename_i hle
    have hlen : (f.writeAt (start * g.pageSize) data).len = f.len := by
      simp only [File.writeAt, hend]; omega
    exact ⟨⟨by rw [hlen]; exact hk, by rw [hlen]; exact h.windows⟩, by simp [File.writeAt], by rw [hlen]⟩

theorem Whole.writeChunks {g : Pager} {kw : Nat} {zero : Bool} (hps : 0 < g.pageSize) :
    ∀ {cs : List (List DirtyPage)} {count : Nat} {f : File}, Whole g f → (∀ c ∈ cs, Chunk c) →
      (∀ p ∈ cs.flatten, g.pageSize * (p.1 + 1) ≤ f.known + g.window) →
      Whole g (writeChunks g kw zero cs count f).2 ∧ f.known ≤ (writeChunks g kw zero cs count f).2.known ∧
        f.len ≤ (writeChunks g kw zero cs count f).2.len := by
  intro cs
  induction cs with
  | nil => intro count f h _ _; exact ⟨h, Nat.le_refl _, Nat.le_refl _⟩
  | cons c cs ih =>
    intro count f h hc hp
    unfold Mvcc.writeChunks
    split
    · exact ⟨h, Nat.le_refl _, Nat.le_refl _⟩
    · rename_i buf hbuf
      have hl := (serializeChunk_spec hbuf).1
      obtain ⟨s, hne, hs⟩ := hc c (by simp)
      have hpos : 0 < c.length := List.length_pos_iff.mpr hne
      have hhead : (c.head?.map (·.1)).getD 0 = s := by
        cases c with
        | nil => exact absurd rfl hne
        | cons a c => exact hs 0 (by simp)
      have hlast := hp c[c.length - 1] (by
        rw [List.flatten_cons]; exact List.mem_append_left _ (List.getElem_mem _))
      rw [hs _ (by omega)] at hlast
      obtain ⟨w1, w2, w3⟩ := h.writeContiguous hps (start := (c.head?.map (·.1)).getD 0) hl (by
        rw [hhead]
        have : s + (c.length - 1) + 1 = s + c.length := by omega
        rwa [this] at hlast)
      obtain ⟨i1, i2, i3⟩ := ih (count := count + c.length) w1 (fun c' hc' => hc c' (by simp [hc']))
        (fun p hp' => Nat.le_trans (hp p (by rw [List.flatten_cons]; exact List.mem_append_right _ hp')) (by omega))
      exact ⟨i1, Nat.le_trans w2 i2, Nat.le_trans w3 i3⟩

theorem Whole.writePages {g : Pager} {kw : Nat} {zero : Bool} (hps : 0 < g.pageSize) {pages : List DirtyPage} {f : File}
    (h : Whole g f) (hp : ∀ p ∈ pages, g.pageSize * (p.1 + 1) ≤ f.known + g.window) :
    Whole g (writePages g kw zero pages f).2 ∧ f.known ≤ (writePages g kw zero pages f).2.known ∧
      f.len ≤ (writePages g kw zero pages f).2.len := by
  unfold Mvcc.writePages
  refine h.writeChunks hps (chunkBy_chunk _) ?_
  rw [chunkBy_flatten]
  intro p hp'
  exact hp p ((sortBy_perm _ _).mem_iff.mp hp')

theorem Whole.writeOnePage {g : Pager} {kw : Nat} {zero : Bool} {buf : Bytes} {id : Nat} {n : Node} (hps : 0 < g.pageSize)
    {f : File} (h : Whole g f) (hp : g.pageSize * (id + 1) ≤ f.known + g.window) :
    Whole g (writeOnePage g kw buf zero id n f).2 ∧ f.known ≤ (writeOnePage g kw buf zero id n f).2.known ∧
      f.len ≤ (writeOnePage g kw buf zero id n f).2.len := by
  unfold Mvcc.writeOnePage
  split
  · exact ⟨h, Nat.le_refl _, Nat.le_refl _⟩
  · split
    · exact ⟨h, Nat.le_refl _, Nat.le_refl _⟩
    · rename_i b _ hb
      exact h.writeContiguous (n := 1) hps (by simpa using hb) hp

end Uma.Mvcc
