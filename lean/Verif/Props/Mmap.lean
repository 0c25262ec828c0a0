import Verif.Mvcc.Mmap
import Verif.Page.Db

/-!
# C50: reading pages through memory maps
-/

namespace Uma.Props
open Uma.Codec Uma.Mvcc Uma.Page

/-- C50: the windows start at multiples of the operating system's page size, as mapping requires, hold at least 256 MiB,
and are the smallest such windows. -/
theorem C50_window {os ps : Nat} (hos : 0 < os) (hps : 0 < ps) :
    os ∣ pagesPerMap os ps * ps ∧ 2 ^ 28 ≤ pagesPerMap os ps * ps ∧
      ∀ m, os ∣ m * ps → 2 ^ 28 ≤ m * ps → pagesPerMap os ps ≤ m := by
  have hg : 0 < Nat.gcd os ps := Nat.gcd_pos_of_pos_left _ hos
  have ha : 0 < os / Nat.gcd os ps := Nat.div_pos (Nat.le_of_dvd hos (Nat.gcd_dvd_left _ _)) hg
  have hmin : ¬ divCeil (256 * 1024 * 1024) ps = 0 := by
    intro h0
    have := (divCeil_le (m := 0) hps).mp (Nat.le_of_eq h0)
    omega
  have hk : 0 < divCeil (divCeil (256 * 1024 * 1024) ps) (os / Nat.gcd os ps) := by
    rw [Nat.pos_iff_ne_zero]
    intro h0
    have := (divCeil_le (m := 0) ha).mp (Nat.le_of_eq h0)
    omega
  have e : pagesPerMap os ps =
      os / Nat.gcd os ps * divCeil (divCeil (256 * 1024 * 1024) ps) (os / Nat.gcd os ps) := by
    simp only [pagesPerMap, gcdLoop_eq, if_neg hmin]
    rw [Nat.max_eq_right ha, Nat.max_eq_right hk]
  rw [e]
  refine ⟨?_, ?_, ?_⟩
  · obtain ⟨q, hq⟩ := Nat.gcd_dvd_right os ps
    rw [Nat.mul_assoc, Nat.mul_comm _ ps, ← Nat.mul_assoc]
    refine Nat.dvd_trans ?_ (Nat.dvd_mul_right _ _)
    refine ⟨q, ?_⟩
    calc os / Nat.gcd os ps * ps = os / Nat.gcd os ps * (Nat.gcd os ps * q) := by rw [← hq]
      _ = (os / Nat.gcd os ps * Nat.gcd os ps) * q := (Nat.mul_assoc _ _ _).symm
      _ = os * q := by rw [Nat.div_mul_cancel (Nat.gcd_dvd_left _ _)]
  · have h1 := (divCeil_le ha).mp (Nat.le_refl (divCeil (divCeil (256 * 1024 * 1024) ps) (os / Nat.gcd os ps)))
    have h2 := (divCeil_le (b := ps) (m := _) hps).mp h1
    rw [Nat.mul_comm (os / Nat.gcd os ps)]
    omega
  · intro m hm h256
    have hdiv : os / Nat.gcd os ps ∣ m := by
      have hc := Nat.coprime_div_gcd_div_gcd (m := os) (n := ps) hg
      refine hc.dvd_of_dvd_mul_right ?_
      obtain ⟨q, hq⟩ := hm
      refine ⟨q, ?_⟩
      have h1 : Nat.gcd os ps * (m * (ps / Nat.gcd os ps)) = Nat.gcd os ps * (os / Nat.gcd os ps * q) := by
        rw [← Nat.mul_assoc (Nat.gcd os ps) (os / _), Nat.mul_div_cancel' (Nat.gcd_dvd_left _ _), ← hq, Nat.mul_left_comm,
          Nat.mul_div_cancel' (Nat.gcd_dvd_right _ _)]
      exact Nat.eq_of_mul_eq_mul_left hg h1
    obtain ⟨t, rfl⟩ := hdiv
    refine Nat.mul_le_mul_left _ ((divCeil_le ha).mpr ((divCeil_le hps).mpr ?_))
    rw [Nat.mul_comm t]
    omega

/-- The windows found mapped lie inside the file. -/
def Inside (g : Pager) (seen : Nat → Bool) (f : File) : Prop := ∀ m, seen m = true → (m + 1) * (g.perMap * g.pageSize) ≤ f.len

/-- C50: a page read through a memory map is the page read from the file, byte by byte; if one way finds no such page
neither does the other; and no access falls beyond the end of the file.  Holds whichever windows are mapped already and
whenever other threads map more. -/
theorem C50_same {g : Pager} (hps : 0 < g.pageSize) (hm : 0 < g.perMap) {f : File} (h : Whole g f) {s1 s2 : Nat → Bool}
    (h1 : Inside g s1 f) (h2 : Inside g s2 f) (id : Nat) : readPageMmap g s1 s2 id f = readPageBytes g id f := by
  have hdm := Nat.div_add_mod id g.perMap
  have hlt := Nat.mod_lt id hm
  generalize hM : id / g.perMap = m at hdm
  generalize hR : id % g.perMap = r at hdm hlt
  have hoff : id * g.pageSize = g.mapOffset m + r * g.pageSize := by
    rw [← hdm, Nat.add_mul, Pager.mapOffset, Nat.mul_comm g.perMap m]
  have hfit : r * g.pageSize + g.pageSize ≤ g.window := by
    have : (r + 1) * g.pageSize ≤ g.perMap * g.pageSize := Nat.mul_le_mul_right _ hlt
    rw [Nat.add_mul] at this
    simpa [Pager.window] using this
  have hwin : (m + 1) * (g.perMap * g.pageSize) = g.mapOffset m + g.window := by
    rw [Nat.add_mul, Pager.mapOffset, Pager.window, Nat.mul_assoc]; simp
  have hin : (m + 1) * (g.perMap * g.pageSize) ≤ f.len → pageInMap g m (r * g.pageSize) f = readPageBytes g id f := by
    intro hl
    rw [hwin] at hl
    unfold pageInMap readPageBytes
    rw [if_neg (by omega), ← hoff]
    have hlen : ¬ (f.readAt (id * g.pageSize) g.pageSize).length < g.pageSize := by
      simp only [File.readAt, List.length_map, List.length_range]
      omega
    simp only [if_neg hlen]
  unfold readPageMmap
  simp only [hM]
  have hw : id * g.pageSize - g.mapOffset m = r * g.pageSize := by omega
  rw [hw]
  split
  · exact hin (h1 m ‹_›)
  split
  · exact hin (h2 m ‹_›)
  split
  · rename_i hend
    have hlen : (f.readAt (id * g.pageSize) g.pageSize).length < g.pageSize := by
      simp only [File.readAt, List.length_map, List.length_range]
      omega
    unfold readPageBytes
    simp only [if_pos hlen]
  · rename_i hend
    have hfull : g.mapOffset m + g.window ≤ f.len := by
      obtain ⟨k, hk⟩ := h.windows
      have hwpos : 0 < g.window := Nat.mul_pos hm hps
      have hmk : m < k := by
        by_contra hc
        have h3 : g.window * k ≤ g.window * m := Nat.mul_le_mul_left _ (by omega)
        have h4 : g.mapOffset m = g.window * m := by rw [Pager.mapOffset, Pager.window, Nat.mul_assoc, Nat.mul_comm]
        omega
      have h3 : g.window * (m + 1) ≤ g.window * k := Nat.mul_le_mul_left _ hmk
      have h4 : g.mapOffset m = g.window * m := by rw [Pager.mapOffset, Pager.window, Nat.mul_assoc, Nat.mul_comm]
      rw [Nat.mul_add] at h3
      omega
    rw [if_neg (by omega)]
    exact hin (by rw [hwin]; exact hfull)

/-- C50: so the storage engine reads the same pages either way. -/
theorem C50_method {g : Pager} (hps : 0 < g.pageSize) (hm : 0 < g.perMap) {f : File} (h : Whole g f) {s1 s2 : Nat → Bool}
    (h1 : Inside g s1 f) (h2 : Inside g s2 f) (kw id : Nat) :
    readPageVia (.mmap s1 s2) g kw id f = readPage g kw id f ∧ readPageVia .fileIo g kw id f = readPage g kw id f := by
  simp only [readPageVia, readPage, C50_same hps hm h h1 h2 id]
  constructor <;> cases readPageBytes g id f <;> rfl

/-- C50: a file made by this code is a whole number of windows. -/
theorem C50_create {g : Pager} (hps : 0 < g.pageSize) (hm : 5 ≤ g.perMap) (zero : Bool) {m : Opened} {f : File}
    (h : create g zero emptyFile = (.ok m, f)) : Whole g f := by
  have hw0 : Whole g emptyFile := ⟨rfl, by simp [emptyFile]⟩
  have h5 : g.pageSize * 5 ≤ g.window := by
    rw [Pager.window, Nat.mul_comm]; exact Nat.mul_le_mul_right _ hm
  have small : ∀ {i k : Nat}, i < 5 → g.pageSize * (i + 1) ≤ k + g.window := by
    intro i k hi
    have : g.pageSize * (i + 1) ≤ g.pageSize * 5 := Nat.mul_le_mul_left _ (by omega)
    omega
  unfold create at h
  split at h
  · cases h
  rename_i n f1 h1
  have w1 : Whole g f1 := by
    have := (hw0.writePages (kw := tagHashLen) (zero := zero) hps (pages := initialPages) (by
      intro p hp
      simp only [initialPages, List.mem_cons, List.not_mem_nil, or_false] at hp
      rcases hp with rfl | rfl | rfl <;> exact small (by decide))).1
    unfold createPages at h1
    rw [h1] at this
    exact this
  split at h
  · cases h
  rename_i f2 h2
  cases h
  unfold createHeaders at h2
  split at h2
  · cases h2
  rename_i f3 h3
  have w3 : Whole g f3 := by
    have := (w1.writeOnePage (kw := tagHashLen) (zero := zero) (buf := List.replicate g.pageSize 0) (id := 1)
      (n := .header initialHeader) hps (small (by decide))).1
    rw [h3] at this
    exact this
  split at h2
  · cases h2
  · rename_i buf hbuf
    have := (w3.writeOnePage (kw := tagHashLen) (zero := zero) (buf := buf) (id := 0) (n := .header initialHeader) hps
      (small (by decide))).1
    rw [h2] at this
    exact this

/-- C50: a commit keeps it so, provided that it does not add more than a window of new pages; and no mapped window is ever
cut off, because the file does not shrink. -/
theorem C50_commit {c : Conf} (hps : 0 < c.g.pageSize) (hm : 2 ≤ c.g.perMap) (io : IO) (hf : io.fault = none) (w : PW)
    (h : Whole c.g w.db.file)
    (hnew : ∀ wr, processFreed io.ord w.wr = (.ok (), wr) →
      ∀ p ∈ wr.dirty, c.g.pageSize * (p.1 + 1) ≤ w.db.file.len + c.g.perMap * c.g.pageSize) :
    Whole c.g (PW.commit c io w).2.file ∧ w.db.file.len ≤ (PW.commit c io w).2.file.len := by
  unfold PW.commit
  split
  · exact ⟨h, Nat.le_refl _⟩
  rename_i wr hwr
  have hnew := hnew wr hwr
  unfold commitPages
  split
  · exact ⟨h, Nat.le_refl _⟩
  rw [hf]
  simp only
  have hw := h.writePages (kw := wr.kw) (zero := c.zeroFill) hps (pages := wr.dirty) (by
    intro p hp; rw [h.known]; exact hnew p hp)
  split
  · rename_i e f he
    rw [he] at hw
    exact ⟨hw.1, hw.2.2⟩
  rename_i n f hok
  rw [hok] at hw
  obtain ⟨w1, w2, w3⟩ := hw
  simp only at w1 w2 w3
  unfold commitHead
  split
  · exact ⟨w1, w3⟩
  rename_i p hp
  split
  · exact ⟨w1, w3⟩
  rw [hf]
  simp only
  have hpid : p.id ≤ 1 := by
    unfold cowHeader at hp
    cases hh : asHeader w.hp.node with
    | error e => rw [hh] at hp; cases hp
    | ok hd =>
      rw [hh] at hp
      simp only [bind, Except.bind, Except.ok.injEq] at hp
      subst hp
      simp only
      split <;> omega
  have hsmall : c.g.pageSize * (p.id + 1) ≤ f.known + c.g.window := by
    have h1 : c.g.pageSize * (p.id + 1) ≤ c.g.pageSize * 2 := Nat.mul_le_mul_left _ (by omega)
    have h2 : c.g.pageSize * 2 ≤ c.g.window := by rw [Pager.window, Nat.mul_comm]; exact Nat.mul_le_mul_right _ hm
    omega
  have hw := w1.writeOnePage (kw := wr.kw) (zero := c.zeroFill) (buf := (List.range c.g.pageSize).map io.buf)
    (n := p.node) hps hsmall
  generalize hgen : writeOnePage c.g wr.kw ((List.range c.g.pageSize).map io.buf) c.zeroFill p.id p.node f = x at hw
  simp only [PDb.fsync]
  rw [hgen]
  obtain ⟨r, f'⟩ := x
  obtain ⟨v1, v2, v3⟩ := hw
  cases r with
  | error e => exact ⟨v1, Nat.le_trans w3 v3⟩
  | ok u => exact ⟨v1, Nat.le_trans w3 v3⟩

/-- C50 needs its proviso: after one contiguous write of more than a window the last page is in the file, and file I/O reads
it, but the memory map refuses it (finding 12). -/
theorem C50_large_write_false {g : Pager} (hps : 0 < g.pageSize) (hm : 2 ≤ g.perMap) {data : Bytes}
    (hl : data.length = (g.perMap + 1) * g.pageSize) :
    Whole g emptyFile ∧
    (∃ b, readPageBytes g g.perMap (writeContiguous g 0 data emptyFile) = .ok b) ∧
    readPageMmap g (fun _ => false) (fun _ => false) g.perMap (writeContiguous g 0 data emptyFile) =
      .error (.io "File too small for memory map") := by
  have hlen : (writeContiguous g 0 data emptyFile).len = g.perMap * g.pageSize + g.pageSize := by
    unfold writeContiguous
    have hd : data.length / g.pageSize = g.perMap + 1 := by rw [hl]; exact Nat.mul_div_cancel _ hps
    simp only [hd, emptyFile, Nat.zero_add]
    rw [if_pos (Nat.mul_pos hps (by omega))]
    simp only [File.writeAt, File.preallocate, hl, Nat.add_mul]
    omega
  refine ⟨⟨rfl, by simp [emptyFile]⟩, ?_, ?_⟩
  · unfold readPageBytes
    have : ¬ ((writeContiguous g 0 data emptyFile).readAt (g.perMap * g.pageSize) g.pageSize).length < g.pageSize := by
      simp only [File.readAt, List.length_map, List.length_range, hlen]
      omega
    simp only [if_neg this]
    exact ⟨_, rfl⟩
  · unfold readPageMmap
    have h1 : g.perMap / g.perMap = 1 := Nat.div_self (by omega)
    have h2 : 2 * g.pageSize ≤ g.perMap * g.pageSize := Nat.mul_le_mul_right _ hm
    simp only [h1, hlen, Pager.mapOffset, Pager.window, Nat.one_mul, Bool.false_eq_true, if_false]
    rw [if_neg (by omega), if_pos (by omega)]

/-- With the defaults a window has 65536 pages; on a system with pages of 16 KiB, database pages of 1024 bytes
give 262144; page sizes that do not divide each other are rounded up. -/
example : pagesPerMap 4096 4096 = 65536 ∧ pagesPerMap 16384 1024 = 262144 ∧ pagesPerMap 4096 5000 = 53760 := by decide +kernel

/-- Pages of 16 bytes in windows of 2: page 3 of a file of two windows, mapped and not mapped. -/
example : (readPageMmap ⟨16, 2⟩ (fun _ => false) (fun m => m == 1) 3 ⟨64, 64, fun i => UInt8.ofNat i⟩).toOption =
    some ((List.range 16).map fun i => UInt8.ofNat (48 + i)) ∧
    Whole ⟨16, 2⟩ ⟨64, 64, fun i => UInt8.ofNat i⟩ := by
  refine ⟨by decide +kernel, rfl, ⟨2, rfl⟩⟩

end Uma.Props
