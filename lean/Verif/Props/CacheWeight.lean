import Verif.Mvcc.CacheWeight
import Verif.Codec.Validate

/-!
# The page cache keeps to its limit: C87
-/

namespace Uma.Props
open Uma.Codec Uma.Mvcc

/-- The blocks of memory an event in a leaf holds: its vectors and strings. -/
def valueBlocks : EventValue → List Nat
  | .inline r =>
    r.event.eventType.utf8ByteSize :: r.event.data.length :: (24 * r.event.tags.length) :: r.event.tags.map String.utf8ByteSize ++
      ((48 * r.event.metadata.length) :: r.event.metadata.flatMap fun e => [e.1.utf8ByteSize, e.2.utf8ByteSize]) ++
      (r.tracking.toList.map fun t => t.source.utf8ByteSize)
  | .overflow et _ tags _ _ _ tracking =>
    et.utf8ByteSize :: (24 * tags.length) :: tags.map String.utf8ByteSize ++ (tracking.toList.map fun t => t.source.utf8ByteSize)

/-- The blocks of memory a page holds. -/
def blocks (z : Sizes) : Node → List Nat
  | .header _ => []
  | .freeLeaf keys values => [8 * keys.length, 32 * values.length] ++ values.map fun v => 8 * v.pageIds.length
  | .freeInternal keys kids => [8 * keys.length, 8 * kids.length]
  | .eventLeaf keys values => [8 * keys.length, z.eventValue * values.length] ++ values.flatMap valueBlocks
  | .eventInternal keys kids => [8 * keys.length, 8 * kids.length]
  | .eventOverflow _ data => [data.length]
  | .tagsLeaf keys values => [16 * keys.length, 32 * values.length] ++ values.map fun v => 8 * v.positions.length
  | .tagsInternal keys kids => [16 * keys.length, 8 * kids.length]
  | .tagLeaf positions => [8 * positions.length]
  | .tagInternal keys kids => [8 * keys.length, 8 * kids.length]
  | .tsnLeaf ids => [8 * ids.length]
  | .tsnInternal keys kids => [8 * keys.length, 8 * kids.length]
  | .trackLeaf keys values => [24 * keys.length, 8 * values.length] ++ keys.map String.utf8ByteSize
  | .trackInternal keys kids => [24 * keys.length, 8 * kids.length] ++ keys.map String.utf8ByteSize

/-- The memory of a cached page: the page itself and its blocks. -/
def memory (z : Sizes) (n : Node) : Nat := z.page + (blocks z n).sum

/-- Bytes of metadata and tracked sources in a leaf of events. -/
def extraOf : EventValue → Nat
  | .inline r => 48 * r.event.metadata.length + (r.event.metadata.map fun e => e.1.utf8ByteSize + e.2.utf8ByteSize).sum +
      (r.tracking.toList.map fun t => t.source.utf8ByteSize).sum
  | .overflow _ _ _ _ _ _ tracking => (tracking.toList.map fun t => t.source.utf8ByteSize).sum

def extra : Node → Nat
  | .eventLeaf _ values => (values.map extraOf).sum
  | _ => 0

theorem sum_pairs (m : List (String × String)) : (m.flatMap fun e => [e.1.utf8ByteSize, e.2.utf8ByteSize]).sum =
    (m.map fun e => e.1.utf8ByteSize + e.2.utf8ByteSize).sum := by
  induction m with
  | nil => rfl
  | cons e m ih => simp only [List.flatMap_cons, List.sum_append, List.sum_cons, List.sum_nil, List.map_cons, ih]; omega

theorem value_blocks (v : EventValue) : (valueBlocks v).sum = valueHeap v + extraOf v := by
  cases v with
  | inline r =>
    simp only [valueBlocks, valueHeap, extraOf, stringsHeap, List.sum_append, List.sum_cons, List.cons_append, sum_pairs]
    have : (r.event.tags.map String.utf8ByteSize).sum = (r.event.tags.map fun s => s.utf8ByteSize).sum := rfl
    omega
  | overflow et dl tags root uuid ml tr =>
    simp only [valueBlocks, valueHeap, extraOf, stringsHeap, List.sum_append, List.sum_cons, List.cons_append]
    have : (tags.map String.utf8ByteSize).sum = (tags.map fun s => s.utf8ByteSize).sum := rfl
    omega

theorem values_blocks (vs : List EventValue) : (vs.flatMap valueBlocks).sum = (vs.map valueHeap).sum + (vs.map extraOf).sum := by
  induction vs with
  | nil => rfl
  | cons v vs ih => simp only [List.flatMap_cons, List.sum_append, List.map_cons, List.sum_cons, value_blocks, ih]; omega

theorem sum_mul8 {α : Type} (f : α → Nat) (l : List α) : (l.map fun v => 8 * f v).sum = (l.map fun v => f v * 8).sum := by
  simp only [Nat.mul_comm]

/-- The blocks of a page are what the weigher counts and the metadata and tracked sources. -/
theorem blocks_sum (z : Sizes) (n : Node) : (blocks z n).sum = nodeHeap z n + extra n := by
  cases n <;> simp only [blocks, nodeHeap, extra, stringsHeap, List.sum_cons, List.sum_nil, List.cons_append, List.nil_append,
    values_blocks, sum_mul8]
  all_goals first
    | omega
    | (rw [Nat.mul_comm z.eventValue]; omega)
    | (rename_i a b; have : (a.map String.utf8ByteSize).sum = (a.map fun s => s.utf8ByteSize).sum := rfl; omega)

/-- C87: the weight of a page is at least the memory it takes, but for the metadata and the tracked sources of its events. -/
theorem C87_weight {z : Sizes} {n : Node} (h : approxBytes z n < 2 ^ 32) : memory z n + 24 ≤ pageWeight z n + extra n := by
  have hw : pageWeight z n = approxBytes z n := by unfold pageWeight; omega
  have hf : 115 ≤ weightFactor n := by cases n <;> simp [weightFactor]
  rw [hw, memory, blocks_sum]
  unfold approxBytes
  have h1 := Nat.mul_le_mul_left (z.page + nodeHeap z n + 8 + 2 * 8) hf
  omega

/-- C87 (partial): a cache limited to megabytes takes no more, if the events on its pages have no metadata and were not
appended with a tracked source. -/
theorem C87_megabytes_partial {z : Sizes} {mb maxPages : Nat} {cached : List (Nat × Node)} (hmb : 0 < mb) (h64 : 1000000 * mb < 2 ^ 64)
    (hc : (cacheLimit mb maxPages).admits z cached) (hs : ∀ p ∈ cached, approxBytes z p.2 < 2 ^ 32) (hx : ∀ p ∈ cached, extra p.2 = 0) :
    (cached.map fun p => memory z p.2).sum ≤ 1000000 * mb := by
  rw [cacheLimit, if_pos hmb, Nat.mod_eq_of_lt h64] at hc
  refine Nat.le_trans ?_ hc.2
  clear hc
  induction cached with
  | nil => exact Nat.le_refl _
  | cons p l ih =>
    have h1 := C87_weight (hs p (List.mem_cons_self ..))
    rw [hx p (List.mem_cons_self ..)] at h1
    have h2 := ih (fun q hq => hs q (List.mem_cons_of_mem _ hq)) (fun q hq => hx q (List.mem_cons_of_mem _ hq))
    simp only [List.map_cons, List.sum_cons]
    omega

theorem strings_le (l : List String) (k : Nat) : stringsHeap l ≤ (l.map fun s => k + s.utf8ByteSize).sum ∧
    k * l.length ≤ (l.map fun s => k + s.utf8ByteSize).sum := by
  induction l with
  | nil => exact ⟨Nat.le_refl _, Nat.le_refl _⟩
  | cons s l ih =>
    simp only [stringsHeap, List.map_cons, List.sum_cons, List.length_cons, Nat.mul_add] at ih ⊢
    omega

theorem meta_le (m : List (String × String)) :
    48 * m.length + (m.map fun e => e.1.utf8ByteSize + e.2.utf8ByteSize).sum ≤ 12 * metadataSize m := by
  unfold metadataSize
  induction m with
  | nil => simp
  | cons e m ih => simp only [List.length_cons, List.map_cons, List.sum_cons] at ih ⊢; omega

theorem tracking_le (t : Option Tracking) : (t.toList.map fun t => t.source.utf8ByteSize).sum ≤ trackingSize t := by
  cases t with
  | none => simp
  | some t => simp [trackingSize]; omega

/-- An event takes at most 13 times the bytes it has in the file, apart from its `EventValue`. -/
theorem value_le (v : EventValue) : valueHeap v + extraOf v ≤ 13 * valueSize v ∧ 7 ≤ valueSize v := by
  cases v with
  | inline r =>
    have h1 := strings_le r.event.tags 2
    have h2 := tracking_le r.tracking
    have h3 : 48 * r.event.metadata.length + (r.event.metadata.map fun e => e.1.utf8ByteSize + e.2.utf8ByteSize).sum ≤
        12 * (if r.event.metadata.isEmpty then 0 else metadataSize r.event.metadata) := by
      split
      · rename_i h; rw [List.isEmpty_iff] at h; simp [h]
      · exact meta_le _
    simp only [valueHeap, extraOf, valueSize, tagsSize]
    omega
  | overflow et dl tags root uuid ml tr =>
    have h1 := strings_le tags 2
    have h2 := tracking_le tr
    simp only [valueHeap, extraOf, valueSize, tagsSize]
    omega

/-- C87: a page takes at most 50 times the bytes it has in the file, when an `EventValue` has at most 256 bytes. -/
theorem C87_page {z : Sizes} {kw : Nat} (hz : z.eventValue ≤ 256) (hk : 8 ≤ kw) {n : Node}
    (hn : ∀ keys kids, n = .trackInternal keys kids → kids.length = keys.length + 1) : (blocks z n).sum ≤ 50 * nodeSize kw n := by
  rw [blocks_sum]
  have hkw : ∀ l : Nat, l * 8 ≤ l * kw := fun l => Nat.mul_le_mul_left l hk
  cases n with
  | header h => exact Nat.zero_le _
  | freeLeaf keys values =>
    simp only [nodeHeap, extra, nodeSize]
    suffices values.length * 32 + (values.map fun v => v.pageIds.length * 8).sum ≤
        4 * (values.map fun v => 2 + v.pageIds.length * 8 + 8).sum by omega
    clear hn
    induction values with
    | nil => simp
    | cons v vs ih => simp only [List.length_cons, List.map_cons, List.sum_cons] at ih ⊢; omega
  | eventLeaf keys values =>
    simp only [nodeHeap, extra, nodeSize]
    suffices values.length * z.eventValue + (values.map valueHeap).sum + (values.map extraOf).sum ≤ 50 * (values.map valueSize).sum by omega
    clear hn
    induction values with
    | nil => simp
    | cons v vs ih =>
      have := value_le v
      simp only [List.length_cons, List.map_cons, List.sum_cons, Nat.add_mul, Nat.one_mul] at ih ⊢
      omega
  | tagsLeaf keys values =>
    simp only [nodeHeap, extra, nodeSize]
    have := hkw keys.length
    suffices values.length * 32 + (values.map fun v => v.positions.length * 8).sum ≤
        4 * (values.map fun v => 8 + 2 + v.positions.length * 8).sum by omega
    clear hn
    induction values with
    | nil => simp
    | cons v vs ih => simp only [List.length_cons, List.map_cons, List.sum_cons] at ih ⊢; omega
  | tagsInternal keys kids =>
    have := hkw keys.length
    simp only [nodeHeap, extra, nodeSize]
    omega
  | trackLeaf keys values =>
    have := strings_le keys 1
    simp only [nodeHeap, extra, nodeSize]
    omega
  | trackInternal keys kids =>
    have := strings_le keys 1
    have := hn _ _ rfl
    simp only [nodeHeap, extra, nodeSize]
    omega
  | freeInternal keys kids => simp only [nodeHeap, extra, nodeSize]; omega
  | eventInternal keys kids => simp only [nodeHeap, extra, nodeSize]; omega
  | eventOverflow next data => simp only [nodeHeap, extra, nodeSize]; omega
  | tagLeaf ps => simp only [nodeHeap, extra, nodeSize]; omega
  | tagInternal keys kids => simp only [nodeHeap, extra, nodeSize]; omega
  | tsnLeaf ids => simp only [nodeHeap, extra, nodeSize]; omega
  | tsnInternal keys kids => simp only [nodeHeap, extra, nodeSize]; omega

/-- C87: a cache limited to a number of pages takes at most 50 times the bytes of that many pages, and the pages themselves. -/
theorem C87_pages {z : Sizes} {kw pageSize maxPages : Nat} (hz : z.eventValue ≤ 256) (hk : 8 ≤ kw) {cached : List (Nat × Node)}
    (hp : 0 < maxPages) (hc : (cacheLimit 0 maxPages).admits z cached)
    (hn : ∀ p ∈ cached, ∀ keys kids, p.2 = .trackInternal keys kids → kids.length = keys.length + 1)
    (hs : ∀ p ∈ cached, pageSizeOf kw p.2 ≤ pageSize) :
    (cached.map fun p => memory z p.2).sum ≤ maxPages * (z.page + 50 * pageSize) := by
  rw [cacheLimit, if_neg (by omega), if_pos hp] at hc
  refine Nat.le_trans ?_ (Nat.mul_le_mul_right _ hc.2)
  clear hc
  induction cached with
  | nil => simp
  | cons p l ih =>
    have h1 := C87_page hz hk (hn p (List.mem_cons_self ..))
    have h3 := hs p (List.mem_cons_self ..)
    have h2 := ih (fun q hq => hn q (List.mem_cons_of_mem _ hq)) (fun q hq => hs q (List.mem_cons_of_mem _ hq))
    simp only [List.map_cons, List.sum_cons, List.length_cons, Nat.add_mul, Nat.one_mul, memory, pageSizeOf] at h2 h3 ⊢
    omega

/-- C87: without either limit nothing is cached. -/
theorem C87_off {z : Sizes} {cached : List (Nat × Node)} (hc : (cacheLimit 0 0).admits z cached) : cached = [] := hc

theorem isOk_some {ε α : Type} {x : Except ε α} (h : x.isOk = true) : ∃ a, x = .ok a := by
  cases x with
  | ok a => exact ⟨a, rfl⟩
  | error e => cases h

/-- One page under `k` ids. -/
theorem page_copies (z : Sizes) (n : Node) (k : Nat) : ∃ cached : List (Nat × Node), (∀ p ∈ cached, p.2 = n) ∧ (cached.map (·.1)).Nodup ∧
    (cached.map fun p => pageWeight z p.2).sum = k * pageWeight z n ∧ (cached.map fun p => memory z p.2).sum = k * memory z n := by
  refine ⟨(List.range k).map fun i => (i, n), ?_, ?_, ?_, ?_⟩
  · intro p hp
    obtain ⟨i, -, rfl⟩ := List.mem_map.mp hp
    rfl
  · rw [List.map_map]
    exact (List.map_id (List.range k)).symm ▸ List.nodup_range
  · rw [List.map_map, show ((fun p : Nat × Node => pageWeight z p.2) ∘ fun i => (i, n)) = fun _ => pageWeight z n from rfl]
    rw [List.map_const', List.length_range, List.sum_replicate_nat]
  · rw [List.map_map, show ((fun p : Nat × Node => memory z p.2) ∘ fun i => (i, n)) = fun _ => memory z n from rfl]
    rw [List.map_const', List.length_range, List.sum_replicate_nat]

/-- An event with a hundred and fifty entries of metadata. -/
@[irreducible] def manyEntries : Record := ⟨⟨"T", [], [], none, (List.range 150).map fun i => (toString i, "")⟩, none⟩

/-- The leaf it is stored in. -/
@[irreducible] def manyLeaf : Node := .eventLeaf [1] [.inline manyEntries]

theorem manyLeaf_memory : memory ⟨200, 200⟩ manyLeaf = 7949 := by decide +kernel

theorem manyLeaf_weight : pageWeight ⟨200, 200⟩ manyLeaf = 633 := by decide +kernel

theorem manyLeaf_size : pageSizeOf 16 manyLeaf ≤ 4096 := by decide +kernel

theorem manyEntries_ok : (validateEvent 4096 manyEntries).isOk = true := by decide +kernel

theorem limit_one : cacheLimit 1 0 = .weight 1000000 := by decide +kernel

/-- C87: the event is accepted and its leaf fits a page of 4096 bytes. A thousand such leaves keep to a limit of 1 MB and take more than 7.9 MB. -/
theorem C87_metadata_false : (∃ x, validateEvent 4096 manyEntries = .ok x) ∧ pageSizeOf 16 manyLeaf ≤ 4096 ∧
    ∃ cached : List (Nat × Node), (∀ p ∈ cached, p.2 = manyLeaf) ∧ (cacheLimit 1 0).admits ⟨200, 200⟩ cached ∧
      7900000 ≤ (cached.map fun p => memory ⟨200, 200⟩ p.2).sum := by
  obtain ⟨cached, h1, h2, h3, h4⟩ := page_copies ⟨200, 200⟩ manyLeaf 1000
  rw [manyLeaf_weight] at h3
  rw [manyLeaf_memory] at h4
  refine ⟨isOk_some manyEntries_ok, manyLeaf_size, cached, h1, ?_, ?_⟩
  · rw [limit_one]
    exact ⟨h2, by rw [h3]; decide⟩
  · rw [h4]
    decide

/-- C87: a limit of 18446744073710 MB is taken for less than half a megabyte. -/
theorem C87_wrap_false : cacheLimit 18446744073710 0 = .weight 448384 := by decide +kernel

section Examples

/-- A leaf with one small event: 8 bytes for the key, 200 for the value, 1 + 3 + 24 + 1 for its strings and vectors. -/
example : memory ⟨200, 200⟩ (.eventLeaf [1] [.inline ⟨⟨"T", [1, 2, 3], ["x"], none, []⟩, none⟩]) = 437 ∧
    pageWeight ⟨200, 200⟩ (.eventLeaf [1] [.inline ⟨⟨"T", [1, 2, 3], ["x"], none, []⟩, none⟩]) = 674 := by decide +kernel

/-- A tracked source is not counted. -/
example : extra (.eventLeaf [1] [.inline ⟨⟨"T", [1, 2, 3], ["x"], none, []⟩, some ⟨"upstream", 7⟩⟩]) = 8 := by decide +kernel

example : cacheLimit 5 7 = .weight 5000000 ∧ cacheLimit 0 7 = .pages 7 ∧ cacheLimit 0 0 = .off := by decide +kernel

end Examples

end Uma.Props
