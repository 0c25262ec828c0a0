import Verif.Codec.Node

/-!
# Model of the limits of the page cache (umadb-core/src/page.rs 93-202, mvcc.rs 276-299)

`page_approx_deserialized_bytes` is the weight of a page in a cache limited to a number of megabytes.

Simplifications: the capacity of a vector or string is its length (both the weight and the memory held grow with the capacity); the product with the factor
is exact, not a `f64`.  The sizes the compiler gives to `Page` and `EventValue` are parameters; a `String` and a `Vec` are 24 bytes, ids, positions and
transaction numbers 8, a tag hash 16, `FreeListLeafValue` and `TagsLeafValue` 32 (a `Vec` and an id).
-/

namespace Uma.Mvcc
open Uma.Codec

/-- `mem::size_of` of the two types whose layout is left to the compiler. -/
structure Sizes where
  page : Nat
  eventValue : Nat

/-- `string_heap_bytes` over a list, page.rs 94-96. -/
def stringsHeap (l : List String) : Nat := (l.map fun s => s.utf8ByteSize).sum

/-- `event_value_approx_heap_bytes`, page.rs 104-124. -/
def valueHeap : EventValue → Nat
  | .inline r => r.event.eventType.utf8ByteSize + r.event.data.length + r.event.tags.length * 24 + stringsHeap r.event.tags
  | .overflow et _ tags _ _ _ _ => et.utf8ByteSize + tags.length * 24 + stringsHeap tags

/-- `node_approx_heap_bytes`, page.rs 127-173. -/
def nodeHeap (z : Sizes) : Node → Nat
  | .header _ => 0
  | .freeLeaf keys values => keys.length * 8 + values.length * 32 + (values.map fun v => v.pageIds.length * 8).sum
  | .freeInternal keys kids => keys.length * 8 + kids.length * 8
  | .eventLeaf keys values => keys.length * 8 + values.length * z.eventValue + (values.map valueHeap).sum
  | .eventInternal keys kids => keys.length * 8 + kids.length * 8
  | .eventOverflow _ data => data.length
  | .tagsLeaf keys values => keys.length * 16 + values.length * 32 + (values.map fun v => v.positions.length * 8).sum
  | .tagsInternal keys kids => keys.length * 16 + kids.length * 8
  | .tagLeaf positions => positions.length * 8
  | .tagInternal keys kids => keys.length * 8 + kids.length * 8
  | .tsnLeaf ids => ids.length * 8
  | .tsnInternal keys kids => keys.length * 8 + kids.length * 8
  | .trackLeaf keys values => keys.length * 24 + stringsHeap keys + values.length * 8
  | .trackInternal keys kids => keys.length * 24 + stringsHeap keys + kids.length * 8

/-- The factors in hundredths, page.rs 178-193. -/
def weightFactor : Node → Nat
  | .trackInternal .. => 157
  | .eventLeaf .. => 146
  | .tsnInternal .. => 127
  | .tagInternal .. => 127
  | .eventInternal .. => 127
  | .freeLeaf .. => 126
  | .tagsInternal .. => 125
  | .freeInternal .. => 125
  | .trackLeaf .. => 123
  | .tagsLeaf .. => 123
  | .eventOverflow .. => 119
  | .tagLeaf .. => 118
  | .tsnLeaf .. => 117
  | .header .. => 115

/-- `page_approx_deserialized_bytes`, page.rs 176-202: 8 bytes for the `Arc` and 16 for its counters. -/
def approxBytes (z : Sizes) (n : Node) : Nat :=
  ((z.page + nodeHeap z n + 8 + 2 * 8) * weightFactor n + 99) / 100

/-- The weigher, mvcc.rs 281-283. -/
def pageWeight (z : Sizes) (n : Node) : Nat := min (approxBytes z n) (2 ^ 32 - 1)

/-- What the cache is told to keep to: a total weight, a number of pages, or there is no cache. -/
inductive CacheLimit where
  | weight (max : Nat)
  | pages (max : Nat)
  | off
deriving DecidableEq, Repr

/-- mvcc.rs 276-299.  The product is a `u64` that wraps around in release builds. -/
def cacheLimit (maxMb maxPages : Nat) : CacheLimit :=
  if maxMb > 0 then .weight (1000000 * maxMb % 2 ^ 64)
  else if maxPages > 0 then .pages maxPages
  else .off

/-- `moka` keeps a cache within its limit (after its pending maintenance): pages by id. -/
def CacheLimit.admits (z : Sizes) (cached : List (Nat × Node)) : CacheLimit → Prop
  | .weight m => (cached.map (·.1)).Nodup ∧ (cached.map fun p => pageWeight z p.2).sum ≤ m
  | .pages m => (cached.map (·.1)).Nodup ∧ cached.length ≤ m
  | .off => cached = []

end Uma.Mvcc
