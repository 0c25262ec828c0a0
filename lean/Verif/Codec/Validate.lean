import Verif.Codec.NodeProof
import Verif.Core.Meta

/-!
# Event validation and tag hashes

`validate_event_record_for_append` and `validate_tags`, umadb-core/src/events_tree_nodes.rs 58-149; tag hashes,
umadb-core/src/db.rs 920-966, tags_tree_nodes.rs 26-36.
-/

namespace Uma.Codec
open Uma.Core

/-- `validate_tags`, 130-149: only the number of tags is checked. -/
def validateTags (tags : List String) : Except Err Unit :=
  if tags.length > 65535 then .error (.invalidArgument "too many tags") else .ok ()

/-- The overflow header tried when the event does not fit inline, 80-100. -/
def overflowStub (r : Record) : EventValue :=
  .overflow r.event.eventType r.event.data.length r.event.tags 0 r.event.uuid (if r.event.metadata.isEmpty then 0 else 1)
    r.tracking

/-- `validate_event_record_for_append`, 58-114.  The key width does not matter for event leaves. -/
def validateEvent (pageSize : Nat) (r : Record) : Except Err ((EventValue × Nat) × Option (EventValue × Nat)) := do
  validateTags r.event.tags
  validateMetadata r.event.metadata
  let emptySize := nodeSize 16 (.eventLeaf [] [])
  let inlineSize := nodeSize 16 (.eventLeaf [0] [.inline r])
  if inlineSize + pageHeaderSize ≤ pageSize then .ok ((.inline r, inlineSize - emptySize), none)
  else
    let stub := overflowStub r
    let overflowSize := nodeSize 16 (.eventLeaf [0] [stub])
    if overflowSize + pageHeaderSize ≤ pageSize then
      .ok ((.inline r, inlineSize - emptySize), some (stub, overflowSize - emptySize))
    else .error (.invalidArgument "event too large for page size")

/-- The bytes `0x9E3779B9` hashed after the tag, db.rs 935. -/
def hashSalt : Bytes := [0x9E, 0x37, 0x79, 0xB9]

/-- `tag_to_hash_crc64`, db.rs 930-957. -/
def tagHashCrc64 (tag : String) : Nat :=
  unbe (le 8 (crc32 (strBytes tag) * 2 ^ 32 + crc32 (strBytes tag ++ hashSalt)) ++ List.replicate 8 0)

/-- `tag_to_hash`, db.rs 959-966.  UUID v5 (SHA-1 based) is an arbitrary function `v5`. -/
def tagHash (v5 : String → Uuid) (kw : Nat) (tag : String) : Nat :=
  if kw = 16 then unbe (v5 tag).toArray.toList else tagHashCrc64 tag

/-- `normalize_tag_hash_for_current_width`, tags_tree_nodes.rs 27-36: the bytes past the key width are cleared. -/
def normalizeHash (kw h : Nat) : Nat :=
  if kw < 16 then unbe ((be 16 h).take kw ++ List.replicate (16 - kw) 0) else h

theorem unbe_lt (b : Bytes) : unbe b < 256 ^ b.length := by
  have := unle_lt b.reverse
  simpa [unbe] using this

theorem unbe_append_zeros (b : Bytes) (n : Nat) : unbe (b ++ List.replicate n 0) = unbe b * 256 ^ n := by
  simp [unbe, List.reverse_append, unle_append, unle_replicate_zero, Nat.mul_comm]

theorem normalized_unbe {kw : Nat} {b : Bytes} (hb : b.length = kw) (hk : kw ≤ 16) :
    NormalizedTo kw (unbe (b ++ List.replicate (16 - kw) 0)) := by
  refine ⟨?_, ?_⟩
  · have := unbe_lt (b ++ List.replicate (16 - kw) 0)
    simp only [List.length_append, List.length_replicate, hb] at this
    rwa [show kw + (16 - kw) = 16 by omega] at this
  · rw [unbe_append_zeros, Nat.mul_mod_left]

theorem normalized_16 {b : Bytes} (hb : b.length = 16) : NormalizedTo 16 (unbe b) := by
  have := normalized_unbe hb (Nat.le_refl _)
  simpa using this

/-- Hashes survive being written with the key width they are computed for. -/
theorem tagHash_normalized (v5 : String → Uuid) {kw : Nat} (hk : kw = 16 ∨ kw = 8) (tag : String) :
    NormalizedTo kw (tagHash v5 kw tag) := by
  rcases hk with rfl | rfl
  · exact normalized_16 (by simp)
  · exact normalized_unbe (by simp) (by decide)

theorem unbe_be_lt {k n : Nat} (h : n < 256 ^ k) : unbe (be k n) = n := by rw [unbe_be, Nat.mod_eq_of_lt h]

theorem normalizeHash_normalized {kw h : Nat} (hk : kw ≤ 16) (hh : h < 256 ^ 16) :
    NormalizedTo kw (normalizeHash kw h) := by
  unfold normalizeHash
  split
  · exact normalized_unbe (by simp [be_length]; omega) hk
  · have : kw = 16 := by omega
    subst this
    exact ⟨hh, by simp [Nat.mod_one]⟩

theorem normalizeHash_eq {kw h : Nat} (hk : kw ≤ 16) (hn : NormalizedTo kw h) : normalizeHash kw h = h := by
  unfold normalizeHash
  split
  · rw [be_take hk hn, unbe_be_lt hn.1]
  · rfl

/-! ## What validation guarantees -/

theorem sum_ge {α} {l : List α} {f : α → Nat} {a : α} (h : a ∈ l) : f a ≤ (l.map f).sum := by
  induction l with
  | nil => cases h
  | cons b l ih =>
    rw [List.map_cons, List.sum_cons]
    rcases List.mem_cons.mp h with rfl | h
    · omega
    · have := ih h; omega

/-- Strings that were counted in a size below 2^16 fit their length fields. -/
theorem tagsFit_of_size {tags : List String} (h : tagsSize tags < 2 ^ 16) (hc : tags.length ≤ 65535) : TagsFit tags := by
  refine ⟨by unfold U16; omega, fun t ht => ?_⟩
  have := sum_ge (f := fun t : String => 2 + t.utf8ByteSize) ht
  unfold tagsSize at h
  unfold U16
  omega

theorem metaFit_of_valid {m : Meta} (h : validateMetadata m = .ok ()) : MetaFit m := by
  obtain ⟨h1, -, h3⟩ := (validateMetadata_ok m).mp h
  refine ⟨by unfold U16; unfold u16Max at h1; omega, fun e he => ?_⟩
  have := h3 e he
  unfold u16Max at this
  exact ⟨by unfold U16; omega, by unfold U16; omega⟩

/-- The event as stored out of line: any chain root, the real metadata length. -/
def overflowValue (r : Record) (root : Nat) : EventValue :=
  .overflow r.event.eventType r.event.data.length r.event.tags root r.event.uuid
    (if r.event.metadata.isEmpty then 0 else metadataSize r.event.metadata) r.tracking

theorem overflow_size (r : Record) (root : Nat) : valueSize (overflowValue r root) = valueSize (overflowStub r) := by
  simp only [valueSize, overflowValue, overflowStub]
  by_cases h : r.event.metadata.isEmpty
  · simp [h]
  · have : 0 < metadataSize r.event.metadata := by unfold metadataSize; omega
    simp [h, this]

theorem validateEvent_cases (pageSize : Nat) (r : Record) :
    validateEvent pageSize r =
      if r.event.tags.length > 65535 then .error (.invalidArgument "too many tags")
      else match validateMetadata r.event.metadata with
        | .error e => .error e
        | .ok () =>
          if 10 + valueSize (.inline r) + 9 ≤ pageSize then .ok ((.inline r, 8 + valueSize (.inline r)), none)
          else if 10 + valueSize (overflowStub r) + 9 ≤ pageSize then
            .ok ((.inline r, 8 + valueSize (.inline r)), some (overflowStub r, 8 + valueSize (overflowStub r)))
          else .error (.invalidArgument "event too large for page size") := by
  unfold validateEvent validateTags
  by_cases h : r.event.tags.length > 65535
  · simp [h, bind, Except.bind]
  · simp only [h, if_false, bind, Except.bind]
    cases validateMetadata r.event.metadata with
    | error e => rfl
    | ok u =>
      have e1 : nodeSize 16 (.eventLeaf [0] [.inline r]) = 10 + valueSize (.inline r) := by simp [nodeSize]
      have e2 : nodeSize 16 (.eventLeaf [0] [overflowStub r]) = 10 + valueSize (overflowStub r) := by simp [nodeSize]
      have e3 : nodeSize 16 (.eventLeaf [] []) = 2 := rfl
      simp only [e1, e2, e3, pageHeaderSize]
      rw [show 10 + valueSize (.inline r) - 2 = 8 + valueSize (.inline r) by omega,
        show 10 + valueSize (overflowStub r) - 2 = 8 + valueSize (overflowStub r) by omega]

theorem inline_fits {r : Record} {pageSize : Nat} (hp : pageSize ≤ 65536) (hs : 19 + valueSize (.inline r) ≤ pageSize)
    (hc : r.event.tags.length ≤ 65535) (hm : validateMetadata r.event.metadata = .ok ())
    (ht : ∀ t ∈ r.tracking, U64 t.position) : ValueFits (.inline r) := by
  obtain ⟨⟨et, data, tags, uuid, md⟩, tr⟩ := r
  simp only [valueSize] at hs
  refine ⟨by unfold U16; simp only; omega, by unfold U16; simp only; omega,
    tagsFit_of_size (by simp only; omega) hc, metaFit_of_valid hm, fun t h => ?_⟩
  simp only at h ht
  obtain rfl : tr = some t := h
  simp only [trackingSize] at hs
  exact ⟨by unfold U16; omega, ht t rfl⟩

theorem overflow_fits {r : Record} {pageSize root : Nat} (hp : pageSize ≤ 65536)
    (hs : 19 + valueSize (overflowStub r) ≤ pageSize) (hc : r.event.tags.length ≤ 65535)
    (ht : ∀ t ∈ r.tracking, U64 t.position) (hd : U64 (r.event.data.length)) (hr : U64 root)
    (hm : U64 (metadataSize r.event.metadata)) : ValueFits (overflowValue r root) := by
  obtain ⟨⟨et, data, tags, uuid, md⟩, tr⟩ := r
  simp only [overflowStub, valueSize] at hs
  refine ⟨by unfold U16; simp only; omega, hd, tagsFit_of_size (by simp only; omega) hc, hr, ?_, fun t h => ?_⟩
  · simp only; split
    · unfold U64; omega
    · exact hm
  · simp only at h ht
    obtain rfl : tr = some t := h
    simp only [trackingSize] at hs
    exact ⟨by unfold U16; omega, ht t rfl⟩

end Uma.Codec
