import Verif.Props.Codec
import Verif.Codec.Validate
import Verif.Db.Lawful
import Mathlib.Data.Finset.Card
import Mathlib.Data.List.Nodup

/-!
# What the tag hash of old files tells apart: C85

Files of schema version 0 index tags by `tag_to_hash_crc64`: the CRC-32 of the tag, and the CRC-32 of the tag with four bytes
after it.  The second is determined by the first.
-/

namespace Uma.Props
open Uma.Spec Uma.Codec Uma.Db

/-- The CRC-32 of bytes followed by others depends on the CRC-32 of the bytes only. -/
theorem crc32_append_congr {a b : Bytes} (z : Bytes) (h : crc32 a = crc32 b) : crc32 (a ++ z) = crc32 (b ++ z) := by
  have h1 : crcLoop crcMask a = crcLoop crcMask b := by
    have := congrArg (· ^^^ crcMask) h
    simpa [crc32, Nat.xor_assoc] using this
  have e : ∀ x : Bytes, crcLoop crcMask (x ++ z) = crcLoop (crcLoop crcMask x) z := fun x => List.foldl_append
  unfold crc32
  rw [e, e, h1]

/-- C85: two tags have the same hash exactly if they have the same CRC-32: the second half of the hash tells no tags apart
that the first half does not. -/
theorem C85_equal (t t' : String) : tagHashCrc64 t = tagHashCrc64 t' ↔ crc32 (strBytes t) = crc32 (strBytes t') := by
  constructor
  · intro h
    unfold tagHashCrc64 at h
    rw [unbe_append_zeros, unbe_append_zeros] at h
    have h1 := Nat.eq_of_mul_eq_mul_right (by decide) h
    have hb : ∀ s : String, crc32 (strBytes s) * 2 ^ 32 + crc32 (strBytes s ++ hashSalt) < 256 ^ 8 := fun s => by
      have := crc32_lt (strBytes s)
      have := crc32_lt (strBytes s ++ hashSalt)
      omega
    have h2 : le 8 (crc32 (strBytes t) * 2 ^ 32 + crc32 (strBytes t ++ hashSalt)) =
        le 8 (crc32 (strBytes t') * 2 ^ 32 + crc32 (strBytes t' ++ hashSalt)) := by
      apply List.reverse_injective
      rw [← le_unle (List.reverse _), ← le_unle (List.reverse (le 8 (crc32 (strBytes t') * 2 ^ 32 + _)))]
      unfold unbe at h1
      rw [h1]
      simp only [List.length_reverse, le_length]
    have h3 := congrArg unle h2
    rw [unle_le, unle_le, Nat.mod_eq_of_lt (hb t), Nat.mod_eq_of_lt (hb t')] at h3
    have := crc32_lt (strBytes t ++ hashSalt)
    have := crc32_lt (strBytes t' ++ hashSalt)
    omega
  · intro h
    unfold tagHashCrc64
    rw [h, crc32_append_congr hashSalt h]

/-- C85: there are two different tags whose CRC-32 is the same; the longer hash does not tell them apart either. -/
theorem C85_second_half_false : ∃ t t' : String, t ≠ t' ∧ tagHashCrc64 t = tagHashCrc64 t' :=
  ⟨"plumless", "buckeroo", by decide, (C85_equal _ _).mpr (by decide +kernel)⟩

/-- C85: there are at most 2^32 hashes, of the 2^64 there is room for. -/
theorem C85_values {tags : List String} (h : (tags.map tagHashCrc64).Nodup) : tags.length ≤ 2 ^ 32 := by
  have h1 : (tags.map fun t => crc32 (strBytes t)).Nodup := by
    rw [List.Nodup, List.pairwise_map] at h ⊢
    exact h.imp fun hne he => hne ((C85_equal _ _).mpr he)
  have h2 : (tags.map fun t => crc32 (strBytes t)) ⊆ List.range (2 ^ 32) := by
    intro x hx
    obtain ⟨t, -, rfl⟩ := List.mem_map.mp hx
    exact List.mem_range.mpr (crc32_lt _)
  simpa using (List.subperm_of_subset h1 h2).length_le

/-- C85 (partial): tags of the same length that differ within four successive bytes only are told apart. -/
theorem C85_near_partial {t t' : String} {a w w' z : Bytes} (ht : strBytes t = a ++ w ++ z) (ht' : strBytes t' = a ++ w' ++ z)
    (hl : w.length = w'.length) (h4 : w.length ≤ 4) (hne : w ≠ w') : tagHashCrc64 t ≠ tagHashCrc64 t' := by
  intro h
  rw [C85_equal, ht, ht'] at h
  exact hne (crc32_window a w w' z hl h4 h)

/-- C85: on an old file the index holds, for a tag, the positions of all events that have some tag with the same CRC-32. -/
theorem C85_index (v5 : String → Uuid) (log : Log) (t : String) (p : Nat) :
    p ∈ idxOf (tagHash v5 8) log (tagHash v5 8 t) ↔
      ∃ r, log[p - 1]? = some r ∧ 1 ≤ p ∧ ∃ u ∈ r.event.tags, crc32 (strBytes u) = crc32 (strBytes t) := by
  have e : ∀ u, tagHash v5 8 u = tagHashCrc64 u := fun u => by simp [tagHash]
  rw [mem_idxOf]
  constructor
  · rintro ⟨r, h1, u, h2, h3⟩
    obtain ⟨h4, h5⟩ := mem_numberFrom.mp h1
    rw [e, e, C85_equal] at h3
    exact ⟨r, h5, h4, u, h2, h3⟩
  · rintro ⟨r, h1, h2, u, h3, h4⟩
    refine ⟨r, mem_numberFrom.mpr ⟨h2, h1⟩, u, h3, ?_⟩
    rw [e, e, C85_equal]
    exact h4

section Examples

/-- Numbered tags differ in their last digits only: no two of them share a hash. -/
example : tagHashCrc64 "student:0017" ≠ tagHashCrc64 "student:0018" :=
  C85_near_partial (a := strBytes "student:") (w := strBytes "0017") (w' := strBytes "0018") (z := []) (by decide +kernel) (by decide +kernel)
    (by decide +kernel) (by decide +kernel) (by decide +kernel)

/-- An event tagged `buckeroo` is listed under `plumless`. -/
example (v5 : String → Uuid) : 1 ∈ idxOf (tagHash v5 8) [⟨⟨"T", [], ["buckeroo"], none, []⟩, none⟩] (tagHash v5 8 "plumless") :=
  (C85_index v5 _ _ _).mpr ⟨_, rfl, Nat.le_refl _, "buckeroo", by simp, by decide +kernel⟩

/-- The hash of a tag, byte by byte. -/
example : be 16 (tagHashCrc64 "plumless") = [0x98, 0xF4, 0xE8, 0xE5, 0x25, 0x0C, 0xDB, 0x4D, 0, 0, 0, 0, 0, 0, 0, 0] := by decide +kernel

end Examples

end Uma.Props
