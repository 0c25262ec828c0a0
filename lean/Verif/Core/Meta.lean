import Verif.Spec.Types

/-!
# Model of event metadata handling

`DcbEvent::metadata_entry`, umadb-dcb/src/lib.rs 443-465; `has_duplicate_metadata_key` and `validate_metadata`,
umadb-core/src/events_tree_nodes.rs 154-213.
-/

namespace Uma.Core

abbrev Meta := List (String × String)

/-- `metadata_entry`: overwrite the first entry with this key, otherwise push at the end. -/
def metadataEntry (m : Meta) (key value : String) : Meta :=
  match m with
  | [] => [(key, value)]
  | (k, v) :: rest => if k = key then (k, value) :: rest else (k, v) :: metadataEntry rest key value

/-- The nested loop for fewer than 9 entries. -/
def dupBrute : Meta → Bool
  | [] => false
  | (k, _) :: rest => rest.any (fun e => k == e.1) || dupBrute rest

/-- The loop with a set for larger slices: `insert` answers false when the key is present. -/
def dupSet (seen : List String) : Meta → Bool
  | [] => false
  | (k, _) :: rest => if k ∈ seen then true else dupSet (k :: seen) rest

/-- `has_duplicate_metadata_key`, 189-213. -/
def hasDuplicateKey (m : Meta) : Bool :=
  if m.length < 2 then false
  else if m.length < 9 then dupBrute m
  else dupSet [] m

/-- `u16::MAX` -/
def u16Max : Nat := 65535

/-- The length checks on the entries, 167-183. -/
def checkEntries : Meta → Except Err Unit
  | [] => .ok ()
  | (k, v) :: rest =>
    if k.utf8ByteSize > u16Max then .error (.invalidArgument "metadata key too long")
    else if v.utf8ByteSize > u16Max then .error (.invalidArgument "metadata value too long")
    else checkEntries rest

/-- `validate_metadata`, 154-185 (message texts abbreviated). -/
def validateMetadata (m : Meta) : Except Err Unit :=
  if m.length > u16Max then .error (.invalidArgument "too many metadata entries")
  else if hasDuplicateKey m then .error (.invalidArgument "metadata contains duplicate keys")
  else checkEntries m

theorem dupBrute_iff (m : Meta) : dupBrute m = false ↔ (m.map (·.1)).Nodup := by
  induction m with
  | nil => simp [dupBrute]
  | cons e m ih =>
    obtain ⟨k, v⟩ := e
    simp only [dupBrute, Bool.or_eq_false_iff, ih, List.map_cons, List.nodup_cons, List.mem_map, List.any_eq_false,
      beq_iff_eq]
    refine and_congr_left fun _ => ⟨?_, ?_⟩
    · rintro h ⟨e, he, rfl⟩; exact h e he rfl
    · rintro h e he rfl; exact h ⟨e, he, rfl⟩

theorem dupSet_iff (m : Meta) : ∀ seen, dupSet seen m = false ↔
    (m.map (·.1)).Nodup ∧ ∀ k ∈ m.map (·.1), k ∉ seen := by
  induction m with
  | nil => simp [dupSet]
  | cons e m ih =>
    obtain ⟨k, v⟩ := e
    intro seen
    rw [dupSet]
    by_cases hk : k ∈ seen
    · simp [hk]
    · rw [if_neg hk, ih]
      simp only [List.map_cons, List.nodup_cons, List.mem_cons, not_or]
      constructor
      · rintro ⟨h1, h2⟩
        refine ⟨⟨fun hm => (h2 k hm).1 rfl, h1⟩, ?_⟩
        rintro x (rfl | hx)
        · exact hk
        · exact (h2 x hx).2
      · rintro ⟨⟨h1, h2⟩, h3⟩
        exact ⟨h2, fun x hx => ⟨by rintro rfl; exact h1 hx, h3 x (Or.inr hx)⟩⟩

theorem hasDuplicateKey_iff (m : Meta) : hasDuplicateKey m = false ↔ (m.map (·.1)).Nodup := by
  unfold hasDuplicateKey
  split
  · rename_i h
    match m, h with
    | [], _ => simp
    | [_], _ => simp
  split
  · exact dupBrute_iff m
  · rw [dupSet_iff]; simp

theorem checkEntries_ok (m : Meta) : checkEntries m = .ok () ↔
    ∀ e ∈ m, e.1.utf8ByteSize ≤ u16Max ∧ e.2.utf8ByteSize ≤ u16Max := by
  induction m with
  | nil => simp [checkEntries]
  | cons e m ih =>
    obtain ⟨k, v⟩ := e
    rw [checkEntries]
    split
    · rename_i h; simp; intro h'; omega
    split
    · rename_i h h'; simp; omega
    · rw [ih]; simp; omega

theorem validateMetadata_ok (m : Meta) : validateMetadata m = .ok () ↔
    m.length ≤ u16Max ∧ (m.map (·.1)).Nodup ∧ ∀ e ∈ m, e.1.utf8ByteSize ≤ u16Max ∧ e.2.utf8ByteSize ≤ u16Max := by
  unfold validateMetadata
  split
  · simp; omega
  split
  · rename_i h1 h2
    have : ¬ (m.map (·.1)).Nodup := fun hc => by rw [(hasDuplicateKey_iff m).mpr hc] at h2; cases h2
    simp [this]
  · rename_i h1 h2
    have : (m.map (·.1)).Nodup := (hasDuplicateKey_iff m).mp (by simpa using h2)
    rw [checkEntries_ok]
    simp only [this, true_and]
    constructor
    · intro h; exact ⟨by omega, h⟩
    · exact fun h => h.2

theorem validateMetadata_error (m : Meta) (e : Err) (h : validateMetadata m = .error e) : ∃ t, e = .invalidArgument t := by
  unfold validateMetadata at h
  have hc : ∀ m : Meta, checkEntries m = .error e → ∃ t, e = .invalidArgument t := by
    intro m
    induction m with
    | nil => intro h; cases h
    | cons x m ih =>
      obtain ⟨k, v⟩ := x
      intro h
      rw [checkEntries] at h
      split at h
      · cases h; exact ⟨_, rfl⟩
      split at h
      · cases h; exact ⟨_, rfl⟩
      · exact ih h
  split at h
  · cases h; exact ⟨_, rfl⟩
  split at h
  · cases h; exact ⟨_, rfl⟩
  · exact hc m h

end Uma.Core
