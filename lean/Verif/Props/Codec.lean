import Verif.Codec.Validate

/-!
# Properties of the page formats: C23, C24, C25, C43, and the validation part of C26
-/

namespace Uma.Props
open Uma.Codec Uma.Core

/-! ## C23: encode/decode -/

/-- C23: a page written into a buffer of any content reads back as the node it was written from. -/
theorem C23_roundtrip {kw : Nat} (hk : kw ≤ 16) {buf : Bytes} (hb : buf.length ≤ 2 ^ 32) (zero : Bool) {n : Node}
    (hf : NodeFits kw n) {page : Bytes} (h : serializePage kw buf zero n = .ok page) :
    deserializePage kw page = .ok n ∧ page.length = buf.length :=
  deserialize_serialize hk hf hb h

/-- Bytes of tracking info that are counted but not written: two for each tracked event. -/
def trackedEvents : Node → Nat
  | .eventLeaf _ values => (values.filter fun v =>
      match v with
      | .inline r => r.tracking.isSome
      | .overflow _ _ _ _ _ _ t => t.isSome).length
  | _ => 0

theorem slack_eq (n : Node) : slack n = 2 * trackedEvents n := by
  cases n with
  | eventLeaf keys values =>
    simp only [slack, trackedEvents]
    induction values with
    | nil => rfl
    | cons v vs ih =>
      rw [List.map_cons, List.sum_cons, ih, List.filter_cons]
      cases v with
      | inline r => cases ht : r.tracking <;> simp [ht, valueSlack, trackSlack] <;> omega
      | overflow a b c d e f t => cases t <;> simp [valueSlack, trackSlack] <;> omega
  | _ => rfl

/-- C23: the bytes written are those computed beforehand, less two for each tracked event; a page is never refused if the
computed size fits. -/
theorem C23_size {kw : Nat} (hk : kw ≤ 16) (buf : Bytes) (zero : Bool) {n : Node} (hf : NodeFits kw n)
    (hs : pageSizeOf kw n ≤ buf.length) (hb : buf.length ≤ 2 ^ 32) :
    ∃ page body tail, serializePage kw buf zero n = .ok page ∧
      page = le 1 (typeByte n) ++ (le 4 (crc32 body) ++ (le 4 body.length ++ (body ++ tail))) ∧
      (if zero then ∀ b ∈ tail, b = 0 else tail = buf.drop (9 + body.length)) ∧
      9 + body.length + 2 * trackedEvents n = pageSizeOf kw n := by
  have hshape : ShapeOk n := by cases n <;> first | trivial | exact hf.2.1
  have hkeys : keysTooLong n = false := by
    cases n <;> first | rfl | (simp only [keysTooLong, List.any_eq_false, decide_eq_true_eq]; intro k hk'
                               have := hf.2.2.1 k hk'; omega)
  have hlen := encode_length (kw := kw) hk hshape
  rw [slack_eq] at hlen
  refine ⟨_, encode kw n, if zero then List.replicate (buf.length - 9 - (encode kw n).length) 0
    else buf.drop (9 + (encode kw n).length), ?_, rfl, ?_, ?_⟩
  · unfold serializePage
    rw [if_neg (by simp only [pageSizeOf] at hs; omega)]
    unfold serializeNode
    rw [hkeys]
    simp only [Bool.false_eq_true, if_false]
    rw [if_neg (by simp only [pageSizeOf] at hs; omega)]
    rfl
  · cases zero
    · simp
    · simp only [if_true]; intro b hb; exact (List.mem_replicate.mp hb).2
  · simp only [pageSizeOf, pageHeaderSize]; omega

/-- C23: a tracking page with a source name of more than 255 bytes, whose length does not fit the format's one byte, is
never written: the commit is refused instead. -/
theorem C23_key_too_long (kw : Nat) (buf : Bytes) (zero : Bool) (keys : List String) (rest : List Nat)
    (h : ∃ k ∈ keys, 255 < k.utf8ByteSize) :
    (∃ e, serializePage kw buf zero (.trackLeaf keys rest) = .error e) ∧
    ∃ e, serializePage kw buf zero (.trackInternal keys rest) = .error e := by
  obtain ⟨k, hk, hl⟩ := h
  have hany : (keys.any fun k => decide (k.utf8ByteSize > 255)) = true :=
    List.any_eq_true.mpr ⟨k, hk, by simpa using hl⟩
  constructor <;>
  · unfold serializePage serializeNode
    split
    · exact ⟨_, rfl⟩
    · simp only [keysTooLong, hany, if_true]
      exact ⟨_, rfl⟩

/-- A leaf with one tracked and one overflowed event. -/
def sampleLeaf : Node := .eventLeaf [7, 8]
  [.inline ⟨⟨"Paid", [1, 2], ["a:1"], some (Vector.replicate 16 9), [("k", "v")]⟩, some ⟨"up", 3⟩⟩,
   .overflow "Big" 9000 [] 42 none 0 none]

example : (serializePage 16 (List.replicate 128 5) true sampleLeaf).toOption.map (fun page =>
    (deserializePage 16 page, page.length)) = some (.ok sampleLeaf, 128) := by decide +kernel
example : trackedEvents sampleLeaf = 1 ∧ (encode 16 sampleLeaf).length + 2 = nodeSize 16 sampleLeaf := by decide +kernel
example : serializePage 16 (List.replicate 64 5) true sampleLeaf = .error (.io "failed to write whole buffer") := by
  decide +kernel

/-! ## C24: arbitrary bytes -/

/-- Length of the body recorded in a page. -/
def recordedLength (data : Bytes) : Nat := unle ((data.drop 5).take 4)

/-- C24: reading arbitrary bytes never panics; it fails only with a corruption or deserialization error. -/
theorem C24_no_panic (kw : Nat) (data : Bytes) (e : Err) (h : deserializePage kw data = .error e) :
    (∃ m, e = .databaseCorrupted m) ∨ ∃ m, e = .deserialization m := by
  unfold deserializePage at h
  split at h
  · cases h; exact .inl ⟨_, rfl⟩
  rename_i hlen
  have hlen : 9 ≤ data.length := by simpa [pageHeaderSize] using hlen
  have hs : ∀ i j, i ≤ j → j ≤ data.length → slice data i j = .ok ((data.drop i).take (j - i)) := by
    intro i j h1 h2; rw [slice, if_pos ⟨h1, h2⟩]
  rw [hs 0 1 (by omega) (by omega), hs 1 5 (by omega) (by omega), hs 5 9 (by omega) (by omega)] at h
  simp only [bind, Except.bind] at h
  split at h
  · cases h; exact .inl ⟨_, rfl⟩
  rename_i hb
  rw [hs _ _ (by omega) (by omega)] at h
  simp only at h
  split at h
  · cases h; exact .inl ⟨_, rfl⟩
  unfold decode at h
  split at h
  · cases h; exact .inl ⟨_, rfl⟩
  · rename_i r hr
    split at h
    · rename_i e' he
      cases h
      exact .inr (FailsCleanly.nodeReader hr _ _ he)
    · cases h

/-- C24: the result depends only on the nine header bytes and the recorded number of bytes after them; if these are not
all there the page is refused. -/
theorem C24_recorded_length (kw : Nat) (data : Bytes) :
    (data.length < 9 + recordedLength data → ∃ m, deserializePage kw data = .error (.databaseCorrupted m)) ∧
    ∀ data', 9 + recordedLength data ≤ data.length →
      data'.take (9 + recordedLength data) = data.take (9 + recordedLength data) →
      deserializePage kw data' = deserializePage kw data := by
  constructor
  · intro h
    unfold deserializePage
    split
    · exact ⟨_, rfl⟩
    rename_i hlen
    have hlen : 9 ≤ data.length := by simpa [pageHeaderSize] using hlen
    have hs : ∀ i j, i ≤ j → j ≤ data.length → slice data i j = .ok ((data.drop i).take (j - i)) := by
      intro i j h1 h2; rw [slice, if_pos ⟨h1, h2⟩]
    rw [hs 0 1 (by omega) (by omega), hs 1 5 (by omega) (by omega), hs 5 9 (by omega) (by omega)]
    simp only [bind, Except.bind]
    rw [if_pos (by simpa [pageHeaderSize, recordedLength] using h)]
    exact ⟨_, rfl⟩
  · intro data' hl ht
    generalize hL : recordedLength data = L at *
    have hl' : 9 + L ≤ data'.length := by
      have := congrArg List.length ht
      simp only [List.length_take] at this
      omega
    have key : ∀ i j, i ≤ j → j ≤ 9 + L → slice data' i j = slice data i j := by
      intro i j h1 h2
      rw [slice, slice, if_pos ⟨h1, by omega⟩, if_pos ⟨h1, by omega⟩]
      have e : ∀ d : Bytes, (d.drop i).take (j - i) = ((d.take (9 + L)).drop i).take (j - i) := by
        intro d
        rw [List.drop_take, List.take_take, Nat.min_eq_left (by omega)]
      rw [e data', e data, ht]
    unfold deserializePage
    rw [if_neg (by simp [pageHeaderSize]; omega), if_neg (by simp [pageHeaderSize]; omega), key 0 1 (by omega) (by omega),
      key 1 5 (by omega) (by omega), key 5 9 (by omega) (by omega)]
    have h5 : slice data 5 9 = .ok ((data.drop 5).take 4) := by rw [slice, if_pos ⟨by omega, by omega⟩]
    rw [h5]
    simp only [bind, Except.bind]
    have : unle ((data.drop 5).take 4) = L := hL
    simp only [this]
    rw [key pageHeaderSize (pageHeaderSize + L) (by omega) (by simp [pageHeaderSize])]
    have n1 : ¬ pageHeaderSize + L > data'.length := by simp only [pageHeaderSize]; omega
    have n2 : ¬ pageHeaderSize + L > data.length := by simp only [pageHeaderSize]; omega
    simp only [n1, n2, if_false]

/-- C24: a page that is accepted has its fields inside the recorded body, whose checksum is right; and except for headers
and overflow pages (which extend to the end of the body) what follows the node in the body does not matter. -/
theorem C24_fields_inside (kw : Nat) (data : Bytes) (n : Node) (h : deserializePage kw data = .ok n) :
    ∃ ty body, Framed data ty (crc32 body) body ∧ decode kw ty body = .ok n ∧
      (ty ≠ 0x31 → ty ≠ 0x61 → ∃ used junk, body = used ++ junk ∧ ∀ junk', decode kw ty (used ++ junk') = .ok n) := by
  obtain ⟨ty, crc, body, hf, hc, hd⟩ := framed_of_ok h
  subst hc
  refine ⟨ty, body, hf, hd, fun h1 h2 => ?_⟩
  unfold decode at hd ⊢
  cases hr : nodeReader kw ty with
  | none => rw [hr] at hd; cases hd
  | some r =>
    rw [hr] at hd
    simp only at hd ⊢
    cases hb : r body with
    | error e => rw [hb] at hd; cases hd
    | ok p =>
      obtain ⟨n', rest⟩ := p
      rw [hb] at hd
      simp only [Except.ok.injEq] at hd
      subst hd
      obtain ⟨used, he, hall⟩ := Local.nodeReader hr h1 h2 _ _ _ hb
      exact ⟨used, rest, he, fun junk' => by simp only [hall junk']⟩

example : deserializePage 16 [0x38, 1, 2] = .error (.databaseCorrupted "Page data too short") := by decide +kernel
example : deserializePage 16 [0x38, 0, 0, 0, 0, 200, 0, 0, 0, 1] = .error (.databaseCorrupted "Page data length mismatch") := by
  decide +kernel
example : recordedLength [0x38, 0, 0, 0, 0, 200, 1, 0, 0, 1] = 456 := by decide

/-! ## C25: checksums -/

/-- C25: altering up to four adjacent bytes of the body of a readable page makes it unreadable. -/
theorem C25_body_window {kw : Nat} {n : Node} {a w w' z : Bytes} (hok : deserializePage kw (a ++ w ++ z) = .ok n)
    (hl : w'.length = w.length) (h4 : w.length ≤ 4) (hne : w' ≠ w) (hstart : 9 ≤ a.length)
    (hend : a.length + w.length ≤ 9 + recordedLength (a ++ w ++ z)) :
    deserializePage kw (a ++ w' ++ z) = .error (.databaseCorrupted "CRC mismatch") := by
  obtain ⟨ty, crc, body, hf, hc, -⟩ := framed_of_ok hok
  subst hc
  obtain ⟨⟨tail, he⟩, h1, h2, h3⟩ := hf
  have hrec : recordedLength (a ++ w ++ z) = body.length := by
    have e : recordedLength (a ++ w ++ z) = unle (le 4 body.length) := by
      rw [he, recordedLength, ← List.append_assoc, List.drop_left' (by simp), List.take_left' (by simp)]
    rw [e, unle_le, Nat.mod_eq_of_lt (by simpa using h3)]
  rw [hrec] at hend
  -- the altered bytes lie inside the body
  have hhead : (le 1 ty ++ (le 4 (crc32 body) ++ le 4 body.length)).length = 9 := by simp
  generalize hH : le 1 ty ++ (le 4 (crc32 body) ++ le 4 body.length) = H at hhead
  have he' : a ++ (w ++ z) = H ++ (body ++ tail) := by
    rw [← hH, ← List.append_assoc, he]; simp [List.append_assoc]
  obtain ⟨b1, rfl⟩ : ∃ b1, a = H ++ b1 := by
    refine ⟨a.drop 9, ?_⟩
    have := congrArg (List.take 9) he'
    rw [List.take_append_of_le_length hstart, List.take_left' hhead] at this
    rw [← this, List.take_append_drop]
  have he2 : b1 ++ (w ++ z) = body ++ tail := by
    rw [List.append_assoc] at he'
    exact List.append_cancel_left he'
  have hb : b1.length + w.length ≤ body.length := by
    simp only [List.length_append, hhead] at hend; omega
  obtain ⟨b2, rfl⟩ : ∃ b2, body = b1 ++ w ++ b2 := by
    refine ⟨body.drop (b1.length + w.length), ?_⟩
    have := congrArg (List.take (b1.length + w.length)) he2
    rw [← List.append_assoc, List.take_left' (by simp), List.take_append_of_le_length hb] at this
    rw [this, List.take_append_drop]
  have hz : z = b2 ++ tail := by
    rw [← List.append_assoc, List.append_assoc (b1 ++ w)] at he2
    exact List.append_cancel_left he2
  have hfr : Framed (H ++ b1 ++ w' ++ z) ty (crc32 (b1 ++ w ++ b2)) (b1 ++ w' ++ b2) := by
    refine ⟨⟨tail, ?_⟩, h1, h2, by simp only [List.length_append] at h3 ⊢; omega⟩
    have : (b1 ++ w' ++ b2).length = (b1 ++ w ++ b2).length := by simp [hl]
    rw [this, ← hH, hz]
    simp [List.append_assoc]
  rw [deserialize_framed hfr, if_pos]
  intro hcrc
  exact hne (crc32_window b1 w' w b2 hl (by omega) hcrc)

/-- C25: so does altering the stored checksum itself. -/
theorem C25_checksum_field {kw : Nat} {n : Node} {ty : UInt8} {c c' z : Bytes}
    (hok : deserializePage kw (ty :: (c ++ z)) = .ok n) (hc : c.length = 4) (hc' : c'.length = 4) (hne : c' ≠ c) :
    deserializePage kw (ty :: (c' ++ z)) = .error (.databaseCorrupted "CRC mismatch") := by
  obtain ⟨t, crc, body, ⟨⟨tail, he⟩, h1, h2, h3⟩, hcrc, -⟩ := framed_of_ok hok
  have ht : le 1 t = [ty] := by
    have := congrArg (List.take 1) he
    rw [List.take_left' (by simp)] at this
    simpa using this.symm
  rw [ht] at he
  simp only [List.cons_append, List.nil_append, List.cons.injEq, true_and] at he
  have hcc : c = le 4 crc := by
    have := congrArg (List.take 4) he
    rwa [List.take_left' hc, List.take_left' (by simp)] at this
  subst hcc
  have hz := List.append_cancel_left he
  have hle : le 4 (unle c') = c' := by have := le_unle c'; rwa [hc'] at this
  have hfr : Framed (ty :: (c' ++ z)) t (unle c') body := by
    refine ⟨⟨tail, ?_⟩, h1, ?_, h3⟩
    · rw [hle, ht, hz]; rfl
    · have := unle_lt c'; rw [hc'] at this; exact this
  rw [deserialize_framed hfr, if_pos]
  intro hx
  apply hne
  rw [← hle, ← hx, hcrc]

/-- A page holding positions 5 and 6 of a tag, with one bit of a position flipped. -/
example : deserializePage 16 (le 1 0x38 ++ (le 4 (crc32 (le 2 2 ++ (le 8 5 ++ le 8 6))) ++ (le 4 18 ++
    (le 2 2 ++ (le 8 5 ++ le 8 6))))) = .ok (.tagLeaf [5, 6]) := by decide +kernel
example : deserializePage 16 (le 1 0x38 ++ (le 4 (crc32 (le 2 2 ++ (le 8 5 ++ le 8 6))) ++ (le 4 18 ++
    (le 2 2 ++ (le 8 7 ++ le 8 6))))) = .error (.databaseCorrupted "CRC mismatch") := by decide +kernel

/-- The type byte is not covered by the checksum: the same bytes under another type are accepted. -/
theorem C25_type_byte_false : ∃ z n m, n ≠ m ∧ deserializePage 16 ((0x38 : UInt8) :: z) = .ok n ∧
    deserializePage 16 (0x62 :: z) = .ok m :=
  ⟨le 4 (crc32 (le 2 1 ++ le 8 5)) ++ (le 4 10 ++ (le 2 1 ++ le 8 5)), .tagLeaf [5], .tsnLeaf [5], by decide,
    by decide +kernel, by decide +kernel⟩

/-! ## C43: older formats -/

/-- The header body before schema version and tracking: six numbers. -/
def oldHeader (tsn nextPage freeRoot eventsRoot tagsRoot nextPosition : Nat) : Bytes :=
  le 8 tsn ++ (le 8 nextPage ++ (le 8 freeRoot ++ (le 8 eventsRoot ++ (le 8 tagsRoot ++ le 8 nextPosition))))

/-- C43: an old header decodes with schema version 0 and no tracking tree. -/
theorem C43_old_header (kw : Nat) {tsn nextPage freeRoot eventsRoot tagsRoot nextPosition : Nat}
    (h1 : tsn < 2 ^ 64) (h2 : nextPage < 2 ^ 64) (h3 : freeRoot < 2 ^ 64) (h4 : eventsRoot < 2 ^ 64)
    (h5 : tagsRoot < 2 ^ 64) (h6 : nextPosition < 2 ^ 64) :
    decode kw 0x31 (oldHeader tsn nextPage freeRoot eventsRoot tagsRoot nextPosition) =
      .ok (.header ⟨tsn, freeRoot, eventsRoot, tagsRoot, nextPage, nextPosition, 0, 0⟩) := by
  have hr : nodeReader kw 0x31 = some (decHeader.bind fun h => Reader.pure (.header h)) := rfl
  have e6 := decodes_u64 (n := nextPosition) h6 []
  rw [List.append_nil] at e6
  have : decHeader (oldHeader tsn nextPage freeRoot eventsRoot tagsRoot nextPosition) =
      .ok (⟨tsn, freeRoot, eventsRoot, tagsRoot, nextPage, nextPosition, 0, 0⟩, []) := by
    simp only [decHeader, oldHeader, Reader.bind, decodes_u64 (n := tsn) h1 _, decodes_u64 (n := nextPage) h2 _,
      decodes_u64 (n := freeRoot) h3 _, decodes_u64 (n := eventsRoot) h4 _, decodes_u64 (n := tagsRoot) h5 _, e6]
    rw [ifRoom_none (by simp)]
    simp only
    rw [ifRoom_none (by simp)]
    simp only
    rw [if_neg (by omega)]
    have h0 : flagSet 0 0 = false := by decide
    simp only [h0, optionally, Reader.pure, Reader.bind, Bool.false_eq_true, if_false, Option.getD_none]
  simp only [decode, hr, Reader.bind, this, Reader.pure]

/-- C43: likewise the header with a schema version but without tracking. -/
theorem C43_schema_header (kw : Nat) {tsn nextPage freeRoot eventsRoot tagsRoot nextPosition schema : Nat}
    (h1 : tsn < 2 ^ 64) (h2 : nextPage < 2 ^ 64) (h3 : freeRoot < 2 ^ 64) (h4 : eventsRoot < 2 ^ 64)
    (h5 : tagsRoot < 2 ^ 64) (h6 : nextPosition < 2 ^ 64) (h7 : schema < 2 ^ 32) :
    decode kw 0x31 (oldHeader tsn nextPage freeRoot eventsRoot tagsRoot nextPosition ++ le 4 schema) =
      .ok (.header ⟨tsn, freeRoot, eventsRoot, tagsRoot, nextPage, nextPosition, schema, 0⟩) := by
  have hr : nodeReader kw 0x31 = some (decHeader.bind fun h => Reader.pure (.header h)) := rfl
  have he := decHeader_encHeader (h := ⟨tsn, freeRoot, eventsRoot, tagsRoot, nextPage, nextPosition, schema, 0⟩)
    ⟨h1, h2, h3, h4, h5, h6, h7, by unfold U64; simp only; omega⟩
  have : oldHeader tsn nextPage freeRoot eventsRoot tagsRoot nextPosition ++ le 4 schema =
      encHeader ⟨tsn, freeRoot, eventsRoot, tagsRoot, nextPage, nextPosition, schema, 0⟩ := by
    simp [oldHeader, encHeader, List.append_assoc]
  simp only [decode, hr, Reader.bind, this, he, Reader.pure]

/-- The old tracking page: version byte 0, 4-byte count, keys with 4-byte lengths in any order, values. -/
def oldTrackLeaf (pairs : List (String × Nat)) : Bytes :=
  le 1 0 ++ (le 4 pairs.length ++ ((pairs.flatMap fun p => le 4 p.1.utf8ByteSize ++ strBytes p.1) ++
    pairs.flatMap fun p => le 8 p.2))

theorem keyLe_trans (a b c : String × Nat) (h1 : keyLe a b) (h2 : keyLe b c) : keyLe a c := by
  simp only [keyLe, decide_eq_true_eq, String.not_lt] at *
  exact String.le_trans h1 h2

theorem keyLe_total (a b : String × Nat) : (keyLe a b || keyLe b a) = true := by
  simp only [keyLe, Bool.or_eq_true, decide_eq_true_eq, String.not_lt]
  exact String.le_total _ _

theorem decodes_narrow {m k n : Nat} (hn : n < 256 ^ k) (hm : n ≤ m) : Decodes (narrow m (readInt k)) (le k n) n := by
  have := (decodes_int hn).bind (f := fun n => if n > m then Reader.fail (.deserialization "v0 tracking leaf value too large")
    else Reader.pure n) (b := n) (bs' := []) (by rw [if_neg (by omega)]; exact Decodes.pure n)
  simpa [narrow] using this

/-- C43: an old tracking page decodes to the same pairs, sorted by key. -/
theorem C43_old_tracking (kw : Nat) (pairs : List (String × Nat)) (hc : pairs.length ≤ 65535)
    (hk : ∀ p ∈ pairs, p.1.utf8ByteSize ≤ 255) (hv : ∀ p ∈ pairs, p.2 < 2 ^ 64) :
    ∃ keys values, decode kw 0x64 (oldTrackLeaf pairs) = .ok (.trackLeaf keys values) ∧
      keys.length = values.length ∧ (keys.zip values).Perm pairs ∧ keys.Pairwise (· ≤ ·) := by
  have hkeys : Decodes (readMany ((narrow 255 (readInt 4)).bind readString) pairs.length)
      (pairs.flatMap fun p => le 4 p.1.utf8ByteSize ++ strBytes p.1) (pairs.map (·.1)) := by
    have := decodes_many' (r := (narrow 255 (readInt 4)).bind readString) (n := pairs.length)
      (enc := fun s => le 4 s.utf8ByteSize ++ strBytes s) (l := pairs.map (·.1)) (by simp) (by
        intro s hs
        obtain ⟨p, hp, rfl⟩ := List.mem_map.mp hs
        have h255 := hk p hp
        exact (decodes_narrow (by simp; omega) h255).bind (decodes_string _))
    rwa [List.flatMap_map] at this
  have hvals : Decodes (decInts pairs.length) (pairs.flatMap fun p => le 8 p.2) (pairs.map (·.2)) := by
    have := decodes_ints (l := pairs.map (·.2)) (n := pairs.length) (by
      intro v hv'
      obtain ⟨p, hp, rfl⟩ := List.mem_map.mp hv'
      exact hv p hp) (by simp)
    rwa [ints, List.flatMap_map] at this
  let sorted := pairs.mergeSort keyLe
  have hz : (pairs.map (·.1)).zip (pairs.map (·.2)) = pairs := by
    rw [← List.unzip_fst, ← List.unzip_snd]; exact List.zip_unzip pairs
  refine ⟨sorted.map (·.1), sorted.map (·.2), ?_, by simp, ?_, ?_⟩
  · refine decode_of_decodes (r := decTrackLeaf) rfl ?_
    refine (decodes_int (n := 0) (by decide)).bind ?_
    simp only [if_true]
    refine (decodes_narrow (by simp; omega) hc).bind (hkeys.bind ?_)
    have := hvals.last fun values => Node.trackLeaf ((((pairs.map (·.1)).zip values).mergeSort keyLe).map (·.1))
      ((((pairs.map (·.1)).zip values).mergeSort keyLe).map (·.2))
    rw [hz] at this
    exact this
  · rw [← List.unzip_fst, ← List.unzip_snd, List.zip_unzip]
    exact List.mergeSort_perm _ _
  · have := List.pairwise_mergeSort keyLe_trans keyLe_total pairs
    rw [List.pairwise_map]
    refine this.imp ?_
    intro a b h
    simpa only [keyLe, decide_eq_true_eq, String.not_lt] using h

/-- C43: with the old key width of 8 the old hash of a tag is written and read back without loss (as is the new one with
width 16), so that index pages of either width round trip (`C23_roundtrip`). -/
theorem C43_tag_hash (v5 : String → Uuid) (tag : String) {kw : Nat} (hk : kw = 16 ∨ kw = 8) (rest : Bytes) :
    readTagHash kw ((be 16 (tagHash v5 kw tag)).take kw ++ rest) = .ok (tagHash v5 kw tag, rest) :=
  decodes_tagHash (by omega) (tagHash_normalized v5 hk tag) rest

theorem be_unbe (bs : Bytes) : be bs.length (unbe bs) = bs := by
  unfold be unbe
  have := le_unle bs.reverse
  rw [List.length_reverse] at this
  rw [this, List.reverse_reverse]

theorem le_split (k m a b : Nat) (hb : b < 256 ^ k) : le (k + m) (a * 256 ^ k + b) = le k b ++ le m a := by
  induction k generalizing b with
  | zero =>
    have : b = 0 := by simpa using hb
    subst this
    simp [le]
  | succ k ih =>
    have e : (a * 256 ^ (k + 1) + b) / 256 = a * 256 ^ k + b / 256 := by
      rw [Nat.pow_succ, ← Nat.mul_assoc, Nat.mul_comm _ 256, Nat.mul_add_div (by decide)]
    have hm : (a * 256 ^ (k + 1) + b) % 256 = b % 256 := by
      rw [Nat.pow_succ, ← Nat.mul_assoc, Nat.mul_comm _ 256, Nat.mul_add_mod]
    rw [show k + 1 + m = (k + m) + 1 by omega]
    simp only [le, List.cons_append]
    rw [e, ih _ (by rw [Nat.pow_succ] at hb; omega)]
    congr 1
    rw [← UInt8.toNat_inj]
    simpa using hm

/-- C43: which hash a database uses: with keys of 16 bytes the UUID v5 of the tag; with keys of 8 bytes the CRC-32 of the tag with a
salt appended followed by the CRC-32 of the tag. -/
theorem C43_which_hash (v5 : String → Uuid) (tag : String) :
    be 16 (tagHash v5 16 tag) = (v5 tag).toArray.toList ∧
    (be 16 (tagHash v5 8 tag)).take 8 =
      le 4 (crc32 (strBytes tag ++ [0x9E, 0x37, 0x79, 0xB9])) ++ le 4 (crc32 (strBytes tag)) := by
  constructor
  · have h := be_unbe (v5 tag).toArray.toList
    have hl : (v5 tag).toArray.toList.length = 16 := by simp
    rw [hl] at h
    exact h
  · have h : ∀ bs : Bytes, bs.length = 8 → (be 16 (unbe (bs ++ List.replicate 8 0))).take 8 = bs := fun bs hl => by
      have h := be_unbe (bs ++ List.replicate 8 0)
      rw [List.length_append, hl, List.length_replicate] at h
      rw [h, List.take_left' hl]
    exact (h _ (by simp)).trans (le_split 4 4 _ _ (crc32_lt _))

/-- The old hash fills eight bytes but distinguishes no more tags than a plain CRC-32: the second half is the CRC of the
tag followed by a fixed salt, which is a function of the CRC of the tag (finding 21). -/
theorem crc64_collides {a b : String} (h : crc32 (strBytes a) = crc32 (strBytes b)) : tagHashCrc64 a = tagHashCrc64 b := by
  have hs : crcLoop crcMask (strBytes a) = crcLoop crcMask (strBytes b) := by
    unfold crc32 at h
    have := congrArg (· ^^^ crcMask) h
    simpa [Nat.xor_assoc] using this
  have h2 : crc32 (strBytes a ++ hashSalt) = crc32 (strBytes b ++ hashSalt) := by
    unfold crc32 crcLoop at *
    rw [List.foldl_append, List.foldl_append, hs]
  rw [tagHashCrc64, tagHashCrc64, h, h2]

/-- Two different tags with the same CRC-32. -/
example : crc32 (strBytes "plumless") = crc32 (strBytes "buckeroo") ∧ "plumless" ≠ "buckeroo" := by decide +kernel

/-- Value of the old hash, from an independent implementation of CRC-32. -/
example : (be 16 (tagHashCrc64 "user:123")).map UInt8.toNat =
    [168, 9, 182, 204, 104, 5, 166, 111, 0, 0, 0, 0, 0, 0, 0, 0] := by decide +kernel

example : ∃ keys values, decode 16 0x64 (oldTrackLeaf [("b", 2), ("a", 1)]) = .ok (.trackLeaf keys values) ∧
    keys.length = values.length ∧ (keys.zip values).Perm [("b", 2), ("a", 1)] ∧ keys.Pairwise (· ≤ ·) :=
  C43_old_tracking 16 [("b", 2), ("a", 1)] (by decide) (by decide) (by decide)
example : decode 8 0x31 (oldHeader 9 70 2 3 4 1000) = .ok (.header ⟨9, 2, 3, 4, 70, 1000, 0, 0⟩) := by decide +kernel

/-! ## C26: validation -/

/-- The metadata limits: at most 65535 entries, distinct keys, keys and values of at most 65535 bytes. -/
def MetadataOk (m : List (String × String)) : Prop :=
  m.length ≤ 65535 ∧ (m.map (·.1)).Nodup ∧ ∀ e ∈ m, e.1.utf8ByteSize ≤ 65535 ∧ e.2.utf8ByteSize ≤ 65535

/-- Bytes an event takes in a leaf page of its own when its data and metadata are stored elsewhere. -/
def bareSize (r : Record) : Nat := 9 + 2 + 8 + 1 + (2 + r.event.eventType.utf8ByteSize) + 8 +
  (2 + (r.event.tags.map fun t => 2 + t.utf8ByteSize).sum) + 8 + (if r.event.uuid.isSome then 16 else 0) +
  (if r.event.metadata.isEmpty then 0 else 8) + (match r.tracking with | none => 0 | some t => 12 + t.source.utf8ByteSize)

theorem bareSize_eq (r : Record) : bareSize r = 19 + valueSize (overflowStub r) := by
  simp only [bareSize, overflowStub, valueSize, tagsSize]
  have : (match r.tracking with | none => 0 | some t => 12 + t.source.utf8ByteSize) = trackingSize r.tracking := by
    cases r.tracking <;> simp only [trackingSize]; omega
  rw [this]
  by_cases h : r.event.metadata.isEmpty
  · simp only [h, if_true]; simp; omega
  · simp only [h, Bool.false_eq_true, if_false]; simp; omega

/-- C26: exactly the events are accepted that have at most 65535 tags, admissible metadata, and fit a page either whole
or without data and metadata; the others are refused as invalid arguments. -/
theorem C26_validation (pageSize : Nat) (r : Record) :
    ((∃ v, validateEvent pageSize r = .ok v) ↔ r.event.tags.length ≤ 65535 ∧ MetadataOk r.event.metadata ∧
      (pageSizeOf 16 (.eventLeaf [0] [.inline r]) ≤ pageSize ∨ bareSize r ≤ pageSize)) ∧
    ∀ e, validateEvent pageSize r = .error e → ∃ m, e = .invalidArgument m := by
  have hm : MetadataOk r.event.metadata ↔ validateMetadata r.event.metadata = .ok () := (validateMetadata_ok _).symm
  have h1 : pageSizeOf 16 (.eventLeaf [0] [.inline r]) = 10 + valueSize (.inline r) + 9 := by
    simp [pageSizeOf, nodeSize, pageHeaderSize]; omega
  rw [validateEvent_cases, hm, bareSize_eq, h1]
  by_cases ht : r.event.tags.length > 65535
  · rw [if_pos ht]
    refine ⟨⟨(by rintro ⟨v, h⟩; cases h), fun h => by omega⟩, fun e h => by cases h; exact ⟨_, rfl⟩⟩
  · rw [if_neg ht]
    cases hv : validateMetadata r.event.metadata with
    | error e =>
      refine ⟨⟨(by rintro ⟨v, h⟩; cases h), fun h => (by cases h.2.1)⟩, fun e' h => ?_⟩
      cases h
      exact validateMetadata_error _ _ hv
    | ok u =>
      simp only
      by_cases hi : 10 + valueSize (.inline r) + 9 ≤ pageSize
      · rw [if_pos hi]
        exact ⟨⟨fun _ => ⟨by omega, trivial, .inl hi⟩, fun _ => ⟨_, rfl⟩⟩, fun e h => by cases h⟩
      · rw [if_neg hi]
        by_cases ho : 10 + valueSize (overflowStub r) + 9 ≤ pageSize
        · rw [if_pos ho]
          exact ⟨⟨fun _ => ⟨by omega, trivial, .inr (by omega)⟩, fun _ => ⟨_, rfl⟩⟩, fun e h => by cases h⟩
        · rw [if_neg ho]
          refine ⟨⟨(by rintro ⟨v, h⟩; cases h), fun h => ?_⟩, fun e h => by cases h; exact ⟨_, rfl⟩⟩
          rcases h.2.2 with h | h <;> omega

/-- C26: for page sizes up to 64 KiB an accepted event fits the field widths of the format, inline or out of line
whatever the chain root, and a leaf page holding just it can be written to a page. -/
theorem C26_accepted_fits {pageSize : Nat} (hp : pageSize ≤ 65536) {r : Record} {kw : Nat} (hk : kw ≤ 16)
    (ht : ∀ t ∈ r.tracking, t.position < 2 ^ 64) (hd : r.event.data.length < 2 ^ 64)
    (hmd : metadataSize r.event.metadata < 2 ^ 64)
    {inl : EventValue} {sz : Nat} {ovf : Option (EventValue × Nat)} (h : validateEvent pageSize r = .ok ((inl, sz), ovf)) :
    inl = .inline r ∧
    (ovf = none → ∀ pos < 2 ^ 64, NodeFits kw (.eventLeaf [pos] [.inline r]) ∧
      ∀ buf zero, buf.length = pageSize → ∃ page, serializePage kw buf zero (.eventLeaf [pos] [.inline r]) = .ok page) ∧
    (ovf ≠ none → ∀ pos < 2 ^ 64, ∀ root < 2 ^ 64, NodeFits kw (.eventLeaf [pos] [overflowValue r root]) ∧
      ∀ buf zero, buf.length = pageSize →
        ∃ page, serializePage kw buf zero (.eventLeaf [pos] [overflowValue r root]) = .ok page) := by
  rw [validateEvent_cases] at h
  split at h
  · cases h
  rename_i htags
  split at h
  · cases h
  rename_i hm
  have leaf : ∀ v pos, pos < 2 ^ 64 → ValueFits v → NodeFits kw (.eventLeaf [pos] [v]) := by
    intro v pos hpos hv
    refine ⟨by unfold U16; simp, rfl, by intro n hn; simp at hn; subst hn; exact hpos, by intro x hx; simp at hx; subst hx; exact hv⟩
  split at h
  · rename_i hs
    simp only [Except.ok.injEq, Prod.mk.injEq] at h
    obtain ⟨⟨rfl, rfl⟩, rfl⟩ := h
    refine ⟨rfl, fun _ pos hpos => ⟨leaf _ _ hpos (inline_fits hp (by omega) (by omega) hm ht), fun buf zero hb => ?_⟩,
      fun h => absurd rfl h⟩
    exact serialize_ok hk trivial rfl (by simp [pageSizeOf, nodeSize, pageHeaderSize]; omega)
  · split at h
    · rename_i hs
      simp only [Except.ok.injEq, Prod.mk.injEq] at h
      obtain ⟨⟨rfl, rfl⟩, rfl⟩ := h
      refine ⟨rfl, fun h => (nomatch h), fun _ pos hpos root hr =>
        ⟨leaf _ _ hpos (overflow_fits hp (by omega) (by omega) ht hd hr hmd), fun buf zero hb => ?_⟩⟩
      refine serialize_ok hk trivial rfl ?_
      simp only [pageSizeOf, nodeSize, pageHeaderSize, List.map_cons, List.map_nil, List.sum_cons, List.sum_nil,
        overflow_size, List.length_cons, List.length_nil]
      omega
    · cases h

/-- An event of 300 bytes goes out of line on a page of 128 bytes; its type alone may be too large. -/
def sampleBig (et : String) : Record := ⟨⟨et, List.replicate 300 1, ["x"], none, [("k", "v")]⟩, none⟩
example : validateEvent 128 (sampleBig "T") =
    .ok ((.inline (sampleBig "T"), 327), some (.overflow "T" 300 ["x"] 0 none 1 none, 41)) := by decide +kernel
example : validateEvent 512 (sampleBig "T") = .ok ((.inline (sampleBig "T"), 327), none) := by decide +kernel
example : validateEvent 64 (sampleBig (String.ofList (List.replicate 40 'x'))) =
    .error (.invalidArgument "event too large for page size") := by decide +kernel

end Uma.Props
