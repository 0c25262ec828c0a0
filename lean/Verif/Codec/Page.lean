import Verif.Codec.Node
import Verif.Codec.Crc

/-!
# Pages as bytes

`serialize_page_into` and `Page::deserialize`, umadb-core/src/page.rs 42-80 and 204-234.
Page layout: type (1 byte), CRC-32 of the body (4), body length (4), body.
-/

namespace Uma.Codec

/-- `serialize_page_into`: `buf` is the buffer with whatever it held before; the unused tail is zeroed on request. -/
def serializePage (kw : Nat) (buf : Bytes) (zeroFill : Bool) (n : Node) : Except Err Bytes :=
  if buf.length < pageHeaderSize then .error (.panic "range start index 9 out of range for slice")
  else
    match serializeNode kw (buf.length - pageHeaderSize) n with
    | .error e => .error e
    | .ok body =>
      let tail := if zeroFill then List.replicate (buf.length - pageHeaderSize - body.length) 0
        else buf.drop (pageHeaderSize + body.length)
      .ok (le 1 (typeByte n) ++ (le 4 (crc32 body) ++ (le 4 body.length ++ (body ++ tail))))

/-- Rust slicing `data[a..b]`: out of bounds panics. -/
def slice (data : Bytes) (a b : Nat) : Except Err Bytes :=
  if a ≤ b ∧ b ≤ data.length then .ok ((data.drop a).take (b - a)) else .error (.panic "slice index out of range")

/-- `Page::deserialize`. -/
def deserializePage (kw : Nat) (data : Bytes) : Except Err Node :=
  if data.length < pageHeaderSize then .error (.databaseCorrupted "Page data too short")
  else do
    let ty ← slice data 0 1
    let crc ← slice data 1 5
    let len ← slice data 5 9
    if pageHeaderSize + unle len > data.length then .error (.databaseCorrupted "Page data length mismatch")
    else
      let body ← slice data pageHeaderSize (pageHeaderSize + unle len)
      if crc32 body ≠ unle crc then .error (.databaseCorrupted "CRC mismatch")
      else decode kw (unle ty) body

/-- The recorded body of a page, if there is one: what `deserialize` looks at. -/
structure Framed (data : Bytes) (ty crc : Nat) (body : Bytes) : Prop where
  split : ∃ tail, data = le 1 ty ++ (le 4 crc ++ (le 4 body.length ++ (body ++ tail)))
  ty : ty < 256
  crc : crc < 2 ^ 32
  len : body.length < 2 ^ 32

theorem slice_append {a b c : Bytes} {i j : Nat} (hi : a.length = i) (hj : i + b.length = j) :
    slice (a ++ (b ++ c)) i j = .ok b := by
  subst hi; subst hj
  simp [slice]

/-- `deserialize` on a framed page. -/
theorem deserialize_framed {kw : Nat} {data : Bytes} {ty crc : Nat} {body : Bytes} (h : Framed data ty crc body) :
    deserializePage kw data =
      if crc32 body ≠ crc then .error (.databaseCorrupted "CRC mismatch") else decode kw ty body := by
  obtain ⟨⟨tail, rfl⟩, h1, h2, h3⟩ := h
  unfold deserializePage
  rw [if_neg (by simp [pageHeaderSize]; omega)]
  have e1 : slice (le 1 ty ++ (le 4 crc ++ (le 4 body.length ++ (body ++ tail)))) 0 1 = .ok (le 1 ty) := by
    have := slice_append (a := []) (b := le 1 ty) (c := le 4 crc ++ (le 4 body.length ++ (body ++ tail))) (i := 0) (j := 1)
      rfl (by simp)
    simpa using this
  have e2 : slice (le 1 ty ++ (le 4 crc ++ (le 4 body.length ++ (body ++ tail)))) 1 5 = .ok (le 4 crc) :=
    slice_append (by simp) (by simp)
  have e3 : slice (le 1 ty ++ (le 4 crc ++ (le 4 body.length ++ (body ++ tail)))) 5 9 = .ok (le 4 body.length) := by
    rw [← List.append_assoc]
    exact slice_append (by simp) (by simp)
  have hl : unle (le 4 body.length) = body.length := by
    rw [unle_le, Nat.mod_eq_of_lt (by simpa using h3)]
  have hc : unle (le 4 crc) = crc := by rw [unle_le, Nat.mod_eq_of_lt (by simpa using h2)]
  have ht : unle (le 1 ty) = ty := by rw [unle_le, Nat.mod_eq_of_lt (by simpa using h1)]
  have e4 : slice (le 1 ty ++ (le 4 crc ++ (le 4 body.length ++ (body ++ tail)))) pageHeaderSize
      (pageHeaderSize + body.length) = .ok body := by
    rw [← List.append_assoc, ← List.append_assoc]
    exact slice_append (by simp [pageHeaderSize]) rfl
  simp only [e1, e2, e3, bind, Except.bind, hl]
  rw [if_neg (by simp [pageHeaderSize]; omega), e4]
  simp only [hc, ht]

/-- Anything that deserializes is framed. -/
theorem framed_of_ok {kw : Nat} {data : Bytes} {n : Node} (h : deserializePage kw data = .ok n) :
    ∃ ty crc body, Framed data ty crc body ∧ crc32 body = crc ∧ decode kw ty body = .ok n := by
  unfold deserializePage at h
  split at h
  · cases h
  rename_i hlen
  have hlen : 9 ≤ data.length := by simpa [pageHeaderSize] using hlen
  have hs : ∀ i j, i ≤ j → j ≤ data.length → slice data i j = .ok ((data.drop i).take (j - i)) := by
    intro i j h1 h2; rw [slice, if_pos ⟨h1, h2⟩]
  rw [hs 0 1 (by omega) (by omega), hs 1 5 (by omega) (by omega), hs 5 9 (by omega) (by omega)] at h
  simp only [bind, Except.bind] at h
  split at h
  · cases h
  rename_i hb
  rw [hs _ _ (by omega) (by omega)] at h
  simp only at h
  split at h
  · cases h
  rename_i hcrc
  simp only [Nat.add_sub_cancel_left] at h hcrc
  generalize hL : unle (List.take (9 - 5) (List.drop 5 data)) = L at *
  refine ⟨_, unle ((data.drop 1).take (5 - 1)), _, ⟨⟨data.drop (9 + L), ?_⟩, ?_, ?_, ?_⟩, ?_, h⟩
  · have hbl : ((data.drop pageHeaderSize).take L).length = L := by simp [pageHeaderSize] at hb ⊢; omega
    have d1 : le 1 (unle ((data.drop 0).take (1 - 0))) = (data.drop 0).take (1 - 0) := by
      have : ((data.drop 0).take (1 - 0)).length = 1 := by simp; omega
      have h' := le_unle ((data.drop 0).take (1 - 0))
      rwa [this] at h'
    have d2 : le 4 (unle ((data.drop 1).take (5 - 1))) = (data.drop 1).take (5 - 1) := by
      have : ((data.drop 1).take (5 - 1)).length = 4 := by simp; omega
      conv => lhs; rw [← this]
      exact le_unle _
    have d3 : le 4 L = (data.drop 5).take (9 - 5) := by
      have : ((data.drop 5).take (9 - 5)).length = 4 := by simp; omega
      conv => lhs; rw [← this, ← hL]
      exact le_unle _
    rw [hbl, d1, d2, d3]
    have k1 : (data.drop pageHeaderSize).take L ++ data.drop (9 + L) = data.drop 9 := by
      rw [← List.drop_drop]; exact List.take_append_drop _ _
    have k2 : (data.drop 5).take (9 - 5) ++ data.drop 9 = data.drop 5 := by
      rw [show 9 = 5 + 4 by rfl, ← List.drop_drop]; exact List.take_append_drop _ _
    have k3 : (data.drop 1).take (5 - 1) ++ data.drop 5 = data.drop 1 := by
      rw [show 5 = 1 + 4 by rfl, ← List.drop_drop]; exact List.take_append_drop _ _
    rw [k1, k2, k3]
    exact (List.take_append_drop 1 data).symm
  · refine Nat.lt_of_lt_of_le (unle_lt _) ?_
    have : ((data.drop 0).take (1 - 0)).length = 1 := by simp; omega
    rw [this]; decide
  · refine Nat.lt_of_lt_of_le (unle_lt _) ?_
    have : ((data.drop 1).take (5 - 1)).length = 4 := by simp; omega
    rw [this]; decide
  · have h1 : ((data.drop 5).take (9 - 5)).length = 4 := by simp; omega
    have h2 := unle_lt ((data.drop 5).take (9 - 5))
    rw [h1, hL] at h2
    simp only [List.length_take, List.length_drop]
    have : (256 : Nat) ^ 4 = 2 ^ 32 := by decide
    omega
  · simpa using hcrc

end Uma.Codec
