import Verif.Spec.Types

/-!
# Reading and writing bytes

`SliceReader`, umadb-core/src/slice_reader.rs; `to_le_bytes`/`from_le_bytes` and `as u16` of the Rust standard library.
A byte string is a list; a reader takes what is left of the slice and returns a value and the new rest.
-/

namespace Uma.Codec

abbrev Bytes := List UInt8

/-- `n.to_le_bytes()` of a `k`-byte integer; larger `n` are truncated, as by `as u16`. -/
def le : (k : Nat) → (n : Nat) → Bytes
  | 0, _ => []
  | k + 1, n => UInt8.ofNat n :: le k (n / 256)

/-- `from_le_bytes`. -/
def unle : Bytes → Nat
  | [] => 0
  | b :: bs => b.toNat + 256 * unle bs

/-- A value as `k` bytes, most significant first (tag hashes are byte arrays compared from the left). -/
def be (k n : Nat) : Bytes := (le k n).reverse

def unbe (bs : Bytes) : Nat := unle bs.reverse

/-- UTF-8 bytes of a string (`as_bytes`). -/
def strBytes (s : String) : Bytes := s.toByteArray.data.toList

/-- `std::str::from_utf8`. -/
def bytesStr (bs : Bytes) : Option String := String.fromUTF8? ⟨bs.toArray⟩

/-! ## Reader -/

def Reader (α : Type) := Bytes → Except Err (α × Bytes)

namespace Reader

def pure {α} (a : α) : Reader α := fun bs => .ok (a, bs)

def bind {α β} (r : Reader α) (f : α → Reader β) : Reader β := fun bs =>
  match r bs with
  | .error e => .error e
  | .ok (a, rest) => f a rest

def fail {α} (e : Err) : Reader α := fun _ => .error e

instance : Monad Reader where
  pure := pure
  bind := bind

end Reader

/-- `read_bytes`, slice_reader.rs 17-28. -/
def readBytes (n : Nat) : Reader Bytes := fun bs =>
  if bs.length < n then .error (.deserialization "Unexpected end of data")
  else .ok (bs.take n, bs.drop n)

/-- `read_u8`, `read_u16`, `read_u32`, `read_u64` (and the new-types over `u64`), slice_reader.rs 30-64. -/
def readInt (k : Nat) : Reader Nat := Reader.bind (readBytes k) fun b => Reader.pure (unle b)

/-- `read_uuid`, 50-54: sixteen bytes always make a UUID. -/
def readUuid : Reader Uuid := Reader.bind (readBytes 16) fun b =>
  if h : b.toArray.size = 16 then Reader.pure ⟨b.toArray, h⟩ else Reader.fail (.deserialization "Invalid UUID sequence")

/-- `read_string`, 67-78. -/
def readString (n : Nat) : Reader String := Reader.bind (readBytes n) fun b =>
  match bytesStr b with
  | some s => Reader.pure s
  | none => Reader.fail (.deserialization "Invalid UTF-8 sequence")

/-- `read_tag_hash`, 81-91: `kw` bytes, padded with zeros to 16. -/
def readTagHash (kw : Nat) : Reader Nat := Reader.bind (readBytes kw) fun b =>
  Reader.pure (unbe (b ++ List.replicate (16 - kw) 0))

/-- `remaining`, 94-96. -/
def remaining : Reader Nat := fun bs => .ok (bs.length, bs)

/-- The loops `for _ in 0..n { v.push(reader.…) }`. -/
def readMany {α} (r : Reader α) : Nat → Reader (List α)
  | 0 => Reader.pure []
  | n + 1 => Reader.bind r fun a => Reader.bind (readMany r n) fun as => Reader.pure (a :: as)

/-! ## Round trips -/

/-- The reader reads exactly `bs` as `a`, whatever follows. -/
def Decodes {α} (r : Reader α) (bs : Bytes) (a : α) : Prop := ∀ rest, r (bs ++ rest) = .ok (a, rest)

theorem Decodes.pure {α} (a : α) : Decodes (Reader.pure a) [] a := fun _ => rfl

theorem Decodes.bind {α β} {r : Reader α} {f : α → Reader β} {bs bs' : Bytes} {a : α} {b : β} (h : Decodes r bs a)
    (h' : Decodes (f a) bs' b) : Decodes (Reader.bind r f) (bs ++ bs') b := by
  intro rest
  rw [List.append_assoc, Reader.bind, h]
  exact h' rest

theorem Decodes.of_eq {α} {r : Reader α} {bs bs' : Bytes} {a : α} (h : Decodes r bs a) (he : bs' = bs) :
    Decodes r bs' a := he ▸ h

@[simp] theorem le_length (k n : Nat) : (le k n).length = k := by
  induction k generalizing n with
  | zero => rfl
  | succ k ih => simp [le, ih]

theorem unle_le (k n : Nat) : unle (le k n) = n % 256 ^ k := by
  induction k generalizing n with
  | zero => simp [le, unle, Nat.mod_one]
  | succ k ih =>
    have : (UInt8.ofNat n).toNat = n % 256 := rfl
    simp only [le, unle, ih, this]
    rw [Nat.pow_succ, Nat.mul_comm (256 ^ k), Nat.mod_mul]

theorem unle_lt (bs : Bytes) : unle bs < 256 ^ bs.length := by
  induction bs with
  | nil => simp [unle]
  | cons b bs ih =>
    have : b.toNat < 256 := b.toNat_lt
    simp only [unle, List.length_cons, Nat.pow_succ]
    omega

theorem le_unle (bs : Bytes) : le bs.length (unle bs) = bs := by
  induction bs with
  | nil => rfl
  | cons b bs ih =>
    have hb : b.toNat < 256 := b.toNat_lt
    simp only [unle, List.length_cons, le]
    congr 1
    · apply UInt8.toNat_inj.mp
      show (b.toNat + 256 * unle bs) % 256 = b.toNat
      omega
    · have : (b.toNat + 256 * unle bs) / 256 = unle bs := by omega
      rw [this, ih]

theorem unle_append (a b : Bytes) : unle (a ++ b) = unle a + 256 ^ a.length * unle b := by
  induction a with
  | nil => simp [unle]
  | cons x a ih =>
    simp only [List.cons_append, unle, ih, List.length_cons, Nat.pow_succ]
    rw [Nat.mul_add, Nat.mul_comm (256 ^ a.length) 256, Nat.mul_assoc]
    omega

theorem unle_replicate_zero (n : Nat) : unle (List.replicate n 0) = 0 := by
  induction n with
  | zero => rfl
  | succ n ih => simp [List.replicate_succ, unle, ih]

theorem decodes_bytes (b : Bytes) : Decodes (readBytes b.length) b b := by
  intro rest
  simp [readBytes]

theorem decodes_bytes' {n : Nat} {b : Bytes} (h : b.length = n) : Decodes (readBytes n) b b := h ▸ decodes_bytes b

theorem decodes_int {k n : Nat} (h : n < 256 ^ k) : Decodes (readInt k) (le k n) n := by
  intro rest
  have := decodes_bytes' (le_length k n) rest
  simp only [readInt, Reader.bind, this, Reader.pure, unle_le, Nat.mod_eq_of_lt h]

theorem bytesStr_strBytes (s : String) : bytesStr (strBytes s) = some s := by
  have : (⟨(strBytes s).toArray⟩ : ByteArray) = s.toByteArray := by simp [strBytes]
  simp only [bytesStr, this, String.fromUTF8?]
  have hv : s.toByteArray.IsValidUTF8 := s.isValidUTF8
  rw [dif_pos hv]
  rfl

@[simp] theorem strBytes_length (s : String) : (strBytes s).length = s.utf8ByteSize := by
  rw [strBytes, Array.length_toList]
  rfl

theorem strBytes_injective {s t : String} (h : strBytes s = strBytes t) : s = t := by
  have := congrArg bytesStr h
  simpa [bytesStr_strBytes] using this

theorem decodes_string (s : String) : Decodes (readString s.utf8ByteSize) (strBytes s) s := by
  intro rest
  have := decodes_bytes' (strBytes_length s) rest
  simp only [readString, Reader.bind, this, bytesStr_strBytes, Reader.pure]

theorem decodes_uuid (u : Uuid) : Decodes readUuid u.toArray.toList u := by
  intro rest
  have hl : u.toArray.toList.length = 16 := by simp
  have := decodes_bytes' hl rest
  simp only [readUuid, Reader.bind, this]
  rw [dif_pos (by simp)]
  simp [Reader.pure]

theorem be_length (k n : Nat) : (be k n).length = k := by simp [be]

theorem unbe_be (k n : Nat) : unbe (be k n) = n % 256 ^ k := by simp [unbe, be, unle_le]

/-- Lower bytes cut off by a smaller key width are zero. -/
def NormalizedTo (kw h : Nat) : Prop := h < 256 ^ 16 ∧ h % 256 ^ (16 - kw) = 0

theorem le_zero_prefix (j : Nat) : ∀ k n, n % 256 ^ j = 0 → le (j + k) n = List.replicate j 0 ++ le k (n / 256 ^ j) := by
  induction j with
  | zero => intro k n _; simp
  | succ j ih =>
    intro k n h
    rw [show j + 1 + k = (j + k) + 1 by omega, le, List.replicate_succ, List.cons_append]
    have h1 : n % 256 = 0 := by
      have : n % 256 ^ (j + 1) % 256 = n % 256 := Nat.mod_mod_of_dvd _ (⟨256 ^ j, by rw [Nat.pow_succ, Nat.mul_comm]⟩)
      rw [h] at this; simpa using this.symm
    have h2 : n / 256 % 256 ^ j = 0 := by
      have := Nat.mod_mul (x := n) (a := 256) (b := 256 ^ j)
      rw [Nat.pow_succ, Nat.mul_comm] at h
      rw [h, h1] at this
      omega
    congr 1
    · apply UInt8.toNat_inj.mp; exact h1
    · rw [ih k _ h2, Nat.div_div_eq_div_mul, Nat.pow_succ, Nat.mul_comm 256]

theorem be_take {kw h : Nat} (hk : kw ≤ 16) (hn : NormalizedTo kw h) :
    (be 16 h).take kw ++ List.replicate (16 - kw) 0 = be 16 h := by
  have h16 : 16 = (16 - kw) + kw := by omega
  have := le_zero_prefix (16 - kw) kw h hn.2
  rw [← h16] at this
  have h2 : be 16 h = (le kw (h / 256 ^ (16 - kw))).reverse ++ List.replicate (16 - kw) 0 := by
    rw [be, this, List.reverse_append, List.reverse_replicate]
  rw [h2, List.take_left' (by simp)]

theorem decodes_tagHash {kw h : Nat} (hk : kw ≤ 16) (hn : NormalizedTo kw h) :
    Decodes (readTagHash kw) ((be 16 h).take kw) h := by
  intro rest
  have hl : ((be 16 h).take kw).length = kw := by simp [be_length]; omega
  have := decodes_bytes' hl rest
  simp only [readTagHash, Reader.bind, this, Reader.pure, be_take hk hn, unbe_be, Nat.mod_eq_of_lt hn.1]

theorem decodes_many {α} {r : Reader α} {enc : α → Bytes} :
    ∀ l : List α, (∀ a ∈ l, Decodes r (enc a) a) → Decodes (readMany r l.length) (l.flatMap enc) l
  | [], _ => Decodes.pure []
  | a :: l, h => by
    rw [List.flatMap_cons, List.length_cons, readMany]
    refine (h a (by simp)).bind ?_
    have := Decodes.bind (f := fun as => Reader.pure (a :: as)) (decodes_many l fun b hb => h b (by simp [hb]))
      (Decodes.pure (a :: l))
    simpa using this

theorem decodes_many' {α} {r : Reader α} {enc : α → Bytes} {n : Nat} {l : List α} (hn : l.length = n)
    (h : ∀ a ∈ l, Decodes r (enc a) a) : Decodes (readMany r n) (l.flatMap enc) l := hn ▸ decodes_many l h

/-! ## Locality -/

/-- What a reader returns is determined by the bytes it consumes, which are at the front of its input. -/
def Local {α} (r : Reader α) : Prop := ∀ bs a rest, r bs = .ok (a, rest) →
  ∃ used, bs = used ++ rest ∧ ∀ rest', r (used ++ rest') = .ok (a, rest')

theorem Local.pure {α} (a : α) : Local (Reader.pure a) := by
  intro bs b rest h
  simp only [Reader.pure, Except.ok.injEq, Prod.mk.injEq] at h
  exact ⟨[], by simp [h.2], fun _ => by simp [Reader.pure, h.1]⟩

theorem Local.fail {α} (e : Err) : Local (Reader.fail (α := α) e) := by
  intro bs b rest h; cases h

theorem Local.bind {α β} {r : Reader α} {f : α → Reader β} (h : Local r) (hf : ∀ a, Local (f a)) :
    Local (Reader.bind r f) := by
  intro bs b rest hb
  rw [Reader.bind] at hb
  cases hr : r bs with
  | error e => rw [hr] at hb; cases hb
  | ok p =>
    obtain ⟨a, mid⟩ := p
    rw [hr] at hb
    obtain ⟨u1, h1, h1'⟩ := h _ _ _ hr
    obtain ⟨u2, h2, h2'⟩ := hf a _ _ _ hb
    refine ⟨u1 ++ u2, by rw [h1, h2, List.append_assoc], fun rest' => ?_⟩
    rw [Reader.bind, List.append_assoc, h1']
    exact h2' rest'

theorem Local.readBytes (n : Nat) : Local (readBytes n) := by
  intro bs a rest h
  unfold Codec.readBytes at h
  split at h
  · cases h
  · rename_i hn
    simp only [Except.ok.injEq, Prod.mk.injEq] at h
    obtain ⟨rfl, rfl⟩ := h
    refine ⟨bs.take n, by simp, fun rest' => ?_⟩
    have hl : (bs.take n).length = n := by rw [List.length_take]; omega
    exact decodes_bytes' hl rest'

theorem Local.readInt (k : Nat) : Local (readInt k) := (Local.readBytes k).bind fun _ => Local.pure _

theorem Local.readUuid : Local readUuid := (Local.readBytes 16).bind fun b => by
  split
  · exact Local.pure _
  · exact Local.fail _

theorem Local.readString (n : Nat) : Local (readString n) := (Local.readBytes n).bind fun b => by
  split
  · exact Local.pure _
  · exact Local.fail _

theorem Local.readTagHash (k : Nat) : Local (readTagHash k) := (Local.readBytes k).bind fun _ => Local.pure _

theorem Local.readMany {α} {r : Reader α} (h : Local r) : ∀ n, Local (readMany r n)
  | 0 => Local.pure _
  | n + 1 => h.bind fun _ => (Local.readMany h n).bind fun _ => Local.pure _

/-- Readers fail only by reporting undecodable data. -/
def FailsCleanly {α} (r : Reader α) : Prop := ∀ bs e, r bs = .error e → ∃ m, e = .deserialization m

theorem FailsCleanly.pure {α} (a : α) : FailsCleanly (Reader.pure a) := by intro bs e h; cases h

theorem FailsCleanly.fail {α} (m : String) : FailsCleanly (Reader.fail (α := α) (.deserialization m)) := by
  intro bs e h; cases h; exact ⟨_, rfl⟩

theorem FailsCleanly.bind {α β} {r : Reader α} {f : α → Reader β} (h : FailsCleanly r) (hf : ∀ a, FailsCleanly (f a)) :
    FailsCleanly (Reader.bind r f) := by
  intro bs e hb
  rw [Reader.bind] at hb
  cases hr : r bs with
  | error e' => rw [hr] at hb; cases hb; exact h _ _ hr
  | ok p => rw [hr] at hb; exact hf _ _ _ hb

theorem FailsCleanly.readBytes (n : Nat) : FailsCleanly (readBytes n) := by
  intro bs e h
  unfold Codec.readBytes at h
  split at h
  · cases h; exact ⟨_, rfl⟩
  · cases h

theorem FailsCleanly.readInt (k : Nat) : FailsCleanly (readInt k) :=
  (FailsCleanly.readBytes k).bind fun _ => FailsCleanly.pure _

theorem FailsCleanly.readUuid : FailsCleanly readUuid := (FailsCleanly.readBytes 16).bind fun b => by
  split
  · exact FailsCleanly.pure _
  · exact FailsCleanly.fail _

theorem FailsCleanly.readString (n : Nat) : FailsCleanly (readString n) := (FailsCleanly.readBytes n).bind fun b => by
  split
  · exact FailsCleanly.pure _
  · exact FailsCleanly.fail _

theorem FailsCleanly.readTagHash (k : Nat) : FailsCleanly (readTagHash k) :=
  (FailsCleanly.readBytes k).bind fun _ => FailsCleanly.pure _

theorem FailsCleanly.readMany {α} {r : Reader α} (h : FailsCleanly r) : ∀ n, FailsCleanly (readMany r n)
  | 0 => FailsCleanly.pure _
  | n + 1 => h.bind fun _ => (FailsCleanly.readMany h n).bind fun _ => FailsCleanly.pure _

theorem FailsCleanly.remaining : FailsCleanly remaining := by intro bs e h; cases h

end Uma.Codec
