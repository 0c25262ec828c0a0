import Verif.Codec.Bytes

/-!
# CRC-32

`crc32fast::hash` as used by `calc_crc`, umadb-core/src/page.rs 236-239: the standard CRC-32 (reflected polynomial
`0xEDB88320`, initial value and final xor `0xFFFFFFFF`), written bit by bit.
-/

namespace Uma.Codec

def crcPoly : Nat := 0xEDB88320
def crcMask : Nat := 0xFFFFFFFF

/-- One bit. -/
def crcBit (s : Nat) : Nat := (s / 2) ^^^ (if s % 2 = 1 then crcPoly else 0)

def crcBits : Nat → Nat → Nat
  | 0, s => s
  | n + 1, s => crcBits n (crcBit s)

/-- One byte. -/
def crcByte (s : Nat) (b : UInt8) : Nat := crcBits 8 (s ^^^ b.toNat)

def crcLoop (s : Nat) (bs : Bytes) : Nat := bs.foldl crcByte s

/-- `calc_crc`. -/
def crc32 (bs : Bytes) : Nat := crcLoop crcMask bs ^^^ crcMask

/-- The standard check value. -/
example : crc32 [0x31, 0x32, 0x33, 0x34, 0x35, 0x36, 0x37, 0x38, 0x39] = 0xCBF43926 := by decide +kernel

/-! ## Linearity and injectivity -/

theorem xor_div_two (a b : Nat) : (a ^^^ b) / 2 = (a / 2) ^^^ (b / 2) := by
  simpa [Nat.shiftRight_eq_div_pow] using Nat.shiftRight_xor_distrib (a := a) (b := b) (i := 1)

theorem crcBit_xor (a b : Nat) : crcBit (a ^^^ b) = crcBit a ^^^ crcBit b := by
  have hm : (a ^^^ b) % 2 = (a % 2 + b % 2) % 2 := by
    have := Nat.testBit_xor a b 0
    simp only [Nat.testBit_zero] at this
    rcases Nat.mod_two_eq_zero_or_one a with ha | ha <;> rcases Nat.mod_two_eq_zero_or_one b with hb | hb <;>
      rcases Nat.mod_two_eq_zero_or_one (a ^^^ b) with hc | hc <;> simp_all
  unfold crcBit
  rw [xor_div_two, hm]
  rcases Nat.mod_two_eq_zero_or_one a with ha | ha <;> rcases Nat.mod_two_eq_zero_or_one b with hb | hb <;>
    simp only [ha, hb]
  · simp
  · simp [Nat.xor_assoc]
  · simp only [Nat.zero_add, Nat.add_zero, if_true, Nat.zero_ne_one, if_false, Nat.xor_zero, Nat.mod_eq_of_lt (show 1 < 2 by omega)]
    rw [Nat.xor_assoc, Nat.xor_comm (b / 2), ← Nat.xor_assoc]
  · have : a / 2 ^^^ crcPoly ^^^ (b / 2 ^^^ crcPoly) = a / 2 ^^^ b / 2 := by
      rw [Nat.xor_assoc, Nat.xor_comm crcPoly, Nat.xor_assoc, Nat.xor_self, Nat.xor_zero]
    simp [this]

theorem crcBits_xor (n : Nat) : ∀ a b, crcBits n (a ^^^ b) = crcBits n a ^^^ crcBits n b := by
  induction n with
  | zero => intro a b; rfl
  | succ n ih => intro a b; rw [crcBits, crcBit_xor, ih]; rfl

theorem crcBit_lt {s : Nat} (h : s < 2 ^ 32) : crcBit s < 2 ^ 32 := by
  unfold crcBit
  apply Nat.xor_lt_two_pow (by omega)
  split <;> decide

theorem crcBits_lt (n : Nat) : ∀ {s}, s < 2 ^ 32 → crcBits n s < 2 ^ 32 := by
  induction n with
  | zero => intro s h; exact h
  | succ n ih => intro s h; exact ih (crcBit_lt h)

theorem crcBit_ne_zero {s : Nat} (h : s < 2 ^ 32) (hz : crcBit s = 0) : s = 0 := by
  unfold crcBit at hz
  rcases Nat.mod_two_eq_zero_or_one s with hs | hs
  · simp [hs] at hz; omega
  · simp only [hs, if_true] at hz
    have h31 := congrArg (fun x => x.testBit 31) hz
    simp only [Nat.testBit_xor, Nat.zero_testBit] at h31
    have h1 : (s / 2).testBit 31 = false := Nat.testBit_lt_two_pow (by omega)
    have h2 : crcPoly.testBit 31 = true := by decide
    rw [h1, h2] at h31
    cases h31

theorem crcBits_ne_zero (n : Nat) : ∀ {s}, s < 2 ^ 32 → crcBits n s = 0 → s = 0 := by
  induction n with
  | zero => intro s _ hz; exact hz
  | succ n ih => intro s h hz; exact crcBit_ne_zero h (ih (crcBit_lt h) hz)

theorem crcBits_mul (n : Nat) : ∀ s, crcBits n (s * 2 ^ n) = s := by
  induction n with
  | zero => intro s; simp [crcBits]
  | succ n ih =>
    intro s
    rw [crcBits]
    have : crcBit (s * 2 ^ (n + 1)) = s * 2 ^ n := by
      unfold crcBit
      have h2 : s * 2 ^ (n + 1) = 2 * (s * 2 ^ n) := by rw [Nat.pow_succ, ← Nat.mul_assoc, Nat.mul_comm]
      rw [h2]
      have h3 : 2 * (s * 2 ^ n) % 2 = 0 := by omega
      have h4 : 2 * (s * 2 ^ n) / 2 = s * 2 ^ n := by omega
      simp [h3, h4]
    rw [this, ih]

theorem crcByte_lt {s : Nat} {b : UInt8} (h : s < 2 ^ 32) : crcByte s b < 2 ^ 32 :=
  crcBits_lt 8 (Nat.xor_lt_two_pow h (by have := b.toNat_lt; omega))

theorem crcLoop_lt {bs : Bytes} : ∀ {s : Nat}, s < 2 ^ 32 → crcLoop s bs < 2 ^ 32 := by
  induction bs with
  | nil => intro s h; exact h
  | cons b bs ih => intro s h; exact ih (crcByte_lt h)

theorem xor_eq_zero {a b : Nat} : a ^^^ b = 0 → a = b := by
  intro h
  have := congrArg (· ^^^ b) h
  simpa [Nat.xor_assoc] using this

theorem crcBits_inj {n a b : Nat} (ha : a < 2 ^ 32) (hb : b < 2 ^ 32) (h : crcBits n a = crcBits n b) : a = b := by
  apply xor_eq_zero
  apply crcBits_ne_zero n (Nat.xor_lt_two_pow ha hb)
  rw [crcBits_xor, h, Nat.xor_self]

/-- The state after the same bytes is determined by, and determines, the state before. -/
theorem crcLoop_inj {bs : Bytes} : ∀ {a b : Nat}, a < 2 ^ 32 → b < 2 ^ 32 → crcLoop a bs = crcLoop b bs → a = b := by
  induction bs with
  | nil => intro a b _ _ h; exact h
  | cons x bs ih =>
    intro a b ha hb h
    have h1 := ih (crcByte_lt ha) (crcByte_lt hb) h
    have hx : x.toNat < 2 ^ 32 := by have := x.toNat_lt; omega
    have := crcBits_inj (Nat.xor_lt_two_pow ha hx) (Nat.xor_lt_two_pow hb hx) h1
    have := congrArg (· ^^^ x.toNat) this
    simpa [Nat.xor_assoc] using this

/-- Processing bytes is processing them as one little-endian number. -/
theorem crcLoop_eq_bits (bs : Bytes) : ∀ s, crcLoop s bs = crcBits (8 * bs.length) (s ^^^ unle bs) := by
  induction bs with
  | nil => intro s; simp [crcLoop, unle, crcBits]
  | cons b bs ih =>
    intro s
    have hb := b.toNat_lt
    have hadd : b.toNat + 256 * unle bs = b.toNat ^^^ (unle bs * 2 ^ 8) := by
      have := Nat.two_pow_add_eq_or_of_lt (i := 8) (b := b.toNat) (by omega) (unle bs)
      rw [Nat.add_comm, show (256 : Nat) = 2 ^ 8 by rfl, this, Nat.or_comm]
      apply Nat.eq_of_testBit_eq
      intro i
      simp only [Nat.testBit_or, Nat.testBit_xor]
      by_cases hi : i < 8
      · have : (2 ^ 8 * unle bs).testBit i = false := by
          rw [Nat.mul_comm, Nat.testBit_mul_two_pow]; simp; omega
        have h' : (unle bs * 2 ^ 8).testBit i = false := by rw [Nat.mul_comm]; exact this
        rw [this, h']; simp
      · have : b.toNat.testBit i = false := Nat.testBit_lt_two_pow
          (Nat.lt_of_lt_of_le hb (Nat.pow_le_pow_right (by omega) (by omega)))
        rw [this, Nat.mul_comm]; simp
    have hs : ∀ (m n x : Nat), crcBits (m + n) x = crcBits n (crcBits m x) := by
      intro m
      induction m with
      | zero => intro n x; simp [crcBits]
      | succ m ih => intro n x; rw [show m + 1 + n = (m + n) + 1 by omega, crcBits, ih]; rfl
    show crcLoop (crcByte s b) bs = _
    rw [ih, unle, List.length_cons, show 8 * (bs.length + 1) = 8 + 8 * bs.length by omega, hs, hadd, ← Nat.xor_assoc,
      crcBits_xor 8 (s ^^^ b.toNat), crcBits_mul]
    rfl

/-- Different windows of the same length, at most four bytes, lead to different states. -/
theorem crcLoop_window {s : Nat} {w w' : Bytes} (hs : s < 2 ^ 32) (hl : w.length = w'.length) (h4 : w.length ≤ 4)
    (h : crcLoop s w = crcLoop s w') : w = w' := by
  rw [crcLoop_eq_bits, crcLoop_eq_bits, ← hl] at h
  have hlt : ∀ v : Bytes, v.length ≤ 4 → unle v < 2 ^ 32 := fun v hv =>
    Nat.lt_of_lt_of_le (unle_lt v) (by
      calc 256 ^ v.length ≤ 256 ^ 4 := Nat.pow_le_pow_right (by omega) hv
        _ = 2 ^ 32 := by decide)
  have h1 := crcBits_inj (Nat.xor_lt_two_pow hs (hlt w h4)) (Nat.xor_lt_two_pow hs (hlt w' (hl ▸ h4))) h
  have h2 : unle w = unle w' := by
    have := congrArg (s ^^^ ·) h1
    simpa [← Nat.xor_assoc] using this
  rw [← le_unle w, ← le_unle w', h2, hl]

theorem crc32_lt (bs : Bytes) : crc32 bs < 2 ^ 32 :=
  Nat.xor_lt_two_pow (crcLoop_lt (by decide)) (by decide)

/-- A change confined to four adjacent bytes changes the checksum. -/
theorem crc32_window (a w w' z : Bytes) (hl : w.length = w'.length) (h4 : w.length ≤ 4)
    (h : crc32 (a ++ w ++ z) = crc32 (a ++ w' ++ z)) : w = w' := by
  unfold crc32 at h
  have h0 : crcMask < 2 ^ 32 := by decide
  have h1 : crcLoop crcMask (a ++ w ++ z) = crcLoop crcMask (a ++ w' ++ z) := by
    have := congrArg (· ^^^ crcMask) h
    simpa [Nat.xor_assoc] using this
  simp only [crcLoop, List.foldl_append] at h1
  have ha : crcLoop crcMask a < 2 ^ 32 := crcLoop_lt h0
  have h2 : crcLoop (crcLoop crcMask a) w = crcLoop (crcLoop crcMask a) w' :=
    crcLoop_inj (crcLoop_lt ha) (crcLoop_lt ha) h1
  exact crcLoop_window ha hl h4 h2

end Uma.Codec
