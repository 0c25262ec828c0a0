import Verif.Tools.Forensic
import Verif.Props.Check
import Verif.Props.Page

/-!
# What Stage 4 of the checker recovers: C81
-/

namespace Uma.Props
open Uma.Spec Uma.Db Uma.Page Uma.Codec Uma.Mvcc Uma.Tools

/-! ## The claim -/

/-- The keys of a leaf of the tag index with the positions stored in the leaf itself. -/
def leafEntries (keys : List Nat) (values : List TagsValue) : List (Nat × List Nat) := keys.zip (values.map (·.positions))

/-- `out` is the beginning of `entries`, the last perhaps with a part of its positions only. -/
inductive Upto : List (Nat × List Nat) → List (Nat × List Nat) → Prop
  | stop (entries) : Upto [] entries
  | part (k ps q entries) : Upto [(k, ps.take q)] ((k, ps) :: entries)
  | more {x out entries} : Upto out entries → Upto (x :: out) (x :: entries)

/-- Where the first `j` entries end in the bytes of a leaf with `n` keys. -/
def entriesEnd (kw n : Nat) (values : List TagsValue) (j : Nat) : Nat :=
  2 + n * kw + ((values.take j).map fun v => 10 + v.positions.length * 8).sum

/-! ## Slices and readers -/

theorem cutOut_ok {body : Bytes} {i k : Nat} (h : i + k ≤ body.length) : cutOut body i (i + k) = .ok ((body.drop i).take k) := by
  unfold cutOut
  rw [if_pos ⟨by omega, h⟩, Nat.add_sub_cancel_left]

theorem readBytes_drop {body : Bytes} {i : Nat} (k : Nat) (hi : i ≤ body.length) : readBytes k (body.drop i) =
    if i + k ≤ body.length then .ok ((body.drop i).take k, body.drop (i + k)) else .error (.deserialization "Unexpected end of data") := by
  unfold readBytes
  rw [List.length_drop, List.drop_drop]
  by_cases h : i + k ≤ body.length
  · rw [if_neg (by omega), if_pos h]
  · rw [if_pos (by omega), if_neg h]

theorem readInt_ok {body : Bytes} {i : Nat} (k : Nat) (h : i + k ≤ body.length) :
    readInt k (body.drop i) = .ok (unle ((body.drop i).take k), body.drop (i + k)) := by
  simp only [readInt, Reader.bind, readBytes_drop k (show i ≤ body.length by omega), if_pos h, Reader.pure]

theorem readInt_end {body : Bytes} {i : Nat} (k : Nat) (hi : i ≤ body.length) (h : body.length < i + k) :
    ∃ e, readInt k (body.drop i) = .error e := by
  simp only [readInt, Reader.bind, readBytes_drop k hi, if_neg (show ¬ i + k ≤ body.length by omega)]
  exact ⟨_, rfl⟩

theorem positionsAt_ok {body : Bytes} : ∀ (n off : Nat), off + n * 8 ≤ body.length → ∃ ps, positionsAt body off n = .ok ps ∧
    readMany (readInt 8) n (body.drop off) = .ok (ps, body.drop (off + n * 8)) ∧ ps.length = n
  | 0, off, _ => ⟨[], rfl, by simp [readMany, Reader.pure], rfl⟩
  | n + 1, off, h => by
    obtain ⟨ps, h1, h2, h3⟩ := positionsAt_ok (body := body) n (off + 8) (by omega)
    refine ⟨unle ((body.drop off).take 8) :: ps, ?_, ?_, by simp [h3]⟩
    · unfold positionsAt
      rw [cutOut_ok (by omega), h1]; rfl
    · rw [readMany, Reader.bind, readInt_ok 8 (by omega)]
      simp only [Reader.bind, h2, Reader.pure]
      rw [show off + 8 + n * 8 = off + (n + 1) * 8 by omega]

theorem readMany_end {body : Bytes} {k : Nat} {α} {r : Reader α} (hr : ∀ i, i ≤ body.length → body.length < i + k → ∃ e, r (body.drop i) = .error e)
    (hr' : ∀ i, i + k ≤ body.length → ∃ a, r (body.drop i) = .ok (a, body.drop (i + k))) : ∀ (n off : Nat), off ≤ body.length →
    body.length < off + n * k → ∃ e, readMany r n (body.drop off) = .error e
  | 0, off, h, h' => by omega
  | n + 1, off, h, h' => by
    rw [readMany, Reader.bind]
    by_cases hk : off + k ≤ body.length
    · obtain ⟨a, ha⟩ := hr' off hk
      rw [ha]
      obtain ⟨e, he⟩ := readMany_end hr hr' n (off + k) hk (by rw [Nat.succ_mul] at h'; omega)
      simp only [Reader.bind, he]
      exact ⟨_, rfl⟩
    · obtain ⟨e, he⟩ := hr off h (by omega)
      rw [he]; exact ⟨_, rfl⟩

/-- One value: the decoder fails, or both read the same and go on at the same place. -/
theorem value_cases {body : Bytes} {off : Nat} (h : off ≤ body.length) (k : Nat) (keys : List Nat) (i : Nat) :
    (∃ e ps note, decTagsValue (body.drop off) = .error e ∧ valuesAt body (k :: keys) i off = .ok (ps, [note]) ∧
      (off + 10 ≤ body.length → ∃ q, ps = [(k, q)] ∧ positionsAt body (off + 10) ((body.length - (off + 10)) / 8) = .ok q) ∧
      (body.length < off + 10 → ps = []) ∧
      (off + 10 ≤ body.length → body.length < off + 10 + unle ((body.drop (off + 8)).take 2) * 8)) ∨
    ∃ v, off + (10 + v.positions.length * 8) ≤ body.length ∧
      decTagsValue (body.drop off) = .ok (v, body.drop (off + (10 + v.positions.length * 8))) ∧
      valuesAt body (k :: keys) i off = (valuesAt body keys (i + 1) (off + (10 + v.positions.length * 8))).map
        fun r => ((k, v.positions) :: r.1, r.2) := by
  rw [valuesAt]
  by_cases h1 : off + 10 > body.length
  · rw [if_pos h1]
    left
    by_cases h2 : off + 8 ≤ body.length
    · obtain ⟨e, he⟩ := readInt_end (body := body) (i := off + 8) 2 h2 (by omega)
      refine ⟨e, [], .headCut i, ?_, rfl, by omega, fun _ => rfl, by omega⟩
      simp only [decTagsValue, Reader.bind, readInt_ok 8 h2, he]
    · obtain ⟨e, he⟩ := readInt_end (body := body) (i := off) 8 h (by omega)
      refine ⟨e, [], .headCut i, ?_, rfl, by omega, fun _ => rfl, by omega⟩
      simp only [decTagsValue, Reader.bind, he]
  · rw [if_neg h1, cutOut_ok (by omega), cutOut_ok (i := off + 8) (k := 2) (by omega)]
    simp only [bind, Except.bind]
    by_cases h2 : off + 10 + unle ((body.drop (off + 8)).take 2) * 8 > body.length
    · rw [if_pos h2]
      left
      obtain ⟨ps, p1, -, -⟩ := positionsAt_ok (body := body) ((body.length - (off + 10)) / 8) (off + 10) (by omega)
      obtain ⟨e, he⟩ := readMany_end (body := body) (k := 8) (r := readInt 8) (fun i hi hi' => readInt_end 8 hi hi')
        (fun i hi => ⟨_, readInt_ok 8 hi⟩) (unle ((body.drop (off + 8)).take 2)) (off + 10) (by omega) h2
      refine ⟨e, [(k, ps)], .positionsCut i, ?_, by rw [p1], fun _ => ⟨ps, rfl, p1⟩, by omega, fun _ => h2⟩
      simp only [decTagsValue, Reader.bind, readInt_ok 8 (show off + 8 ≤ body.length by omega),
        readInt_ok 2 (show off + 8 + 2 ≤ body.length by omega), decInts, he]
    · rw [if_neg h2]
      right
      obtain ⟨ps, p1, p2, p3⟩ := positionsAt_ok (body := body) (unle ((body.drop (off + 8)).take 2)) (off + 10) (by omega)
      refine ⟨⟨unle ((body.drop off).take 8), ps⟩, ?_, ?_, ?_⟩
      · simp only [p3]; omega
      · simp only [decTagsValue, Reader.bind, readInt_ok 8 (show off + 8 ≤ body.length by omega),
          readInt_ok 2 (show off + 8 + 2 ≤ body.length by omega), decInts, p2, Reader.pure, p3]
        rw [← Nat.add_assoc]
      · rw [p1]
        simp only [p3, ← Nat.add_assoc]
        cases valuesAt body keys (i + 1) (off + 10 + unle ((body.drop (off + 8)).take 2) * 8) <;> rfl

theorem valuesAt_spec {body : Bytes} : ∀ (keys : List Nat) (i off : Nat), off ≤ body.length → ∃ out notes, valuesAt body keys i off = .ok (out, notes) ∧
    (∀ vs rest, readMany decTagsValue keys.length (body.drop off) = .ok (vs, rest) → out = leafEntries keys vs ∧ notes = []) ∧
    (∀ e, readMany decTagsValue keys.length (body.drop off) = .error e → notes ≠ [])
  | [], i, off, h => ⟨[], [], rfl, by simp [leafEntries], by simp [readMany, Reader.pure]⟩
  | k :: keys, i, off, h => by
    rcases value_cases h k keys i with ⟨e, ps, note, h1, h2, -⟩ | ⟨v, h0, h1, h2⟩
    · refine ⟨ps, [note], h2, ?_, by simp⟩
      intro vs rest hh
      simp [readMany, Reader.bind, h1] at hh
    · obtain ⟨out, notes, k1, k2, k3⟩ := valuesAt_spec keys (i + 1) _ h0
      refine ⟨(k, v.positions) :: out, notes, by rw [h2, k1]; rfl, ?_, ?_⟩
      · intro vs rest hh
        simp only [List.length_cons, readMany, Reader.bind, h1] at hh
        cases hm : readMany decTagsValue keys.length (body.drop (off + (10 + v.positions.length * 8))) with
        | error e => rw [hm] at hh; cases hh
        | ok x =>
          rw [hm] at hh
          cases hh
          obtain ⟨r1, r2⟩ := k2 _ _ hm
          exact ⟨by rw [r1]; rfl, r2⟩
      · intro e hh
        simp only [List.length_cons, readMany, Reader.bind, h1] at hh
        cases hm : readMany decTagsValue keys.length (body.drop (off + (10 + v.positions.length * 8))) with
        | error e => exact k3 e hm
        | ok x => rw [hm] at hh; cases hh

theorem readTagHash_ok {body : Bytes} {i kw : Nat} (h : i + kw ≤ body.length) :
    readTagHash kw (body.drop i) = .ok (unbe ((body.drop i).take kw ++ List.replicate (16 - kw) 0), body.drop (i + kw)) := by
  simp only [readTagHash, Reader.bind, readBytes_drop kw (show i ≤ body.length by omega), if_pos h, Reader.pure]

/-- A key has sixteen bytes. -/
theorem keyOf_fits {n k : Nat} {src : Bytes} (h : keyOf n src = .ok k) : k < 256 ^ 16 := by
  unfold keyOf at h
  split at h
  · rename_i hn
    cases h
    have := unbe_lt (src ++ List.replicate (16 - n) 0)
    rwa [List.length_append, List.length_replicate, hn.2, Nat.add_sub_cancel' hn.1] at this
  · cases h

theorem keysAt_spec {body : Bytes} {kw off : Nat} (hk : kw ≤ 16) : ∀ (n i : Nat), off + (i + n) * kw ≤ body.length → ∃ ks, keysAt body kw off n i = .ok (ks, []) ∧
    readMany (readTagHash kw) n (body.drop (off + i * kw)) = .ok (ks, body.drop (off + (i + n) * kw)) ∧ ks.length = n
  | 0, i, _ => ⟨[], rfl, by simp [readMany, Reader.pure], rfl⟩
  | n + 1, i, h => by
    have e1 : i + (n + 1) = i + 1 + n := by omega
    rw [e1] at h
    obtain ⟨ks, h1, h2, h3⟩ := keysAt_spec hk n (i + 1) h
    have e2 : off + (i + 1) * kw = off + i * kw + kw := by rw [Nat.succ_mul]; omega
    have hin : off + i * kw + kw ≤ body.length := by
      have : (i + 1) * kw ≤ (i + 1 + n) * kw := Nat.mul_le_mul_right _ (by omega)
      omega
    refine ⟨unbe ((body.drop (off + i * kw)).take kw ++ List.replicate (16 - kw) 0) :: ks, ?_, ?_, by simp [h3]⟩
    · have hlen : ((body.drop (off + i * kw)).take kw).length = kw := by simp; omega
      rw [keysAt]
      simp only [if_pos hin, cutOut_ok hin, bind, Except.bind, keyOf, hlen, hk, and_self, if_true, h1, List.nil_append]
    · rw [readMany, Reader.bind, readTagHash_ok hin]
      simp only [Reader.bind]
      rw [← e2, h2, e1]; rfl

/-- Everything about `forensicParse` but what it recovers from damaged pages. -/
theorem forensicParse_spec (body : Bytes) {kw : Nat} (hk : kw ≤ 16) : ∃ out notes, forensicParse body kw = .ok (out, notes) ∧
    (∀ ks vs, decode kw 0x36 body = .ok (.tagsLeaf ks vs) → out = leafEntries ks vs ∧ notes = []) ∧
    (∀ e, decode kw 0x36 body = .error e → notes ≠ []) := by
  have hd : decode kw 0x36 body = match decLeaf .tagsLeaf (readTagHash kw) decTagsValue body with
    | .error e => .error e
    | .ok (n, _) => .ok n := rfl
  have h0 : body = body.drop 0 := rfl
  unfold forensicParse
  by_cases h1 : body.length < 2
  · rw [if_pos h1]
    obtain ⟨e, he⟩ := readInt_end (body := body) (i := 0) 2 (by omega) (by omega)
    refine ⟨[], [.short], rfl, ?_, by simp⟩
    intro ks vs h
    rw [hd, decLeaf, Reader.bind, h0, he] at h
    cases h
  · rw [if_neg h1, cutOut_ok (i := 0) (k := 2) (by omega)]
    simp only [bind, Except.bind]
    have hn := readInt_ok (body := body) (i := 0) 2 (by omega)
    simp only [Nat.zero_add] at hn
    generalize hN : unle ((body.drop 0).take 2) = n at *
    by_cases h2 : body.length < 2 + n * kw
    · rw [if_pos h2]
      refine ⟨[], [.noKeys], rfl, ?_, by simp⟩
      obtain ⟨e, he⟩ := readMany_end (body := body) (k := kw) (r := readTagHash kw)
        (fun i hi hi' => by
          simp only [readTagHash, Reader.bind, readBytes_drop kw hi, if_neg (show ¬ i + kw ≤ body.length by omega)]
          exact ⟨_, rfl⟩)
        (fun i hi => ⟨_, readTagHash_ok hi⟩) n 2 (by omega) h2
      intro ks vs h
      rw [hd, decLeaf, Reader.bind] at h
      rw [List.drop_zero] at hn
      rw [hn] at h
      simp only [Reader.bind, he] at h
      cases h
    · rw [if_neg h2]
      obtain ⟨ks, k1, k2, k3⟩ := keysAt_spec (body := body) (off := 2) hk n 0 (by rw [Nat.zero_add]; omega)
      rw [k1]
      simp only [Nat.zero_add, Nat.zero_mul, Nat.add_zero] at k2
      obtain ⟨out, notes, v1, v2, v3⟩ := valuesAt_spec (body := body) ks 0 (2 + n * kw) (by omega)
      simp only [v1, List.nil_append]
      rw [k3] at v2 v3
      rw [List.drop_zero] at hn
      refine ⟨out, notes, rfl, ?_, ?_⟩
      · intro ks' vs h
        rw [hd, decLeaf, Reader.bind, hn] at h
        simp only [Reader.bind, k2] at h
        cases hm : readMany decTagsValue n (body.drop (2 + n * kw)) with
        | error e => rw [hm] at h; cases h
        | ok x =>
          rw [hm] at h
          cases h
          exact v2 _ _ hm
      · intro e h
        rw [hd, decLeaf, Reader.bind, hn] at h
        simp only [Reader.bind, k2] at h
        cases hm : readMany decTagsValue n (body.drop (2 + n * kw)) with
        | error e => exact v3 e hm
        | ok x => rw [hm] at h; cases h

/-! ## Damaged pages -/

theorem take_prefix_drop {body body0 : Bytes} {m off k : Nat} (h : body.take m = body0.take m) (hk : off + k ≤ m) :
    (body.drop off).take k = (body0.drop off).take k := by
  have h1 := congrArg (fun l => (l.drop off).take k) h
  simp only [List.drop_take, List.take_take] at h1
  rwa [Nat.min_eq_left (by omega)] at h1

theorem take_eq_length {body body0 : Bytes} {m k : Nat} (h : body.take m = body0.take m) (hk : k ≤ m) (hl : k ≤ body0.length) : k ≤ body.length := by
  have h1 := congrArg List.length h
  simp only [List.length_take] at h1
  omega

theorem positionsAt_take {body : Bytes} : ∀ (n off q : Nat) {ps : List Nat}, positionsAt body off n = .ok ps → q ≤ n →
    positionsAt body off q = .ok (ps.take q)
  | 0, off, q, ps, h, hq => by
    obtain rfl : q = 0 := by omega
    simp only [positionsAt, Except.ok.injEq] at h ⊢
    simp
  | n + 1, off, 0, ps, h, hq => by simp [positionsAt]
  | n + 1, off, q + 1, ps, h, hq => by
    unfold positionsAt at h ⊢
    cases hc : cutOut body off (off + 8) with
    | error e => rw [hc] at h; cases h
    | ok b =>
      rw [hc] at h
      simp only [bind, Except.bind] at h ⊢
      cases hp : positionsAt body (off + 8) n with
      | error e => rw [hp] at h; cases h
      | ok ps' =>
        rw [hp] at h
        cases h
        rw [positionsAt_take n (off + 8) q hp (by omega)]
        rfl

theorem positionsAt_same {body body0 : Bytes} {m : Nat} (h : body.take m = body0.take m) : ∀ (n off : Nat), off + n * 8 ≤ m →
    off + n * 8 ≤ body0.length → positionsAt body off n = positionsAt body0 off n
  | 0, off, _, _ => rfl
  | n + 1, off, h1, h2 => by
    unfold positionsAt
    have h3 := take_eq_length h h1 h2
    rw [cutOut_ok (by omega), cutOut_ok (by omega), take_prefix_drop h (by omega), positionsAt_same h n (off + 8) (by omega) (by omega)]

/-- The decoder on a value of which the bytes are the same. -/
theorem decTagsValue_same {body body0 : Bytes} {m off : Nat} (h : body.take m = body0.take m) {v : TagsValue} {rest : Bytes}
    (hv : decTagsValue (body0.drop off) = .ok (v, rest)) (ho : off ≤ body0.length) (hm : off + (10 + v.positions.length * 8) ≤ m) :
    rest = body0.drop (off + (10 + v.positions.length * 8)) ∧ off + (10 + v.positions.length * 8) ≤ body0.length ∧
    positionsAt body0 (off + 10) v.positions.length = .ok v.positions ∧
    off + (10 + v.positions.length * 8) ≤ body.length ∧ decTagsValue (body.drop off) = .ok (v, body.drop (off + (10 + v.positions.length * 8))) := by
  have h8 : off + 8 ≤ body0.length := by
    by_contra hlt
    obtain ⟨e, he⟩ := readInt_end (body := body0) (i := off) 8 ho (by omega)
    simp [decTagsValue, Reader.bind, he] at hv
  simp only [decTagsValue, Reader.bind, readInt_ok 8 h8] at hv
  have h10 : off + 8 + 2 ≤ body0.length := by
    by_contra hlt
    obtain ⟨e, he⟩ := readInt_end (body := body0) (i := off + 8) 2 h8 (by omega)
    simp [he] at hv
  simp only [readInt_ok 2 h10, decInts] at hv
  generalize hn : unle ((body0.drop (off + 8)).take 2) = n at hv
  by_cases hp : off + 8 + 2 + n * 8 ≤ body0.length
  · obtain ⟨ps, p1, p2, p3⟩ := positionsAt_ok (body := body0) n (off + 8 + 2) hp
    rw [p2] at hv
    simp only [Reader.pure, Except.ok.injEq, Prod.mk.injEq] at hv
    obtain ⟨rfl, rfl⟩ := hv
    simp only [p3] at hm ⊢
    have hb := take_eq_length h hm (by omega)
    refine ⟨by rw [← Nat.add_assoc], by omega, p1, hb, ?_⟩
    have e1 := take_prefix_drop h (off := off) (k := 8) (by omega)
    have e2 := take_prefix_drop h (off := off + 8) (k := 2) (by omega)
    obtain ⟨ps', q1, q2, q3⟩ := positionsAt_ok (body := body) n (off + 8 + 2) (by omega)
    rw [positionsAt_same h n (off + 8 + 2) (by omega) hp, p1] at q1
    cases q1
    simp only [decTagsValue, Reader.bind, readInt_ok 8 (show off + 8 ≤ body.length by omega),
      readInt_ok 2 (show off + 8 + 2 ≤ body.length by omega), e1, e2, hn, decInts, q2, Reader.pure]
    rw [← Nat.add_assoc]
  · obtain ⟨e, he⟩ := readMany_end (body := body0) (k := 8) (r := readInt 8) (fun i hi hi' => readInt_end 8 hi hi')
      (fun i hi => ⟨_, readInt_ok 8 hi⟩) n (off + 8 + 2) h10 (by omega)
    rw [he] at hv; cases hv

theorem decTagsValue_at {body : Bytes} {off : Nat} {v : TagsValue} {rest : Bytes} (hv : decTagsValue (body.drop off) = .ok (v, rest))
    (ho : off ≤ body.length) : rest = body.drop (off + (10 + v.positions.length * 8)) ∧ off + (10 + v.positions.length * 8) ≤ body.length ∧
    positionsAt body (off + 10) v.positions.length = .ok v.positions := by
  obtain ⟨h1, h2, h3, -⟩ := decTagsValue_same (m := off + (10 + v.positions.length * 8)) rfl hv ho (Nat.le_refl _)
  exact ⟨h1, h2, h3⟩

/-- The number of positions, as stored. -/
theorem decTagsValue_count {body : Bytes} {off : Nat} {v : TagsValue} {rest : Bytes} (hv : decTagsValue (body.drop off) = .ok (v, rest))
    (ho : off + 10 ≤ body.length) : unle ((body.drop (off + 8)).take 2) = v.positions.length := by
  simp only [decTagsValue, Reader.bind, readInt_ok 8 (show off + 8 ≤ body.length by omega),
    readInt_ok 2 (show off + 8 + 2 ≤ body.length by omega), decInts] at hv
  generalize unle ((body.drop (off + 8)).take 2) = n at hv ⊢
  by_cases hp : off + 8 + 2 + n * 8 ≤ body.length
  · obtain ⟨ps, p1, p2, p3⟩ := positionsAt_ok (body := body) n (off + 8 + 2) hp
    rw [p2] at hv
    simp only [Reader.pure, Except.ok.injEq, Prod.mk.injEq] at hv
    obtain ⟨rfl, -⟩ := hv
    exact p3.symm
  · obtain ⟨e, he⟩ := readMany_end (body := body) (k := 8) (r := readInt 8) (fun i hi hi' => readInt_end 8 hi hi')
      (fun i hi => ⟨_, readInt_ok 8 hi⟩) n (off + 8 + 2) ho (by omega)
    rw [he] at hv; cases hv

theorem readMany_cons {α} {r : Reader α} {n : Nat} {bs : Bytes} {as : List α} {rest : Bytes} (h : readMany r (n + 1) bs = .ok (as, rest)) :
    ∃ a as' rest', as = a :: as' ∧ r bs = .ok (a, rest') ∧ readMany r n rest' = .ok (as', rest) := by
  rw [readMany, Reader.bind] at h
  cases hr : r bs with
  | error e => rw [hr] at h; cases h
  | ok x =>
    rw [hr] at h
    simp only [Reader.bind] at h
    cases hm : readMany r n x.2 with
    | error e => rw [hm] at h; cases h
    | ok y => rw [hm] at h; cases h; exact ⟨_, _, _, rfl, rfl, hm⟩

theorem valuesAt_recovers {body body0 : Bytes} {m : Nat} (h : body.take m = body0.take m) : ∀ (keys : List Nat) (j i off : Nat) {vs : List TagsValue}
    {rest : Bytes}, off ≤ body0.length → off ≤ body.length → readMany decTagsValue keys.length (body0.drop off) = .ok (vs, rest) →
    off + ((vs.take j).map fun v => 10 + v.positions.length * 8).sum ≤ m →
    ∃ out notes, valuesAt body keys i off = .ok (out, notes) ∧ out.take j = (leafEntries keys vs).take j
  | keys, 0, i, off, vs, rest, ho, hb, hv, hm => by
    obtain ⟨out, notes, h1, -⟩ := valuesAt_spec keys i off hb
    exact ⟨out, notes, h1, by simp⟩
  | [], j + 1, i, off, vs, rest, ho, hb, hv, hm => by
    simp only [List.length_nil, readMany, Reader.pure, Except.ok.injEq, Prod.mk.injEq] at hv
    obtain ⟨rfl, -⟩ := hv
    exact ⟨[], [], rfl, rfl⟩
  | k :: keys, j + 1, i, off, vs, rest, ho, hb, hv, hm => by
    obtain ⟨v, vs, rest', rfl, hv1, hv2⟩ := readMany_cons hv
    simp only [List.take_succ_cons, List.map_cons, List.sum_cons] at hm
    obtain ⟨rfl, h2, -, h4, h5⟩ := decTagsValue_same h hv1 ho (by omega)
    obtain ⟨out, notes, k1, k2⟩ := valuesAt_recovers h keys j (i + 1) _ h2 h4 hv2 (by omega)
    rcases value_cases hb k keys i with ⟨e, ps, note, c1, -⟩ | ⟨v', c0, c1, c2⟩
    · rw [h5] at c1; cases c1
    · rw [h5] at c1
      cases c1
      refine ⟨_, _, by rw [c2, k1]; rfl, ?_⟩
      simp only [leafEntries, List.map_cons, List.zip_cons_cons, List.take_succ_cons] at k2 ⊢
      rw [k2]

/-- What a successful decoding of a leaf is made of. -/
theorem decode_tagsLeaf {body : Bytes} {kw : Nat} (hk : kw ≤ 16) {ks : List Nat} {vs : List TagsValue} (h : decode kw 0x36 body = .ok (.tagsLeaf ks vs)) :
    2 ≤ body.length ∧ unle ((body.drop 0).take 2) = ks.length ∧ 2 + ks.length * kw ≤ body.length ∧ keysAt body kw 2 ks.length 0 = .ok (ks, []) ∧
    ∃ rest, readMany decTagsValue ks.length (body.drop (2 + ks.length * kw)) = .ok (vs, rest) := by
  have hd : decode kw 0x36 body = match decLeaf .tagsLeaf (readTagHash kw) decTagsValue body with
    | .error e => .error e
    | .ok (n, _) => .ok n := rfl
  rw [hd, decLeaf, Reader.bind] at h
  have h2 : 2 ≤ body.length := by
    by_contra hlt
    obtain ⟨e, he⟩ := readInt_end (body := body) (i := 0) 2 (by omega) (by omega)
    rw [List.drop_zero] at he
    rw [he] at h; cases h
  have hn := readInt_ok (body := body) (i := 0) 2 (by omega)
  generalize hN : unle ((body.drop 0).take 2) = n at hn
  rw [List.drop_zero, Nat.zero_add] at hn
  rw [hn] at h
  simp only [Reader.bind] at h
  have hkeys : 2 + n * kw ≤ body.length := by
    by_contra hlt
    obtain ⟨e, he⟩ := readMany_end (body := body) (k := kw) (r := readTagHash kw)
      (fun i hi hi' => by
        simp only [readTagHash, Reader.bind, readBytes_drop kw hi, if_neg (show ¬ i + kw ≤ body.length by omega)]
        exact ⟨_, rfl⟩)
      (fun i hi => ⟨_, readTagHash_ok hi⟩) n 2 (by omega) (by omega)
    rw [he] at h; cases h
  obtain ⟨ks', k1, k2, k3⟩ := keysAt_spec (body := body) (off := 2) hk n 0 (by rw [Nat.zero_add]; omega)
  simp only [Nat.zero_add, Nat.zero_mul, Nat.add_zero] at k2
  rw [k2] at h
  simp only at h
  cases hm : readMany decTagsValue n (body.drop (2 + n * kw)) with
  | error e => rw [hm] at h; cases h
  | ok x =>
    rw [hm] at h
    simp only [Reader.pure, Except.ok.injEq, Node.tagsLeaf.injEq] at h
    obtain ⟨rfl, rfl⟩ := h
    rw [k3]
    exact ⟨h2, rfl, hkeys, k1, x.2, hm⟩

theorem keysAt_same {body body0 : Bytes} {m kw off : Nat} (hk : kw ≤ 16) (h : body.take m = body0.take m) : ∀ (n i : Nat), off + (i + n) * kw ≤ m →
    off + (i + n) * kw ≤ body0.length → keysAt body kw off n i = keysAt body0 kw off n i
  | 0, _, _, _ => rfl
  | n + 1, i, h1, h2 => by
    have e1 : i + (n + 1) = i + 1 + n := by omega
    rw [e1] at h1 h2
    have h3 := take_eq_length h h1 h2
    have hle : off + i * kw + kw ≤ off + (i + 1 + n) * kw := by
      have : (i + 1) * kw ≤ (i + 1 + n) * kw := Nat.mul_le_mul_right _ (by omega)
      rw [Nat.succ_mul] at this
      omega
    rw [keysAt, keysAt, if_pos (by omega), if_pos (by omega), cutOut_ok (by omega), cutOut_ok (by omega), take_prefix_drop h (by omega),
      keysAt_same hk h n (i + 1) h1 h2]

/-- C81: entries of which the bytes are intact are recovered. -/
theorem C81_recovers {body0 body : Bytes} {kw : Nat} (hk : kw ≤ 16) {ks : List Nat} {vs : List TagsValue} (h0 : decode kw 0x36 body0 = .ok (.tagsLeaf ks vs))
    {j : Nat} (hb : body.take (entriesEnd kw ks.length vs j) = body0.take (entriesEnd kw ks.length vs j)) :
    ∃ out notes, forensicParse body kw = .ok (out, notes) ∧ out.take j = (leafEntries ks vs).take j := by
  obtain ⟨d1, d2, d3, d4, rest, d5⟩ := decode_tagsLeaf hk h0
  unfold entriesEnd at hb
  have l1 := take_eq_length hb (k := 2 + ks.length * kw) (by omega) d3
  obtain ⟨out, notes, v1, v2⟩ := valuesAt_recovers hb ks j 0 (2 + ks.length * kw) d3 l1 d5 (Nat.le_refl _)
  refine ⟨out, notes, ?_, v2⟩
  have e1 := take_prefix_drop hb (off := 0) (k := 2) (by omega)
  have e2 := keysAt_same hk hb (off := 2) ks.length 0 (by rw [Nat.zero_add]; omega) (by rw [Nat.zero_add]; omega)
  unfold forensicParse
  rw [if_neg (by omega), cutOut_ok (i := 0) (k := 2) (by omega)]
  simp only [bind, Except.bind, e1, d2]
  rw [if_neg (by omega), e2, d4]
  simp only [v1]
  rfl

theorem valuesAt_cut {body0 : Bytes} {m : Nat} : ∀ (keys : List Nat) (i off : Nat) {vs : List TagsValue} {rest : Bytes} {out : List (Nat × List Nat)}
    {notes : List Note}, off ≤ body0.length → off ≤ (body0.take m).length → readMany decTagsValue keys.length (body0.drop off) = .ok (vs, rest) →
    valuesAt (body0.take m) keys i off = .ok (out, notes) → Upto out (leafEntries keys vs)
  | [], i, off, vs, rest, out, notes, ho, hb, hv, hp => by
    simp only [valuesAt, Except.ok.injEq, Prod.mk.injEq] at hp
    rw [← hp.1]; exact .stop _
  | k :: keys, i, off, vs, rest, out, notes, ho, hb, hv, hp => by
    obtain ⟨v, vs, rest', rfl, hv1, hv2⟩ := readMany_cons hv
    obtain ⟨rfl, a2, a3⟩ := decTagsValue_at hv1 ho
    have hsame : (body0.take m).take (body0.take m).length = body0.take (body0.take m).length := by
      rw [List.length_take, List.take_take]; congr 1; omega
    rcases value_cases hb k keys i with ⟨e, ps, note, c1, c2, c3, c4, c5⟩ | ⟨v', c0, c1, c2⟩
    · rw [c2] at hp
      cases hp
      by_cases hten : off + 10 ≤ (body0.take m).length
      · obtain ⟨q, rfl, hq⟩ := c3 hten
        have hcount := c5 hten
        have hl0 : (body0.take m).length ≤ body0.length := by rw [List.length_take]; omega
        rw [take_prefix_drop hsame (off := off + 8) (k := 2) (by omega), decTagsValue_count hv1 (by omega)] at hcount
        rw [positionsAt_same hsame _ _ (by omega) (by omega), positionsAt_take _ _ _ a3 (by omega)] at hq
        cases hq
        exact .part _ _ _ _
      · rw [c4 (by omega)]; exact .stop _
    · obtain ⟨-, -, -, -, b5⟩ := decTagsValue_same (body0 := body0.take m) (body := body0) hsame.symm c1 hb c0
      rw [hv1] at b5
      simp only [Except.ok.injEq, Prod.mk.injEq] at b5
      obtain ⟨rfl, -⟩ := b5
      rw [c2] at hp
      cases hr : valuesAt (body0.take m) keys (i + 1) (off + (10 + v.positions.length * 8)) with
      | error e => rw [hr] at hp; cases hp
      | ok x =>
        rw [hr] at hp
        cases hp
        exact .more (valuesAt_cut keys (i + 1) _ a2 c0 hv2 (notes := x.2) hr)

/-- C81: nothing is made up when the bytes end too early. -/
theorem C81_cut {body0 : Bytes} {kw : Nat} (hk : kw ≤ 16) {ks : List Nat} {vs : List TagsValue} (h0 : decode kw 0x36 body0 = .ok (.tagsLeaf ks vs)) (m : Nat) :
    ∃ out notes, forensicParse (body0.take m) kw = .ok (out, notes) ∧ Upto out (leafEntries ks vs) := by
  obtain ⟨d1, d2, d3, d4, rest, d5⟩ := decode_tagsLeaf hk h0
  have hsame : (body0.take m).take (body0.take m).length = body0.take (body0.take m).length := by
    rw [List.length_take, List.take_take]; congr 1; omega
  unfold forensicParse
  by_cases h1 : (body0.take m).length < 2
  · rw [if_pos h1]; exact ⟨_, _, rfl, .stop _⟩
  · rw [if_neg h1, cutOut_ok (i := 0) (k := 2) (by omega)]
    simp only [bind, Except.bind]
    rw [take_prefix_drop hsame (off := 0) (k := 2) (by omega), d2]
    by_cases h2 : (body0.take m).length < 2 + ks.length * kw
    · rw [if_pos h2]; exact ⟨_, _, rfl, .stop _⟩
    · rw [if_neg h2, keysAt_same hk hsame (off := 2) ks.length 0 (by rw [Nat.zero_add]; omega) (by rw [Nat.zero_add]; omega), d4]
      simp only
      obtain ⟨out, notes, v1, -⟩ := valuesAt_spec (body := body0.take m) ks 0 (2 + ks.length * kw) (by omega)
      rw [v1]
      exact ⟨_, _, rfl, valuesAt_cut ks 0 _ d3 (by omega) d5 v1⟩

/-! ## The pages of the tag index -/

/-- What a reader answers. -/
def Answers {α : Type} (P : α → Prop) (r : Reader α) : Prop := ∀ bs a rest, r bs = .ok (a, rest) → P a

theorem answers_bind {α β : Type} {P : β → Prop} {x : Reader α} {f : α → Reader β} (h : ∀ a, Answers P (f a)) : Answers P (x.bind f) := by
  intro bs a rest hr
  unfold Reader.bind at hr
  split at hr
  · cases hr
  · exact h _ _ _ _ hr

theorem answers_pure {α : Type} {P : α → Prop} {a : α} (h : P a) : Answers P (Reader.pure a) := by
  intro bs b rest hr
  cases hr
  exact h

theorem answers_fail {α : Type} {P : α → Prop} {e : Err} : Answers P (Reader.fail (α := α) e) := by
  intro bs b rest hr
  cases hr

def IsTagsLeaf : Node → Prop
  | .tagsLeaf _ _ => True
  | _ => False

theorem ite_some_elim {α : Type} {P : α → Prop} {c : Prop} [Decidable c] {a r : α} {x : Option α} (h : (if c then some a else x) = some r) (ha : P a)
    (hx : x = some r → P r) : P r := by
  by_cases hc : c
  · rw [if_pos hc] at h; cases h; exact ha
  · rw [if_neg hc] at h; exact hx h

theorem answers_leaf {ν : Type} {P : Node → Prop} {mk : List Nat → List ν → Node} {key : Reader Nat} {value : Reader ν} (h : ∀ a b, P (mk a b)) :
    Answers P (decLeaf mk key value) := answers_bind fun _ => answers_bind fun _ => answers_bind fun _ => answers_pure (h _ _)

theorem answers_explicit {P : Node → Prop} {mk : List Nat → List Nat → Node} (h : ∀ a b, P (mk a b)) : Answers P (decExplicit mk) :=
  answers_bind fun _ => answers_bind fun _ => answers_bind fun _ => answers_bind fun _ => answers_pure (h _ _)

theorem answers_implied {P : Node → Prop} {mk : List Nat → List Nat → Node} {key : Reader Nat} (h : ∀ a b, P (mk a b)) : Answers P (decImplied mk key) :=
  answers_bind fun _ => answers_bind fun _ => answers_bind fun _ => answers_pure (h _ _)

theorem decode_type {kw ty : Nat} {body : Bytes} {n : Node} (h : decode kw ty body = .ok n) (hn : IsTagsLeaf n) : ty = 0x36 := by
  by_contra hty
  have key : ∀ r, nodeReader kw ty = some r → Answers (fun n => ¬ IsTagsLeaf n) r := by
    intro r hr
    unfold nodeReader at hr
    rw [if_neg hty] at hr
    refine ite_some_elim hr (answers_bind fun _ => answers_pure fun h => h) fun hr => ?_
    refine ite_some_elim hr (answers_leaf fun _ _ h => h) fun hr => ?_
    refine ite_some_elim hr (answers_explicit fun _ _ h => h) fun hr => ?_
    refine ite_some_elim hr (answers_leaf fun _ _ h => h) fun hr => ?_
    refine ite_some_elim hr (answers_implied fun _ _ h => h) fun hr => ?_
    refine ite_some_elim hr (answers_bind fun _ => answers_bind fun _ => answers_bind fun _ => answers_pure fun h => h) fun hr => ?_
    refine ite_some_elim hr (answers_implied fun _ _ h => h) fun hr => ?_
    refine ite_some_elim hr (answers_bind fun _ => answers_bind fun _ => answers_pure fun h => h) fun hr => ?_
    refine ite_some_elim hr (answers_implied fun _ _ h => h) fun hr => ?_
    refine ite_some_elim hr (answers_bind fun _ => answers_bind fun _ => answers_pure fun h => h) fun hr => ?_
    refine ite_some_elim hr (answers_explicit fun _ _ h => h) fun hr => ?_
    refine ite_some_elim hr (answers_bind fun _ => answers_bind fun _ => answers_bind fun _ => answers_bind fun _ => ?_) fun hr => ?_
    · split <;> exact answers_pure fun h => h
    refine ite_some_elim hr (answers_bind fun _ => ?_) fun hr => nomatch hr
    split
    · exact answers_fail
    · exact answers_bind fun _ => answers_bind fun _ => answers_bind fun _ => answers_pure fun h => h
  unfold decode at h
  cases hr : nodeReader kw ty with
  | none => rw [hr] at h; cases h
  | some r =>
    rw [hr] at h
    simp only at h
    cases hx : r body with
    | error e => rw [hx] at h; cases h
    | ok x =>
      rw [hx] at h
      cases h
      exact key r hr body x.1 x.2 hx hn

/-- The body of a page that was read. -/
theorem deserialize_tagsLeaf {kw : Nat} {b0 : Bytes} {ks : List Nat} {vs : List TagsValue} (h : deserializePage kw b0 = .ok (.tagsLeaf ks vs)) :
    9 ≤ b0.length ∧ b0.head? = some 0x36 ∧ ∃ len, 9 + len ≤ b0.length ∧ decode kw 0x36 ((b0.drop 9).take len) = .ok (.tagsLeaf ks vs) := by
  unfold deserializePage at h
  split at h
  · cases h
  · next h1 =>
    have h9 : 9 ≤ b0.length := by simp only [pageHeaderSize] at h1; omega
    refine ⟨h9, ?_⟩
    have s1 : ∀ i j, i ≤ j → j ≤ 9 → slice b0 i j = .ok ((b0.drop i).take (j - i)) := fun i j hi hj => by
      unfold slice; rw [if_pos ⟨hi, by omega⟩]
    rw [s1 0 1 (by omega) (by omega), s1 1 5 (by omega) (by omega), s1 5 9 (by omega) (by omega)] at h
    simp only [bind, Except.bind] at h
    split at h
    · cases h
    · next h2 =>
      generalize unle ((b0.drop 5).take (9 - 5)) = len at h h2
      simp only [pageHeaderSize] at h2 h
      have s2 : slice b0 9 (9 + len) = .ok ((b0.drop 9).take len) := by
        unfold slice; rw [if_pos ⟨by omega, by omega⟩, Nat.add_sub_cancel_left]
      rw [s2] at h
      simp only at h
      split at h
      · cases h
      · have ht := decode_type h trivial
        rw [ht] at h
        refine ⟨?_, len, by omega, h⟩
        cases b0 with
        | nil => simp at h9
        | cons x b =>
          have hx : x.toNat = 0x36 := by simpa [unle] using ht
          simp only [List.head?_cons, Option.some.injEq]
          exact UInt8.toNat_inj.mp hx

theorem values_end {body : Bytes} : ∀ (n j off : Nat) {vs : List TagsValue} {rest : Bytes}, off ≤ body.length →
    readMany decTagsValue n (body.drop off) = .ok (vs, rest) → off + ((vs.take j).map fun v => 10 + v.positions.length * 8).sum ≤ body.length
  | 0, j, off, vs, rest, ho, h => by
    simp only [readMany, Reader.pure, Except.ok.injEq, Prod.mk.injEq] at h
    rw [← h.1]; simpa using ho
  | n + 1, 0, off, vs, rest, ho, h => by simpa using ho
  | n + 1, j + 1, off, vs, rest, ho, h => by
    obtain ⟨v, vs, rest', rfl, hv1, hv2⟩ := readMany_cons h
    obtain ⟨rfl, a2, -⟩ := decTagsValue_at hv1 ho
    have := values_end n j _ a2 hv2
    simp only [List.take_succ_cons, List.map_cons, List.sum_cons]
    omega

theorem valuesAt_length {body : Bytes} : ∀ (keys : List Nat) (i off : Nat) {out : List (Nat × List Nat)} {notes : List Note}, off ≤ body.length →
    valuesAt body keys i off = .ok (out, notes) → out.length ≤ keys.length
  | [], i, off, out, notes, ho, h => by
    simp only [valuesAt, Except.ok.injEq, Prod.mk.injEq] at h
    rw [← h.1]; simp
  | k :: keys, i, off, out, notes, ho, h => by
    rcases value_cases ho k keys i with ⟨e, ps, note, c1, c2, c3, c4, c5⟩ | ⟨v', c0, c1, c2⟩
    · rw [c2] at h
      cases h
      by_cases hten : off + 10 ≤ body.length
      · obtain ⟨q, rfl, -⟩ := c3 hten; simp
      · rw [c4 (by omega)]; simp
    · rw [c2] at h
      cases hr : valuesAt body keys (i + 1) (off + (10 + v'.positions.length * 8)) with
      | error e => rw [hr] at h; cases h
      | ok x =>
        rw [hr] at h
        cases h
        have := valuesAt_length keys (i + 1) _ c0 (notes := x.2) hr
        simpa using this

theorem mem_rpg {κ E : Type} {x : Nat × Node} : ∀ {R : Rights κ E}, x ∈ rpg R ↔ ∃ y ∈ R, x ∈ y.2.pg
  | [] => by simp
  | y :: R => by simp [mem_rpg (R := R)]

/-- The pages of a tree are its internal pages and those of its leaves. -/
theorem tr_page_cases {κ E : Type} {Y : Layout κ E} {K : Kid κ E} (h : Tr Y K) : ∀ x ∈ K.pg, (∃ keys kids, x.2 = Y.ops.inner keys kids) ∨
    ∃ k, Y.Leaf k ∧ x ∈ k.pg ∧ ∀ e ∈ ents k.sq, e ∈ ents K.sq := by
  induction h with
  | leaf k hk => exact fun x hx => .inr ⟨k, hk, hx, fun e he => he⟩
  | node id m R hm hR _ ihm ihR =>
    intro x hx
    simp only [nodeKid, lpg_nil, zero_add, Multiset.mem_add, Multiset.mem_singleton] at hx
    rcases hx with rfl | hx | hx
    · exact .inl ⟨_, _, rfl⟩
    · rcases ihm x hx with h | ⟨k, h1, h2, h3⟩
      · exact .inl h
      · exact .inr ⟨k, h1, h2, fun e he => by simp only [nodeKid, lsq_nil, List.nil_append, ents_append]; exact List.mem_append_left _ (h3 e he)⟩
    · obtain ⟨y, hy, hx⟩ := mem_rpg.mp hx
      rcases ihR y hy x hx with h | ⟨k, h1, h2, h3⟩
      · exact .inl h
      · refine .inr ⟨k, h1, h2, fun e he => ?_⟩
        simp only [nodeKid, lsq_nil, List.nil_append, ents_append]
        refine List.mem_append_right _ ?_
        obtain ⟨a, b, rfl⟩ := List.append_of_mem hy
        simp only [rsq_append, rsq_cons, ents_append, ents_sep]
        exact List.mem_append_right _ (List.mem_append_left _ (h3 e he))

theorem chain_pages {ps root : Nat} {P : Multiset (Nat × Node)} {bs : Bytes} (h : Chain ps root P bs) : ∀ x ∈ P, ¬ IsTagsLeaf x.2 := by
  induction h with
  | nil => intro x hx; simp at hx
  | cons _ _ _ _ _ ih =>
    intro x hx
    simp only [Multiset.mem_add, Multiset.mem_singleton] at hx
    rcases hx with rfl | hx
    · exact fun h => h
    · exact ih x hx
  | empty _ _ =>
    intro x hx
    simp only [Multiset.mem_singleton] at hx
    subst hx; exact fun h => h

theorem mem_list_sum {α β : Type} {x : β} {f : α → Multiset β} : ∀ {l : List α}, x ∈ (l.map f).sum ↔ ∃ a ∈ l, x ∈ f a
  | [] => by simp
  | a :: l => by simp [mem_list_sum (l := l)]

theorem per_pages {kw ps : Nat} {hps : 1024 ≤ ps} {root : Nat} {P : Multiset (Nat × Node)} {l : List Nat} (h : PerRep kw ps hps root P l) :
    ∀ x ∈ P, ¬ IsTagsLeaf x.2 := by
  obtain ⟨K, hK, -, rfl, -⟩ := h
  intro x hx
  rcases tr_page_cases hK.tr x hx with ⟨_, _, he⟩ | ⟨k, ⟨l, _, hk, _⟩, hx, -⟩
  · rw [he]; exact fun h => h
  · rw [hk] at hx
    simp only [perKid, Multiset.mem_singleton] at hx
    subst hx; exact fun h => h

theorem tsn_pages {kw ps : Nat} {hps : 1024 ≤ ps} {root : Nat} {P : Multiset (Nat × Node)} {l : List Nat} (h : TsnRep kw ps hps root P l) :
    ∀ x ∈ P, ¬ IsTagsLeaf x.2 := by
  obtain ⟨K, hK, -, rfl, -⟩ := h
  intro x hx
  rcases tr_page_cases hK x hx with ⟨_, _, he⟩ | ⟨k, ⟨l, _, hk, _⟩, hx, -⟩
  · rw [he]; exact fun h => h
  · rw [hk] at hx
    simp only [tsnKid, Multiset.mem_singleton] at hx
    subst hx; exact fun h => h

theorem track_pages {kw ps : Nat} {hps : 1024 ≤ ps} {root : Nat} {P : Multiset (Nat × Node)} {t : String → Option Nat} (h : TrackRep kw ps hps root P t) :
    ∀ x ∈ P, ¬ IsTagsLeaf x.2 := by
  rcases h with ⟨-, rfl, -⟩ | ⟨K, hK, -, rfl, -⟩
  · intro x hx; simp at hx
  · intro x hx
    rcases tr_page_cases hK.tr x hx with ⟨_, _, he⟩ | ⟨k, ⟨l, hk, _⟩, hx, -⟩
    · rw [he]; exact fun h => h
    · rw [hk] at hx
      simp only [trKid, Multiset.mem_singleton] at hx
      subst hx; exact fun h => h

theorem free_pages {kw ps : Nat} {hps : 1024 ≤ ps} {root : Nat} {P : Multiset (Nat × Node)} {es : List FreeEnt} (h : FreeTree kw ps hps root P es) :
    ∀ x ∈ P, ¬ IsTagsLeaf x.2 := by
  rcases h with ⟨K, hK, -, rfl, -⟩ | ⟨-, rfl⟩
  · intro x hx
    rcases tr_page_cases hK x hx with ⟨_, _, he⟩ | ⟨k, ⟨l, _, hk, hl, _⟩, hx, -⟩
    · rw [he]; exact fun h => h
    · rw [hk] at hx
      simp only [frKid, Multiset.mem_add, Multiset.mem_singleton, frPg, mem_list_sum] at hx
      rcases hx with rfl | ⟨e, he, hx⟩
      · exact fun h => h
      · rcases hl e he with ⟨-, -, hp, -⟩ | ⟨-, -, hp⟩
        · rw [hp] at hx; simp at hx
        · exact tsn_pages hp x hx
  · intro x hx
    simp only [Multiset.mem_singleton] at hx
    subst hx; exact fun h => h

theorem event_pages {kw ps : Nat} {hps : 1024 ≤ ps} {K : Kid Nat (Nat × Record)} (hK : Tr (evLayout kw ps hps) K) : ∀ x ∈ K.pg, ¬ IsTagsLeaf x.2 := by
  intro x hx
  rcases tr_page_cases hK x hx with ⟨_, _, he⟩ | ⟨k, ⟨l, hk, hl, _⟩, hx, -⟩
  · rw [he]; exact fun h => h
  · rw [hk] at hx
    simp only [evKid, Multiset.mem_add, Multiset.mem_singleton, epg, mem_list_sum] at hx
    rcases hx with rfl | ⟨e, he, hx⟩
    · exact fun h => h
    · rcases (hl e he).stored with ⟨-, hp, -⟩ | ⟨_, -, hp, -⟩
      · rw [hp] at hx; simp at hx
      · exact chain_pages hp x hx

theorem leafEntries_tgNode : ∀ es : List TagEnt, leafEntries (es.map (·.key)) (es.map (·.val)) = es.map fun e => (e.key, e.inl)
  | [] => rfl
  | e :: es => by
    have := leafEntries_tgNode es
    unfold leafEntries at this ⊢
    simp only [List.map_cons, List.zip_cons_cons, this]
    rfl

/-- Every leaf of the tag index holds positions of events that have the tag. -/
theorem tags_pages {kw ps : Nat} {hps : 1024 ≤ ps} {hkw : kw ≤ 16} {root : Nat} {P : Multiset (Nat × Node)} {idx : Nat → List Nat}
    (h : TagsRep kw ps hps hkw root P idx) {p : Nat} {ks : List Nat} {vs : List TagsValue} (hx : (p, .tagsLeaf ks vs) ∈ P) :
    ks.length = vs.length ∧ ∀ e ∈ leafEntries ks vs, ∀ q ∈ e.2, q ∈ idx e.1 := by
  obtain ⟨K, hK, -, rfl, hs, hi⟩ := h
  rcases tr_page_cases hK.tr _ hx with ⟨_, _, he⟩ | ⟨k, ⟨es, hk, hok, _⟩, hx, hsub⟩
  · cases he
  · rw [hk] at hx hsub
    simp only [tgKid, Multiset.mem_add, Multiset.mem_singleton, tgPg, mem_list_sum, ents_map] at hx hsub
    rcases hx with hx | ⟨e, he, hx⟩
    · simp only [tgNode, Prod.mk.injEq, Node.tagsLeaf.injEq] at hx
      obtain ⟨-, rfl, rfl⟩ := hx
      refine ⟨by simp, fun x hx q hq => ?_⟩
      rw [leafEntries_tgNode] at hx
      obtain ⟨e, he, rfl⟩ := List.mem_map.mp hx
      have hpos : q ∈ e.poss := by
        rcases (hok e he).2 with ⟨-, h1, -⟩ | ⟨h1, -⟩
        · simp only at hq; rw [← h1]; exact hq
        · simp only at hq; rw [h1] at hq; cases hq
      rcases hi e.key with ⟨e', he', h1, h2⟩ | ⟨h1, -⟩
      · have hp := strict_ents hs
        have : e' = e := List.inj_on_of_nodup_map (f := TagEnt.key)
          (List.pairwise_map.mpr (hp.imp fun h => Nat.ne_of_lt h)) he' (hsub e he) h1
        simp only
        rw [h2, this]; exact hpos
      · exact absurd rfl (h1 e (hsub e he))
    · rcases (hok e he).2 with ⟨-, -, hp, -⟩ | ⟨-, hp⟩
      · rw [hp] at hx; simp at hx
      · exact absurd trivial (per_pages hp _ hx)

/-! ## The analysis -/

/-- The event recorded at a position. -/
def recordedAt (log : Log) (p : Nat) : Option Event := if p = 0 then none else (log[p - 1]?).map (·.event)

/-- Positions with the key they are listed under. -/
def pairsOf (entries : List (Nat × List Nat)) : List (Nat × Nat) := entries.flatMap fun x => x.2.map fun p => (p, x.1)

/-- The event at the position has a tag with the key: with width 8, a tag whose old hash begins with the eight bytes of the key. -/
def HasTag (H8 H : String → Nat) (w : Nat) (events : Nat → Option Event) (x : Nat × Nat) : Prop :=
  ∃ e ∈ events x.1, ∃ t ∈ e.tags, if w = 8 then H8 t / 256 ^ 8 = x.2 / 256 ^ 8 else H t = x.2

instance (H8 H : String → Nat) (w : Nat) (events : Nat → Option Event) (x : Nat × Nat) : Decidable (HasTag H8 H w events x) := by
  unfold HasTag; infer_instance

section
variable {H8 H : String → Nat} {w : Nat} {events : Nat → Option Event}

/-- The counts for the pairs seen so far. -/
def tally (H8 H : String → Nat) (w : Nat) (events : Nat → Option Event) (total : Nat) (D : List (Nat × Nat)) : Findings :=
  ⟨total, D.countP fun x => (events x.1).isSome, D.countP fun x => HasTag H8 H w events x,
    (D.filter fun x => (events x.1).isSome && !decide (HasTag H8 H w events x)).take 5⟩

theorem any_iff {e : Event} {k : Nat} :
    (e.tags.any fun t => sameKey w (if w = 8 then H8 t else H t) k) = true ↔
      ∃ t ∈ e.tags, if w = 8 then H8 t / 256 ^ 8 = k / 256 ^ 8 else H t = k := by
  rw [List.any_eq_true]
  refine exists_congr fun t => and_congr_right fun _ => ?_
  unfold sameKey
  by_cases hw : w = 8
  · rw [if_pos hw, if_pos hw, if_pos hw, beq_iff_eq]
  · rw [if_neg hw, if_neg hw, if_neg hw, beq_iff_eq]

theorem tally_step (T : Nat) (D : List (Nat × Nat)) (k p : Nat) :
    analyzePosition H8 H w events k (tally H8 H w events T D) p = tally H8 H w events T (D ++ [(p, k)]) := by
  unfold analyzePosition
  cases hp : events p with
  | none =>
    have hn : ¬ HasTag H8 H w events (p, k) := by rintro ⟨e, he, -⟩; rw [hp] at he; cases he
    simp [tally, List.countP_append, List.filter_append, hp, hn]
  | some e =>
    have hiff : HasTag H8 H w events (p, k) ↔ ∃ t ∈ e.tags, if w = 8 then H8 t / 256 ^ 8 = k / 256 ^ 8 else H t = k := by
      unfold HasTag
      simp only [hp]
      constructor
      · rintro ⟨e', he, h⟩; cases he; exact h
      · exact fun h => ⟨e, rfl, h⟩
    simp only
    by_cases hy : HasTag H8 H w events (p, k)
    · rw [if_pos (any_iff.mpr (hiff.mp hy))]
      simp [tally, List.countP_append, List.filter_append, hp, hy]
    · rw [if_neg fun h => hy (hiff.mpr (any_iff.mp h))]
      simp only [tally, List.countP_append, List.filter_append, List.countP_singleton, hp, hy, Option.isSome_some, Bool.true_and, decide_false,
        Bool.not_false, List.length_take, if_true, Bool.false_eq_true, if_false, Nat.add_zero, List.filter_cons_of_pos, List.filter_nil,
        List.take_append]
      split
      · next hl =>
        have : (D.filter fun x => (events x.1).isSome && !decide (HasTag H8 H w events x)).length < 5 := by omega
        congr 2
        rw [List.take_of_length_le (by simp; omega)]
      · next hl =>
        have : 5 ≤ (D.filter fun x => (events x.1).isSome && !decide (HasTag H8 H w events x)).length := by omega
        rw [Nat.sub_eq_zero_of_le this]
        simp

theorem tally_inner (k T : Nat) : ∀ (ps : List Nat) (D : List (Nat × Nat)),
    ps.foldl (analyzePosition H8 H w events k) (tally H8 H w events T D) = tally H8 H w events T (D ++ ps.map fun p => (p, k))
  | [], D => by simp
  | p :: ps, D => by rw [List.foldl_cons, tally_step, tally_inner k T ps, List.map_cons, List.append_assoc, List.singleton_append]

theorem tally_outer : ∀ (entries : List (Nat × List Nat)) (D : List (Nat × Nat)),
    entries.foldl (fun f x => x.2.foldl (analyzePosition H8 H w events x.1) { f with total := f.total + x.2.length }) (tally H8 H w events D.length D) =
      tally H8 H w events (D ++ pairsOf entries).length (D ++ pairsOf entries)
  | [], D => by simp [pairsOf]
  | x :: entries, D => by
    rw [List.foldl_cons]
    have : { tally H8 H w events D.length D with total := (tally H8 H w events D.length D).total + x.2.length } =
      tally H8 H w events (D ++ x.2.map fun p => (p, x.1)).length D := by simp [tally]
    rw [this, tally_inner, tally_outer entries]
    simp [pairsOf, List.append_assoc]

/-- C81: what the figures of the analysis are. -/
theorem C81_analysis (H8 H : String → Nat) (w : Nat) (events : Nat → Option Event) (entries : List (Nat × List Nat)) :
    (analyzeEntries H8 H w events entries).total = (pairsOf entries).length ∧
    (analyzeEntries H8 H w events entries).withEvent = (pairsOf entries).countP (fun x => (events x.1).isSome) ∧
    (analyzeEntries H8 H w events entries).matching = (pairsOf entries).countP (fun x => HasTag H8 H w events x) ∧
    (analyzeEntries H8 H w events entries).mismatches =
      ((pairsOf entries).filter fun x => (events x.1).isSome && !decide (HasTag H8 H w events x)).take 5 := by
  have h := tally_outer (H8 := H8) (H := H) (w := w) (events := events) entries []
  rw [List.nil_append] at h
  have : analyzeEntries H8 H w events entries = tally H8 H w events (pairsOf entries).length (pairsOf entries) := h
  rw [this]
  exact ⟨rfl, rfl, rfl, rfl⟩

end

/-! ## The events the analysis compares with -/

theorem scannedEvents_spec {env : Env} (he : EnvOk env) {sn : Snap} {log : Log} (hr : Refines env.H sn log) (fuel : Nat) :
    ∀ k ≤ log.length, log.length - k < fuel → scannedEvents env sn fuel (k + 1) = (sequenced log).drop k := by
  induction fuel with
  | zero => intro k _ h; omega
  | succ fuel ih =>
    intro k hk hf
    unfold scannedEvents
    have hread : readConditional env.H env.ord sn ⟨[]⟩ (some (k + 1)) false (some 1024) false Cancel.never =
        .ok (((sequenced log).drop k).take 1024) := by
      rcases readConditional_correct env.H env.ord he.ord sn log hr ⟨[]⟩ (some (k + 1)) false (some 1024) false Cancel.never
        with h | ⟨_, j, hj⟩
      · rw [h, read_all_forward]
      · cases hj
    rw [hread]
    simp only
    have hlen : (((sequenced log).drop k).take 1024).length = min 1024 (log.length - k) := by simp [sequenced_length]
    by_cases hend : k = log.length
    · have h0 : ((sequenced log).drop k).take 1024 = [] := List.length_eq_zero_iff.mp (by rw [hlen]; omega)
      rw [h0]
      have h1 : (sequenced log).drop k = [] := List.length_eq_zero_iff.mp (by simp [sequenced_length]; omega)
      rw [h1]
      rfl
    · have hlast : (((sequenced log).drop k).take 1024).getLast? =
          some ((sequenced log)[k + min 1024 (log.length - k) - 1]'(by rw [sequenced_length]; omega)) := by
        rw [List.getLast?_eq_getElem?, hlen, List.getElem?_take_of_lt (by omega), List.getElem?_drop,
          List.getElem?_eq_getElem (by rw [sequenced_length]; omega)]
        congr 2; omega
      rw [hlast]
      simp only [sequenced_getElem]
      have e1 : k + min 1024 (log.length - k) - 1 + 1 = k + min 1024 (log.length - k) := by omega
      rw [e1, ih _ (by omega) (by omega)]
      have e2 : (sequenced log).drop (k + min 1024 (log.length - k)) = ((sequenced log).drop k).drop 1024 := by
        rw [List.drop_drop]
        by_cases hm : 1024 ≤ log.length - k
        · rw [Nat.min_eq_left hm]
        · rw [Nat.min_eq_right (by omega), List.drop_of_length_le (by rw [sequenced_length]; omega),
            List.drop_of_length_le (by rw [sequenced_length]; omega)]
      rw [e2, List.take_append_drop]

theorem eventAt_sequenced (log : Log) (p : Nat) : eventAt (sequenced log) p = recordedAt log p := by
  have hmem : ∀ e, e ∈ sequenced log ↔ ∃ x ∈ numberFrom 1 log, toSeq x = e := fun e => List.mem_map
  unfold eventAt recordedAt
  cases hf : (sequenced log).reverse.find? (fun e => e.position == p) with
  | none =>
    rw [List.find?_eq_none] at hf
    by_cases h0 : p = 0
    · rw [if_pos h0]; rfl
    · rw [if_neg h0]
      cases hl : log[p - 1]? with
      | none => rfl
      | some r =>
        have := hf (toSeq (p, r)) (by rw [List.mem_reverse, hmem]; exact ⟨_, mem_numberFrom.mpr ⟨by omega, hl⟩, rfl⟩)
        simp [toSeq] at this
  | some e =>
    have h1 := List.find?_some hf
    have h2 := List.mem_of_find?_eq_some hf
    rw [List.mem_reverse, hmem] at h2
    obtain ⟨⟨q, r⟩, hr, rfl⟩ := h2
    simp only [beq_iff_eq, toSeq] at h1
    subst h1
    rw [mem_numberFrom] at hr
    rw [if_neg (by omega), hr.2]
    rfl

/-- C81: the events compared with are those recorded. -/
theorem C81_events {env : Env} (he : EnvOk env) {sn : Snap} {log : Log} (hr : Refines env.H sn log) {fuel : Nat} (hf : log.length < fuel) (p : Nat) :
    eventAt (scannedEvents env sn fuel 1) p = recordedAt log p := by
  rw [scannedEvents_spec he hr fuel 0 (Nat.zero_le _) (by omega)]
  exact eventAt_sequenced log p

/-! ## A page of a database -/

/-- C81: of a damaged leaf of the tag index, the entries with intact bytes are recovered, and their positions are found to have the tag. -/
theorem C81_page {c : Conf} {kw : Nat} {hc : ConfOk c kw} {env : Env} {d : PDb} {s : Spec.Db} (L : Live c hc env.H d s) {h : Header} (hh : d.header = .ok h)
    {p : Nat} (hp : p ∈ usedPages c d h) {b0 : Bytes} (hb0 : readPageBytes c.g p d.file = .ok b0) {ks : List Nat} {vs : List TagsValue}
    (hd : deserializePage kw b0 = .ok (.tagsLeaf ks vs)) {H8 : String → Nat} (h8 : kw = 8 → ∀ t, H8 t / 256 ^ 8 = env.H t / 256 ^ 8)
    {b : Bytes} (hb9 : 9 ≤ b.length) {j : Nat}
    (hb : (b.drop 9).take (entriesEnd kw ks.length vs j) = (b0.drop 9).take (entriesEnd kw ks.length vs j)) :
    ∃ a, autopsy H8 env.H kw (recordedAt s.log) b = .ok a ∧ a.current.1.take j = (leafEntries ks vs).take j ∧
      (∀ x ∈ pairsOf ((leafEntries ks vs).take j), HasTag H8 env.H kw (recordedAt s.log) x) ∧
      (ks.length ≤ j → a.current.1 = leafEntries ks vs ∧
        a.currentFindings = ⟨(pairsOf (leafEntries ks vs)).length, (pairsOf (leafEntries ks vs)).length, (pairsOf (leafEntries ks vs)).length, []⟩) := by
  obtain ⟨hp', h', PE, PT, PK, PF, ix, F, L, -⟩ := L
  obtain rfl : h = h' := by
    have := L.header_eq
    rw [hh] at this
    cases this; rfl
  -- the page belongs to the tag index
  have hin : p ∈ ids (PF + (PE + PT + PK)) := by rw [← LiveAt.used_eq L]; exact hp
  obtain ⟨⟨p', n⟩, hpn, rfl⟩ := Multiset.mem_map.mp hin
  have hfile := L.file _ _ hpn
  unfold Mvcc.readPage at hfile
  simp only at hfile hb0
  rw [hb0] at hfile
  simp only at hfile
  rw [hd] at hfile
  cases hfile
  have hPT : (p', Node.tagsLeaf ks vs) ∈ PT := by
    simp only [Multiset.mem_add] at hpn
    rcases hpn with hx | (hx | hx) | hx
    · obtain ⟨es, hes, -⟩ := L.free
      exact absurd trivial (free_pages hes _ hx)
    · obtain ⟨K, hK, -, rfl, -⟩ := L.trees.events
      exact absurd trivial (event_pages hK.tr _ hx)
    · exact hx
    · exact absurd trivial (track_pages L.trees.track _ hx)
  obtain ⟨-, hidx⟩ := tags_pages L.trees.tags hPT
  have hall : ∀ x ∈ pairsOf (leafEntries ks vs), HasTag H8 env.H kw (recordedAt s.log) x := by
    intro x hx
    obtain ⟨e, he, hx⟩ := List.mem_flatMap.mp hx
    obtain ⟨q, hq, rfl⟩ := List.mem_map.mp hx
    obtain ⟨r, hr, t, ht, htag⟩ := mem_idxOf.mp (L.index _ ▸ hidx e he q hq)
    obtain ⟨h1, h2⟩ := mem_numberFrom.mp hr
    refine ⟨r.event, ?_, t, ht, ?_⟩
    · unfold recordedAt
      rw [if_neg (by simp only; omega), h2]; rfl
    · by_cases hw : kw = 8
      · rw [if_pos hw, h8 hw, htag]
      · rw [if_neg hw, htag]
  -- the bytes
  have hk := hc.kw
  obtain ⟨h09, -, len, hlen, hdec⟩ := deserialize_tagsLeaf hd
  have hend : entriesEnd kw ks.length vs j ≤ len := by
    obtain ⟨d1, d2, d3, d4, rest, d5⟩ := decode_tagsLeaf hk hdec
    have := values_end _ j _ d3 d5
    have hl : ((b0.drop 9).take len).length ≤ len := by rw [List.length_take]; omega
    unfold entriesEnd
    omega
  have hb1 : (b.drop 9).take (entriesEnd kw ks.length vs j) = ((b0.drop 9).take len).take (entriesEnd kw ks.length vs j) := by
    rw [hb, List.take_take, Nat.min_eq_left hend]
  obtain ⟨out, notes, r1, r2⟩ := C81_recovers hk hdec hb1
  obtain ⟨out8, notes8, r3, -⟩ := forensicParse_spec (b.drop 9) (kw := 8) (by omega)
  have hbody : forensicBody b = b.drop 9 := by unfold forensicBody; rw [if_pos hb9]
  refine ⟨_, by simp only [autopsy, hbody, r1, r3, bind, Except.bind]; rfl, r2, ?_, ?_⟩
  · intro x hx
    refine hall x ?_
    obtain ⟨e, he, hx⟩ := List.mem_flatMap.mp hx
    exact List.mem_flatMap.mpr ⟨e, List.mem_of_mem_take he, hx⟩
  · intro hj
    have hle : (leafEntries ks vs).length ≤ j := by unfold leafEntries; rw [List.length_zip]; omega
    have hout : out = leafEntries ks vs := by
      have hlo : out.length ≤ j := by
        refine Nat.le_trans ?_ hj
        obtain ⟨d1, d2, d3, d4, rest, d5⟩ := decode_tagsLeaf hk hdec
        unfold entriesEnd at hb1
        have l1 := take_eq_length hb1 (k := 2 + ks.length * kw) (by omega) d3
        have e1 := take_prefix_drop hb1 (off := 0) (k := 2) (by omega)
        have e2 := keysAt_same hk hb1 (off := 2) ks.length 0 (by rw [Nat.zero_add]; omega) (by rw [Nat.zero_add]; omega)
        unfold forensicParse at r1
        rw [if_neg (by omega), cutOut_ok (i := 0) (k := 2) (by omega)] at r1
        simp only [bind, Except.bind, e1, d2] at r1
        rw [if_neg (by omega), e2, d4] at r1
        simp only at r1
        cases hv : valuesAt (b.drop 9) ks 0 (2 + ks.length * kw) with
        | error e => rw [hv] at r1; cases r1
        | ok x =>
          rw [hv] at r1
          cases r1
          exact valuesAt_length ks 0 _ l1 (notes := x.2) hv
      rw [List.take_of_length_le hlo, List.take_of_length_le hle] at r2
      exact r2
    refine ⟨hout, ?_⟩
    simp only [hout]
    obtain ⟨a1, a2, a3, a4⟩ := C81_analysis H8 env.H kw (recordedAt s.log) (leafEntries ks vs)
    have c2 : (pairsOf (leafEntries ks vs)).countP (fun x => (recordedAt s.log x.1).isSome) = (pairsOf (leafEntries ks vs)).length := by
      rw [List.countP_eq_length]
      intro x hx
      obtain ⟨e, he, -⟩ := hall x hx
      rw [Option.mem_def.mp he]; rfl
    have c3 : (pairsOf (leafEntries ks vs)).countP (fun x => HasTag H8 env.H kw (recordedAt s.log) x) = (pairsOf (leafEntries ks vs)).length := by
      rw [List.countP_eq_length]
      intro x hx
      exact decide_eq_true (hall x hx)
    have c4 : ((pairsOf (leafEntries ks vs)).filter fun x => (recordedAt s.log x.1).isSome && !decide (HasTag H8 env.H kw (recordedAt s.log) x)) = [] := by
      rw [List.filter_eq_nil_iff]
      intro x hx
      rw [decide_eq_true (hall x hx)]
      simp
    rw [c2] at a2
    rw [c3] at a3
    rw [c4] at a4
    cases hfin : analyzeEntries H8 env.H kw (recordedAt s.log) (leafEntries ks vs) with
    | mk t w m mm =>
      rw [hfin] at a1 a2 a3 a4
      simp only at a1 a2 a3 a4
      rw [a1, a2, a3, a4]; rfl

/-! ## Totality -/

/-- C81: Stage 4 ends without a panic for every page whatever its bytes, and reports nothing exactly when the decoder accepts the bytes. -/
theorem C81_total (H8 H : String → Nat) {kw : Nat} (hk : kw ≤ 16) (events : Nat → Option Event) (bytes : Bytes) :
    ∃ a, autopsy H8 H kw events bytes = .ok a ∧
      (a.current.2 = [] ↔ ∃ ks vs, decode kw 0x36 (forensicBody bytes) = .ok (.tagsLeaf ks vs) ∧ a.current.1 = leafEntries ks vs) ∧
      (a.legacy.2 = [] ↔ ∃ ks vs, a.core = .ok (.tagsLeaf ks vs) ∧ a.legacy.1 = leafEntries ks vs) := by
  have key : ∀ {w : Nat}, w ≤ 16 → ∃ out notes, forensicParse (forensicBody bytes) w = .ok (out, notes) ∧
      (notes = [] ↔ ∃ ks vs, decode w 0x36 (forensicBody bytes) = .ok (.tagsLeaf ks vs) ∧ out = leafEntries ks vs) := by
    intro w hw
    obtain ⟨out, notes, h1, h2, h3⟩ := forensicParse_spec (forensicBody bytes) hw
    refine ⟨out, notes, h1, fun hn => ?_, ?_⟩
    · have hd : decode w 0x36 (forensicBody bytes) = match decLeaf .tagsLeaf (readTagHash w) decTagsValue (forensicBody bytes) with
        | .error e => .error e
        | .ok (n, _) => .ok n := rfl
      cases hx : decode w 0x36 (forensicBody bytes) with
      | error e => exact absurd hn (h3 e hx)
      | ok n =>
        have : Answers (fun n => ∃ ks vs, n = Node.tagsLeaf ks vs) (decLeaf .tagsLeaf (readTagHash w) decTagsValue) :=
          answers_leaf fun _ _ => ⟨_, _, rfl⟩
        cases hy : decLeaf .tagsLeaf (readTagHash w) decTagsValue (forensicBody bytes) with
        | error e => rw [hd, hy] at hx; cases hx
        | ok x =>
          rw [hd, hy] at hx
          cases hx
          obtain ⟨ks, vs, hk⟩ := this _ _ _ hy
          refine ⟨ks, vs, by rw [hk], (h2 ks vs (by rw [hd, hy, ← hk])).1⟩
    · rintro ⟨ks, vs, hd, -⟩
      exact (h2 ks vs hd).2
  obtain ⟨o1, n1, k1, k2⟩ := key hk
  obtain ⟨o2, n2, k3, k4⟩ := key (w := 8) (by omega)
  refine ⟨_, by simp only [autopsy, k1, k3, bind, Except.bind]; rfl, k2, k4⟩

/-- C81: the second reading of a page, for files of the old format, is the one the page would get as a page of a database of that format;
the first does not depend on it. -/
theorem C81_legacy (H8 H : String → Nat) {kw : Nat} (hk : kw ≤ 16) (events : Nat → Option Event) (bytes : Bytes) :
    ∃ a b, autopsy H8 H kw events bytes = .ok a ∧ autopsy H8 H 8 events bytes = .ok b ∧ a.legacy = b.current ∧
      a.legacyFindings = b.currentFindings ∧ a.core = decode 8 0x36 (forensicBody bytes) := by
  obtain ⟨o1, n1, k1, -⟩ := forensicParse_spec (forensicBody bytes) hk
  obtain ⟨o2, n2, k2, -⟩ := forensicParse_spec (forensicBody bytes) (kw := 8) (by omega)
  refine ⟨_, _, by simp only [autopsy, k1, k2, bind, Except.bind]; rfl, by simp only [autopsy, k2, bind, Except.bind]; rfl, rfl, rfl, rfl⟩

/-- C81: a leaf of the tag index with damage after its first byte is kept for Stage 4 exactly when it can no longer be read. -/
theorem C81_kept {kw : Nat} {b0 b : Bytes} {ks : List Nat} {vs : List TagsValue} (hd : deserializePage kw b0 = .ok (.tagsLeaf ks vs))
    (hb : b.take 1 = b0.take 1) : forensicPage kw b = true ↔ ∃ e, deserializePage kw b = .error e := by
  obtain ⟨h1, h2, -⟩ := deserialize_tagsLeaf hd
  have h3 : b.head? = some 0x36 := by
    rw [← h2]
    cases b <;> cases b0 <;> simp_all
  unfold forensicPage
  rw [h3]
  cases deserializePage kw b <;> simp [failed]

/-! ## Examples -/

theorem mem_ents_rsq {κ E : Type} {e : E} : ∀ {R : Rights κ E}, e ∈ ents (rsq R) → ∃ y ∈ R, e ∈ ents y.2.sq
  | [], h => by simp at h
  | y :: R, h => by
    rw [rsq_cons, ents_sep, ents_append, List.mem_append] at h
    rcases h with h | h
    · exact ⟨y, by simp, h⟩
    · obtain ⟨z, hz, h⟩ := mem_ents_rsq h
      exact ⟨z, by simp [hz], h⟩

/-- An entry is in one of the leaves. -/
theorem tr_ents {κ E : Type} {Y : Layout κ E} {K : Kid κ E} (h : Tr Y K) : ∀ e ∈ ents K.sq, ∃ k, Y.Leaf k ∧ e ∈ ents k.sq ∧ ∀ x ∈ k.pg, x ∈ K.pg := by
  induction h with
  | leaf k hk => exact fun e he => ⟨k, hk, he, fun x hx => hx⟩
  | node id m R hm hR _ ihm ihR =>
    intro e he
    simp only [nodeKid, lsq_nil, List.nil_append, ents_append, List.mem_append] at he
    rcases he with he | he
    · obtain ⟨k, h1, h2, h3⟩ := ihm e he
      refine ⟨k, h1, h2, fun x hx => ?_⟩
      simp only [nodeKid, lpg_nil, zero_add, Multiset.mem_add]
      exact .inr (.inl (h3 x hx))
    · have := mem_ents_rsq he
      obtain ⟨y, hy, he⟩ := this
      obtain ⟨k, h1, h2, h3⟩ := ihR y hy e he
      refine ⟨k, h1, h2, fun x hx => ?_⟩
      simp only [nodeKid, lpg_nil, zero_add, Multiset.mem_add]
      exact .inr (.inr (mem_rpg.mpr ⟨y, hy, h3 x hx⟩))

section Examples

/-- Two tags of width 8, the first with two positions, the second with three. -/
def exLeafBody : Bytes := encode 8 (.tagsLeaf [5 * 256 ^ 8, 9 * 256 ^ 8] [⟨0, [1, 3]⟩, ⟨0, [2, 4, 300]⟩])

theorem exLeafBody_decodes : decode 8 0x36 exLeafBody = .ok (.tagsLeaf [5 * 256 ^ 8, 9 * 256 ^ 8] [⟨0, [1, 3]⟩, ⟨0, [2, 4, 300]⟩]) := by decide +kernel

/-- C81: the bytes of the second value are damaged, the first entry is recovered; so is everything when the damage comes later. -/
example (tail : Bytes) : ∃ out notes, forensicParse (exLeafBody.take 44 ++ tail) 8 = .ok (out, notes) ∧ out.take 1 = [(5 * 256 ^ 8, [1, 3])] := by
  refine C81_recovers (by omega) exLeafBody_decodes (j := 1) ?_
  show (exLeafBody.take 44 ++ tail).take 44 = exLeafBody.take 44
  have h : (exLeafBody.take 44).length = 44 := by decide +kernel
  rw [List.take_append_of_le_length (by omega), List.take_of_length_le (by omega)]

/-- C81: what is found when the page ends within the second value: one position, the second is not made up from the three bytes left. -/
example : forensicParse (exLeafBody.take 65) 8 = .ok ([(5 * 256 ^ 8, [1, 3]), (9 * 256 ^ 8, [2])], [.positionsCut 1]) := by decide +kernel

/-- The damaged byte gives a larger number of positions: those after the end are not read, and those there are may be wrong. -/
example : forensicParse (exLeafBody.take 52 ++ [200] ++ exLeafBody.drop 53) 8 =
    .ok ([(5 * 256 ^ 8, [1, 3]), (9 * 256 ^ 8, [2, 4, 300])], [.positionsCut 1]) := by decide +kernel

/-- The number of positions of the first value is damaged: bytes of the second value are taken for positions of the first,
without a note (only the checksum tells). -/
example : forensicParse (exLeafBody.take 26 ++ [4] ++ exLeafBody.drop 27) 8 =
    .ok ([(5 * 256 ^ 8, [1, 3, 0, 131075]), (9 * 256 ^ 8, [])], []) := by decide +kernel

/-- C81: counts with one position without an event and one whose event has another tag. -/
example : analyzeEntries (fun _ => 0) (fun t => if t = "x" then 5 else 9) 16 (recordedAt exLog) [(5, [1, 2, 7]), (9, [1, 2])] =
    ⟨5, 4, 3, [(2, 9)]⟩ := by decide +kernel

/-- C81: for the old width only the first eight bytes count. -/
example : (analyzeEntries (fun _ => 5 * 256 ^ 8 + 1) (fun _ => 0) 8 (recordedAt exLog) [(5 * 256 ^ 8, [1])]).matching = 1 ∧
    (analyzeEntries (fun _ => 5 * 256 ^ 8 + 1) (fun _ => 0) 16 (recordedAt exLog) [(5 * 256 ^ 8, [1])]).matching = 0 := by decide +kernel

/-- C81: the leaf with the tag of the two events of `exAfter`, for any damage after the entries. -/
example : ∃ (d : PDb) (h : Codec.Header) (p : Nat) (b0 : Bytes) (ks : List Nat) (vs : List TagsValue), d.header = .ok h ∧ p ∈ usedPages exConf d h ∧
    readPageBytes exConf.g p d.file = .ok b0 ∧ 7 ∈ ks ∧ ∀ b : Bytes, 9 ≤ b.length →
      (b.drop 9).take (entriesEnd 16 ks.length vs ks.length) = (b0.drop 9).take (entriesEnd 16 ks.length vs ks.length) →
      ∃ a, autopsy (fun _ => 0) exConstEnv.H 16 (recordedAt exAfter.log) b = .ok a ∧ a.current.1 = leafEntries ks vs ∧
        a.currentFindings.mismatches = [] := by
  obtain ⟨d, d', -, -, -, hd'⟩ := exStored
  have hL : Live exConf exConf_ok exConstEnv.H d' exAfter := hd'
  obtain ⟨hp, h, PE, PT, PK, PF, ix, F, L, -⟩ := hd'
  obtain ⟨K, hK, -, hPT, -, hi⟩ := L.trees.tags
  have h1 : 1 ∈ ix 7 := (L.index 7).symm ▸ mem_idxOf.mpr ⟨⟨exEv 1, some ⟨"up", 9⟩⟩, mem_numberFrom.mpr ⟨by omega, rfl⟩, "t", by simp [exEv], rfl⟩
  rcases hi 7 with ⟨e, he, hek, -⟩ | ⟨-, h0⟩
  · obtain ⟨k, ⟨es, hk, -⟩, he', hsub⟩ := tr_ents hK.tr e he
    have hx : (k.id, tgNode es) ∈ PT := by
      rw [hPT]
      refine hsub _ ?_
      rw [hk]
      simp [tgKid]
    have hx' : (k.id, tgNode es) ∈ PF + (PE + PT + PK) := by simp [hx]
    have hf := L.file _ _ hx'
    unfold readPage at hf
    cases hb : readPageBytes exConf.g k.id d'.file with
    | error e => rw [hb] at hf; cases hf
    | ok b0 =>
      rw [hb] at hf
      simp only at hf
      have hu : k.id ∈ usedPages exConf d' h := by
        have : k.id ∈ (usedPages exConf d' h : Multiset Nat) := by rw [LiveAt.used_eq L]; exact mem_ids_of hx'
        exact this
      refine ⟨d', h, k.id, b0, es.map (·.key), es.map (·.val), L.header_eq, hu, hb, ?_, fun b h9 hbb => ?_⟩
      · rw [hk] at he'
        simp only [tgKid, ents_map] at he'
        exact List.mem_map.mpr ⟨e, he', hek⟩
      · obtain ⟨a, a1, -, -, a4⟩ := C81_page hL L.header_eq hu hb hf (H8 := fun _ => 0) (fun h => nomatch h) h9 hbb
        obtain ⟨a5, a6⟩ := a4 (Nat.le_refl _)
        exact ⟨a, a1, a5, by rw [a6]⟩
  · rw [h0] at h1; cases h1

end Examples

end Uma.Props
