/-!
# The registry of live readers

`ReaderTsnRegistry`, umadb-core/src/mvcc.rs 117-180.  The `BTreeMap<Tsn, usize>` is an association list in ascending
key order.  The mutex makes every operation atomic, so a concurrent execution is a sequence of operations.
-/

namespace Uma.Mvcc

/-- `counts`: transaction number ↦ number of live readers holding it. -/
abbrev Registry := List (Nat × Nat)

/-- `register`, mvcc.rs 133-136: `*counts.entry(tsn).or_insert(0) += 1`. -/
def Registry.register (tsn : Nat) : Registry → Registry
  | [] => [(tsn, 1)]
  | (t, n) :: r =>
    if tsn < t then (tsn, 1) :: (t, n) :: r
    else if tsn = t then (t, n + 1) :: r
    else (t, n) :: Registry.register tsn r

/-- `unregister`, mvcc.rs 140-148: decrement, and drop the key when the count reaches zero. -/
def Registry.unregister (tsn : Nat) : Registry → Registry
  | [] => []
  | (t, n) :: r =>
    if tsn = t then (if n - 1 = 0 then r else (t, n - 1) :: r)
    else (t, n) :: Registry.unregister tsn r

/-- `min`, mvcc.rs 151-153: `first_key_value`. -/
def Registry.min (r : Registry) : Option Nat := r.head?.map (·.1)

/-- Readers holding `tsn` according to the registry. -/
def Registry.count (tsn : Nat) : Registry → Nat
  | [] => 0
  | (t, n) :: r => if tsn = t then n else Registry.count tsn r

/-- Keys ascending, counts positive. -/
structure Registry.WF (r : Registry) : Prop where
  sorted : r.Pairwise (fun a b => a.1 < b.1)
  pos : ∀ e ∈ r, 0 < e.2

namespace Registry

theorem WF.nil : WF [] := ⟨.nil, by simp⟩

theorem WF.tail {e : Nat × Nat} {r : Registry} (h : WF (e :: r)) : WF r :=
  ⟨(List.pairwise_cons.mp h.sorted).2, fun x hx => h.pos x (.tail _ hx)⟩

theorem mem_register_key {tsn k : Nat} {r : Registry} (h : k ∈ (register tsn r).map (·.1)) :
    k = tsn ∨ k ∈ r.map (·.1) := by
  induction r with
  | nil => simp [register] at h; exact .inl h
  | cons e r ih =>
    obtain ⟨t, n⟩ := e
    unfold register at h
    split at h
    · simp at h ⊢; exact h
    · split at h
      · simp at h ⊢; exact .inr h
      · simp only [List.map_cons, List.mem_cons] at h ⊢
        rcases h with h | h
        · exact .inr (.inl h)
        · rcases ih h with h | h
          · exact .inl h
          · exact .inr (.inr h)

theorem mem_unregister {tsn : Nat} {e : Nat × Nat} {r : Registry} (h : e ∈ unregister tsn r) :
    ∃ e' ∈ r, e'.1 = e.1 := by
  induction r with
  | nil => cases h
  | cons a r ih =>
    obtain ⟨t, n⟩ := a
    unfold unregister at h
    split at h
    · split at h
      · exact ⟨e, .tail _ h, rfl⟩
      · rcases List.mem_cons.mp h with rfl | h
        · exact ⟨(t, n), .head _, rfl⟩
        · exact ⟨e, .tail _ h, rfl⟩
    · rcases List.mem_cons.mp h with rfl | h
      · exact ⟨_, .head _, rfl⟩
      · obtain ⟨e', h1, h2⟩ := ih h
        exact ⟨e', .tail _ h1, h2⟩

theorem WF.register {r : Registry} (h : WF r) (tsn : Nat) : WF (register tsn r) := by
  induction r with
  | nil => exact ⟨List.pairwise_singleton _ _, by simp [Registry.register]⟩
  | cons e r ih =>
    obtain ⟨t, n⟩ := e
    have hp := List.pairwise_cons.mp h.sorted
    unfold Registry.register
    split
    · refine ⟨List.pairwise_cons.mpr ⟨?_, h.sorted⟩, ?_⟩
      · intro b hb
        rcases List.mem_cons.mp hb with rfl | hb
        · assumption
        · have := hp.1 b hb; simp only at this ⊢; omega
      · intro b hb
        rcases List.mem_cons.mp hb with rfl | hb
        · exact Nat.one_pos
        · exact h.pos b hb
    · split
      · refine ⟨List.pairwise_cons.mpr ⟨hp.1, hp.2⟩, ?_⟩
        intro b hb
        rcases List.mem_cons.mp hb with rfl | hb
        · exact Nat.succ_pos _
        · exact h.pos b (.tail _ hb)
      · rename_i h1 h2
        have ih := ih h.tail
        refine ⟨List.pairwise_cons.mpr ⟨?_, ih.sorted⟩, ?_⟩
        · intro b hb
          rcases mem_register_key (List.mem_map_of_mem (f := (·.1)) hb) with hk | hk
          · simp only at hk ⊢; omega
          · obtain ⟨c, hc, hck⟩ := List.mem_map.mp hk
            have := hp.1 c hc
            simp only at this hck ⊢; omega
        · intro b hb
          rcases List.mem_cons.mp hb with rfl | hb
          · exact h.pos _ (.head _)
          · exact ih.pos b hb

theorem WF.unregister {r : Registry} (h : WF r) (tsn : Nat) : WF (unregister tsn r) := by
  induction r with
  | nil => exact WF.nil
  | cons e r ih =>
    obtain ⟨t, n⟩ := e
    have hp := List.pairwise_cons.mp h.sorted
    unfold Registry.unregister
    split
    · split
      · exact h.tail
      · rename_i h2
        refine ⟨List.pairwise_cons.mpr ⟨hp.1, hp.2⟩, ?_⟩
        intro b hb
        rcases List.mem_cons.mp hb with rfl | hb
        · exact Nat.pos_of_ne_zero h2
        · exact h.pos b (.tail _ hb)
    · have ih := ih h.tail
      refine ⟨List.pairwise_cons.mpr ⟨?_, ih.sorted⟩, ?_⟩
      · intro b hb
        obtain ⟨c, hc, hck⟩ := mem_unregister hb
        have := hp.1 c hc
        simp only at this ⊢; omega
      · intro b hb
        rcases List.mem_cons.mp hb with rfl | hb
        · exact h.pos _ (.head _)
        · exact ih.pos b hb

theorem count_of_lt {t : Nat} {r : Registry} (h : ∀ e ∈ r, t < e.1) : count t r = 0 := by
  induction r with
  | nil => rfl
  | cons e r ih =>
    obtain ⟨t', n⟩ := e
    have h1 := h _ (.head _)
    simp only at h1
    rw [count, if_neg (by omega), ih fun e he => h e (.tail _ he)]

theorem count_register {r : Registry} (h : WF r) (tsn t : Nat) :
    count t (register tsn r) = count t r + if t = tsn then 1 else 0 := by
  induction r with
  | nil => simp [register, count]
  | cons e r ih =>
    obtain ⟨t', n⟩ := e
    have hp := List.pairwise_cons.mp h.sorted
    unfold register
    split
    · rename_i h1
      by_cases ht : t = tsn
      · have : count t ((t', n) :: r) = 0 := by
          refine count_of_lt fun e he => ?_
          rcases List.mem_cons.mp he with rfl | he
          · simp only; omega
          · have := hp.1 e he; simp only at this; omega
        rw [this, count, if_pos ht, if_pos ht]
      · rw [count, if_neg ht, if_neg ht, Nat.add_zero]
    · split
      · rename_i h2; subst h2
        by_cases ht : t = tsn
        · simp [count, ht]
        · simp [count, ht]
      · rename_i h1 h2
        by_cases ht : t = t'
        · have hne : ¬ t = tsn := by omega
          rw [if_neg hne]; simp [count, ht]
        · simp only [count, if_neg ht]; exact ih h.tail

theorem count_unregister {r : Registry} (h : WF r) (tsn t : Nat) :
    count t (unregister tsn r) = count t r - if t = tsn then 1 else 0 := by
  induction r with
  | nil => simp [unregister, count]
  | cons e r ih =>
    obtain ⟨t', n⟩ := e
    have hp := List.pairwise_cons.mp h.sorted
    unfold unregister
    split
    · rename_i h1; subst h1
      split
      · rename_i h2
        by_cases ht : t = tsn
        · subst ht
          rw [count_of_lt hp.1]
          simp [count, h2]
        · simp [count, ht]
      · by_cases ht : t = tsn
        · simp [count, ht]
        · simp [count, ht]
    · rename_i h1
      by_cases ht : t = t'
      · have hne : ¬ t = tsn := by omega
        rw [if_neg hne]; simp [count, ht]
      · simp only [count, if_neg ht]; exact ih h.tail

/-- The first key is the least transaction number with a positive count. -/
theorem min_spec {r : Registry} (h : WF r) :
    (r.min = none ∧ ∀ t, count t r = 0) ∨
    ∃ t, r.min = some t ∧ 0 < count t r ∧ ∀ t', 0 < count t' r → t ≤ t' := by
  cases r with
  | nil => left; exact ⟨rfl, fun t => rfl⟩
  | cons e r =>
    obtain ⟨t, n⟩ := e
    have hp := List.pairwise_cons.mp h.sorted
    right
    refine ⟨t, rfl, by simpa [count] using h.pos _ (.head _), fun t' ht' => ?_⟩
    apply Classical.byContradiction
    intro hlt
    rw [count_of_lt] at ht'
    · cases ht'
    · intro e he
      rcases List.mem_cons.mp he with rfl | he
      · simp only; omega
      · have := hp.1 e he; simp only at this; omega

end Registry

end Uma.Mvcc
