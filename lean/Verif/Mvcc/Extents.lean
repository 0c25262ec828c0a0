import Verif.Mvcc.Sort

/-!
# Order in which recyclable pages are handed out

The second half of `find_reusable_page_ids_with_snapshot`, umadb-core/src/mvcc.rs 1267-1316.  A pair is
`(page id, transaction that freed it)`.
-/

namespace Uma.Mvcc

/-- mvcc.rs 1271. -/
def byPage (a b : Nat × Nat) : Bool := decide (a.1 ≤ b.1)

/-- The grouping loop, mvcc.rs 1274-1290: `cur` is `current_extent` (last element last), `acc` is `extents`. -/
def groupExtents : (acc : List (List (Nat × Nat))) → (cur : List (Nat × Nat)) → List (Nat × Nat) →
    List (List (Nat × Nat))
  | acc, cur, [] => if cur.isEmpty then acc else acc ++ [cur]
  | acc, cur, p :: ps =>
    match cur.getLast? with
    | some last =>
      if p.1 = last.1 + 1 then groupExtents acc (cur ++ [p]) ps
      else groupExtents (acc ++ [cur]) [p] ps
    | none => groupExtents acc (cur ++ [p]) ps

/-- First page of an extent (`a[0].0`). -/
def startOf (e : List (Nat × Nat)) : Nat := (e.head?.map (·.1)).getD 0

/-- The comparison of mvcc.rs 1293-1300: longer first, then lower first page. -/
def extentLe (a b : List (Nat × Nat)) : Bool :=
  if a.length = b.length then decide (startOf a ≤ startOf b) else decide (b.length < a.length)

/-- The extents in the order in which they are handed out. -/
def extents (pages : List (Nat × Nat)) : List (List (Nat × Nat)) :=
  sortBy extentLe (groupExtents [] [] (sortBy byPage pages))

/-- mvcc.rs 1267-1310. -/
def optimize (pages : List (Nat × Nat)) : List (Nat × Nat) := (extents pages).flatten

/-- Consecutive page ids. -/
def Run (e : List (Nat × Nat)) : Prop := e ≠ [] ∧ ∀ i a b, e[i]? = some a → e[i + 1]? = some b → b.1 = a.1 + 1

theorem groupExtents_flatten (acc : List (List (Nat × Nat))) (cur ps : List (Nat × Nat)) :
    (groupExtents acc cur ps).flatten = acc.flatten ++ (cur ++ ps) := by
  induction ps generalizing acc cur with
  | nil =>
    unfold groupExtents
    cases cur <;> simp
  | cons p ps ih =>
    unfold groupExtents
    split
    · split
      · rw [ih]; simp
      · rw [ih]; simp
    · rw [ih]; simp

theorem optimize_perm (pages : List (Nat × Nat)) : (optimize pages).Perm pages := by
  have h1 : (extents pages).Perm (groupExtents [] [] (sortBy byPage pages)) := sortBy_perm _ _
  have h2 := h1.flatten
  rw [groupExtents_flatten] at h2
  exact h2.trans (by simpa using sortBy_perm byPage pages)

theorem run_snoc {e : List (Nat × Nat)} {l p : Nat × Nat} (h : Run e) (hl : e.getLast? = some l) (hp : p.1 = l.1 + 1) :
    Run (e ++ [p]) := by
  refine ⟨by simp, fun i a b ha hb => ?_⟩
  by_cases h1 : i + 1 < e.length
  · rw [List.getElem?_append_left (by omega)] at ha
    rw [List.getElem?_append_left h1] at hb
    exact h.2 i a b ha hb
  · have hne : e.length ≠ 0 := fun h0 => h.1 (List.eq_nil_of_length_eq_zero h0)
    by_cases h2 : i + 1 = e.length
    · rw [List.getElem?_append_right (by omega)] at hb
      rw [List.getElem?_append_left (by omega)] at ha
      rw [List.getLast?_eq_getElem?] at hl
      have : e.length - 1 = i := by omega
      rw [this, ha] at hl
      cases hl
      rw [h2, Nat.sub_self] at hb
      cases hb
      exact hp
    · rw [List.getElem?_eq_none (by simp; omega)] at hb
      cases hb

theorem groupExtents_run (acc : List (List (Nat × Nat))) (cur ps : List (Nat × Nat)) (ha : ∀ e ∈ acc, Run e)
    (hc : cur = [] ∨ Run cur) : ∀ e ∈ groupExtents acc cur ps, Run e := by
  induction ps generalizing acc cur with
  | nil =>
    unfold groupExtents
    intro e he
    cases cur with
    | nil => exact ha e (by simpa using he)
    | cons c cs =>
      simp only [List.isEmpty_cons, Bool.false_eq_true, if_false, List.mem_append, List.mem_singleton] at he
      rcases he with he | rfl
      · exact ha e he
      · exact hc.resolve_left (by simp)
  | cons p ps ih =>
    have hsingle : Run [p] := ⟨by simp, fun i a b _ hb => by simp at hb⟩
    unfold groupExtents
    split
    · rename_i last hl
      have hrun : Run cur := hc.resolve_left (by rintro rfl; cases hl)
      split
      · rename_i heq
        exact ih acc _ ha (.inr (run_snoc hrun hl heq))
      · refine ih _ _ ?_ (.inr hsingle)
        intro e he
        rcases List.mem_append.mp he with he | he
        · exact ha e he
        · rw [List.mem_singleton.mp he]; exact hrun
    · rename_i hl
      have : cur = [] := by cases cur with
        | nil => rfl
        | cons c cs => simp [List.getLast?_cons] at hl
      subst this
      exact ih acc _ ha (.inr hsingle)

/-- Neighbouring groups do not touch: the pages are ascending and a gap separates the groups. -/
theorem groupExtents_gap (acc : List (List (Nat × Nat))) (cur ps : List (Nat × Nat))
    (hs : (acc.flatten ++ (cur ++ ps)).Pairwise (fun a b => a.1 < b.1))
    (ha : acc.Pairwise (fun e f => ∀ a ∈ e, ∀ b ∈ f, a.1 + 1 < b.1))
    (hac : ∀ e ∈ acc, ∀ a ∈ e, ∀ b ∈ cur, a.1 + 1 < b.1)
    (hcur : cur ≠ [] ∨ acc = []) :
    (groupExtents acc cur ps).Pairwise (fun e f => ∀ a ∈ e, ∀ b ∈ f, a.1 + 1 < b.1) := by
  induction ps generalizing acc cur with
  | nil =>
    unfold groupExtents
    split
    · exact ha
    · refine List.pairwise_append.mpr ⟨ha, List.pairwise_singleton _ _, ?_⟩
      intro e he f hf
      rw [List.mem_singleton.mp hf]
      exact hac e he
  | cons p ps ih =>
    unfold groupExtents
    split
    · rename_i last hl
      have hlast : last ∈ cur := List.mem_of_getLast? hl
      have hpw := (List.pairwise_append.mp hs)
      have hpw2 := List.pairwise_append.mp hpw.2.1
      split
      · rename_i heq
        refine ih acc _ (by simpa using hs) ha ?_ (.inl (by simp))
        intro e he a hae b hb
        rcases List.mem_append.mp hb with hb | hb
        · exact hac e he a hae b hb
        · rw [List.mem_singleton.mp hb]
          have := hac e he a hae last hlast
          omega
      · rename_i hne
        have hle : ∀ a ∈ cur, a.1 ≤ last.1 := by
          obtain ⟨ys, rfl⟩ := List.getLast?_eq_some_iff.mp hl
          intro a ha'
          rcases List.mem_append.mp ha' with h | h
          · have := (List.pairwise_append.mp hpw2.1).2.2 a h last (by simp)
            omega
          · rw [List.mem_singleton.mp h]; exact Nat.le_refl _
        have hlp : last.1 < p.1 := hpw2.2.2 last hlast p (.head _)
        have hcp : ∀ a ∈ cur, a.1 + 1 < p.1 := fun a ha' => by have := hle a ha'; omega
        refine ih _ _ (by simpa using hs) ?_ ?_ (.inl (by simp))
        · refine List.pairwise_append.mpr ⟨ha, List.pairwise_singleton _ _, ?_⟩
          intro e he f hf
          rw [List.mem_singleton.mp hf]
          exact hac e he
        · intro e he a hae b hb
          rw [List.mem_singleton.mp hb]
          rcases List.mem_append.mp he with he | he
          · have h1 := hac e he a hae last hlast
            omega
          · rw [List.mem_singleton.mp he] at hae
            exact hcp a hae
    · rename_i hl
      have hnil : cur = [] := by cases cur with
        | nil => rfl
        | cons c cs => simp [List.getLast?_cons] at hl
      subst hnil
      have : acc = [] := hcur.resolve_left (by simp)
      subst this
      exact ih [] _ (by simpa using hs) .nil (by simp) (.inl (by simp))

theorem extentLe_trans (a b c : List (Nat × Nat)) (h1 : extentLe a b = true) (h2 : extentLe b c = true) :
    extentLe a c = true := by
  unfold extentLe at *
  split at h1 <;> split at h2 <;> split <;> simp at * <;> omega

theorem extentLe_total (a b : List (Nat × Nat)) : extentLe a b = true ∨ extentLe b a = true := by
  unfold extentLe
  by_cases h : a.length = b.length
  · rw [if_pos h, if_pos h.symm]; simp; omega
  · rw [if_neg h, if_neg (Ne.symm h)]; simp; omega

end Uma.Mvcc
