import Verif.Props.Read

/-!
# C40: cancelling a read stops it

A read asks the cancel flag before each event it looks at, so it cannot go on past the moment the flag is raised.
-/

namespace Uma.Props
open Uma.Db Uma.Spec

/-- A batch asks the flag once for each event in it, and it is down each time. -/
theorem nextBatch_polls {c : Cancel} {fin : Option Err} : ∀ {n k : Nat} {rem b r : List (Nat × Record)} {k' : Nat},
    nextBatch c fin k n rem = .ok (b, r, k') → k + b.length ≤ k' ∧ (b.length < n → k + b.length < k') ∧ ∀ j, k ≤ j → j < k' → c j = false := by
  intro n
  induction n with
  | zero =>
    intro k rem b r k' h
    simp only [nextBatch] at h
    cases h
    exact ⟨Nat.le_refl _, fun h => absurd h (by simp), fun j h1 h2 => by omega⟩
  | succ n ih =>
    intro k rem b r k' h
    cases rem with
    | nil =>
      simp only [nextBatch] at h
      split at h
      · cases h
      next hc =>
      cases fin with
      | some e => cases h
      | none =>
        cases h
        refine ⟨by simp, fun _ => by simp, fun j h1 h2 => ?_⟩
        have : j = k := by omega
        rw [this]; simpa using hc
    | cons x rem =>
      simp only [nextBatch] at h
      split at h
      · cases h
      next hc =>
      split at h
      · cases h
      next hb =>
      cases h
      obtain ⟨h1, h2, h3⟩ := ih hb
      refine ⟨by simp; omega, fun h => by simp at h ⊢; have := h2 (by omega); omega, fun j h4 h5 => ?_⟩
      rcases Nat.lt_or_ge k j with h6 | h6
      · exact h3 j h6 h5
      · have : j = k := by omega
        rw [this]; simpa using hc

theorem pushBatch_length (m : Record → Bool) (limit : Option Nat) : ∀ (b : List (Nat × Record)) (out : List SeqEvent),
    (pushBatch m limit b out).1.length ≤ out.length + b.length := by
  intro b
  induction b with
  | nil => intro out; simp [pushBatch]
  | cons x b ih =>
    intro out
    obtain ⟨pos, r⟩ := x
    simp only [pushBatch]
    split
    · split
      · simp
      · have := ih (out ++ [mkSeq pos r])
        simp at this ⊢; omega
    · have := ih out
      simp at this ⊢; omega

theorem scanLoop_polls (m : Record → Bool) (batch : Nat) (limit : Option Nat) (c : Cancel) (fin : Option Err) : ∀ (n k : Nat)
    (rem : List (Nat × Record)) (out l : List SeqEvent), rem.length ≤ n → scanLoop m batch limit c fin k rem out = .ok l →
    ∀ j, k ≤ j → j ≤ k + (l.length - out.length) → c j = false := by
  intro n
  induction n with
  | zero =>
    intro k rem out l hn h j h1 h2
    have : rem = [] := List.eq_nil_of_length_eq_zero (by omega)
    subst this
    rw [scanLoop] at h
    split at h
    · cases h
    next hc =>
    split at h
    · cases h
    next b rem' k' hb =>
    have hb0 : b = [] := by
      have := nextBatch_length hb
      exact List.eq_nil_of_length_eq_zero (by rw [List.length_nil] at this; omega)
    rw [dif_pos hb0] at h
    cases h
    have : j = k := by omega
    rw [this]; simpa using hc
  | succ n ih =>
    intro k rem out l hn h j h1 h2
    rw [scanLoop] at h
    split at h
    · cases h
    next hc =>
    have hk : c k = false := by simpa using hc
    split at h
    · cases h
    next b rem' k' hb =>
    obtain ⟨p1, -, p3⟩ := nextBatch_polls hb
    have seen : ∀ j, k ≤ j → j < k' → c j = false := by
      intro j h1 h2
      rcases Nat.lt_or_ge k j with h3 | h3
      · exact p3 j h3 h2
      · have : j = k := by omega
        rw [this]; exact hk
    split at h
    · cases h
      exact seen j h1 (by omega)
    next hne =>
    have hpl := pushBatch_length m limit b out
    have hlen := nextBatch_length hb
    have hpos : 0 < b.length := List.length_pos_iff.mpr hne
    split at h
    · next out' hp =>
      cases h
      rw [hp] at hpl
      simp only at hpl
      exact seen j h1 (by omega)
    · next out' hp =>
      rw [hp] at hpl
      simp only at hpl
      rcases Nat.lt_or_ge j k' with h3 | h3
      · exact seen j h1 h3
      · refine ih k' rem' out' l (by omega) h j h3 (by omega)

theorem tagLoop_polls (s : Snap) (items : List QueryItem) (limit : Option Nat) (c : Cancel) : ∀ (gs : List Group) (k : Nat)
    (out l : List SeqEvent), tagLoop s items limit c k gs out = .ok l → ∀ j, k ≤ j → j < k + (l.length - out.length) → c j = false := by
  intro gs
  induction gs with
  | nil =>
    intro k out l h j h1 h2
    simp only [tagLoop] at h
    cases h
    omega
  | cons g gs ih =>
    intro k out l h j h1 h2
    obtain ⟨pos, tp, qp⟩ := g
    simp only [tagLoop] at h
    split at h
    · cases h
    next hc =>
    have hk : c k = false := by simpa using hc
    have go : ∀ out' : List SeqEvent, out'.length ≤ out.length + 1 → tagLoop s items limit c (k + 1) gs out' = .ok l → c j = false := by
      intro out' ho h
      rcases Nat.lt_or_ge k j with h3 | h3
      · exact ih (k + 1) out' l h j h3 (by omega)
      · have : j = k := by omega
        rw [this]; exact hk
    split at h
    · exact go out (by omega) h
    split at h
    · cases h
    split at h
    · split at h
      · cases h
        have : j = k := by simp at h2; omega
        rw [this]; exact hk
      · exact go _ (by simp) h
    · exact go out (by omega) h

/-- C40.  A read that returns events found the flag down before each of them: raised from the `j`-th time on it is asked, it lets at most
`j` events through. -/
theorem C40_cancel_stops {H : String → TagHash} {ord : List (String × List Nat) → List (String × List Nat)} {s : Snap} {q : Query}
    {start : Option Nat} {backwards : Bool} {limit : Option Nat} {force : Bool} {c : Cancel} {l : List SeqEvent}
    (h : readConditional H ord s q start backwards limit force c = .ok l) {j : Nat} (hj : ∀ i, j ≤ i → c i = true) : l.length ≤ j := by
  have key : ∀ i, i < l.length → c i = false := by
    intro i hi
    unfold readConditional at h
    split at h
    · cases h; simp at hi
    split at h
    · exact scanLoop_polls _ _ _ _ _ _ _ _ _ _ (Nat.le_refl _) h i (Nat.zero_le _) (by simp; omega)
    split at h
    · exact scanLoop_polls _ _ _ _ _ _ _ _ _ _ (Nat.le_refl _) h i (Nat.zero_le _) (by simp; omega)
    · exact tagLoop_polls _ _ _ _ _ _ _ _ h i (Nat.zero_le _) (by simp; omega)
  refine Nat.le_of_not_lt fun hn => ?_
  have h1 := key j hn
  rw [hj j (Nat.le_refl _)] at h1
  cases h1

/-- C40.  A read without limit that scans the events asks once more after the last of them: it succeeds only if the flag was down
throughout. -/
theorem C40_cancel_scan {H : String → TagHash} {ord : List (String × List Nat) → List (String × List Nat)} {s : Snap}
    {start : Option Nat} {backwards : Bool} {c : Cancel} {l : List SeqEvent}
    (h : readConditional H ord s ⟨[]⟩ start backwards none false c = .ok l) {j : Nat} (hj : j ≤ l.length) : c j = false := by
  unfold readConditional at h
  rw [if_neg (by simp), if_pos (by simp)] at h
  exact scanLoop_polls _ _ _ _ _ _ _ _ _ _ (Nat.le_refl _) h j (Nat.zero_le _) (by simp; omega)

/-- Three events; the flag goes up when it is asked for the fourth time. -/
example : readConditional exEnv.H exEnv.ord (memSnap exDb) ⟨[]⟩ none false none false (fun n => decide (3 ≤ n)) = .error .cancelledByUser := by
  rcases C40_cancel_read exEnv.H exEnv.ord exEnvOk.ord (memSnap exDb) exLog
    ((memLawful exEnv.H (fun _ => true)).snapR exRep) ⟨[]⟩ none false none false (fun n => decide (3 ≤ n)) with h | h
  · have := C40_cancel_scan h (j := 3) (by decide)
    cases this
  · exact h.1

end Uma.Props
