import Verif.Page.Db
import Verif.Db.Damage

/-!
# Unreadable pages

`Fewer v' v`: `v'` is `v` with some pages unreadable.  Reading and changing trees then does the same or fails.
-/

namespace Uma.Page
open Uma.Codec Uma.Db

/-- Every page that can be read in `v'` is the page read in `v`. -/
def Fewer (v' v : Nat → Option Node) : Prop := ∀ p n, v' p = some n → v p = some n

theorem Fewer.refl (v : Nat → Option Node) : Fewer v v := fun _ _ h => h

theorem Fewer.cases {v' v : Nat → Option Node} (h : Fewer v' v) (p : Nat) : v' p = v p ∨ v' p = none := by
  cases hp : v' p with
  | none => exact .inr rfl
  | some n => exact .inl (h p n hp).symm

theorem lost_page (p : Nat) : Lost (.pageNotFound p) := .inl ⟨p, rfl⟩

variable {κ α : Type} {v' v : Nat → Option Node}

theorem findLeaf_fewer (hv : Fewer v' v) (O : Ops κ) (pick : List κ → List Nat → Nat) : ∀ (fuel id : Nat),
    OrLost (findLeaf O pick v' fuel id) (findLeaf O pick v fuel id) := by
  intro fuel
  induction fuel with
  | zero => intro id; exact .inl rfl
  | succ fuel ih =>
    intro id
    unfold findLeaf
    rcases hv.cases id with h | h
    · rw [h]
      cases v id with
      | none => exact .inl rfl
      | some n =>
        simp only
        split
        · exact .inl rfl
        · split
          · exact .inl rfl
          · split
            · exact .inl rfl
            · exact ih _
    · rw [h]; exact .inr ⟨_, rfl, lost_page _⟩

theorem readChain_fewer (hv : Fewer v' v) : ∀ (fuel p : Nat), OrLost (readChain v' fuel p) (readChain v fuel p) := by
  intro fuel
  induction fuel with
  | zero => intro p; unfold readChain; exact .inl rfl
  | succ fuel ih =>
    intro p
    unfold readChain
    split
    · exact .inl rfl
    · rcases hv.cases p with h | h
      · simp only [h]
        split
        · exact .inl rfl
        · next next data _ =>
          rcases ih next with h1 | ⟨e, h1, h2⟩
          · rw [h1]; exact .inl rfl
          · rw [h1]; exact .inr ⟨e, rfl, h2⟩
        · exact .inl rfl
      · simp only [h]; exact .inr ⟨_, rfl, lost_page _⟩

theorem materialize_fewer (hv : Fewer v' v) (x : EventValue) : OrLost (materialize v' x) (materialize v x) := by
  cases x with
  | inline r => exact .inl rfl
  | overflow et dl tags root uuid ml tr =>
    simp only [materialize]
    rcases readChain_fewer hv (dl + ml + 1) root with h | ⟨e, h, h2⟩
    · rw [h]; exact .inl rfl
    · rw [h]; exact .inr ⟨e, rfl, h2⟩

theorem evLookup_fewer (hv : Fewer v' v) (fuel root pos : Nat) : OrLost (evLookup v' fuel root pos) (evLookup v fuel root pos) := by
  unfold evLookup
  rcases findLeaf_fewer hv evOps (fun keys _ => ub keys pos) fuel root with h | ⟨e, h, h2⟩
  · rw [h]
    split
    · exact .inl rfl
    · split
      · exact .inl rfl
      · split
        · exact .inl rfl
        · exact materialize_fewer hv _
    · exact .inl rfl
  · rw [h]; exact .inr ⟨e, rfl, h2⟩

/-- Two walks of the same shape, the first of which may fail at leaves. -/
structure Walk.Like (D' D : Walk κ α) : Prop where
  un : D'.un = D.un
  first : D'.first = D.first
  back : D'.back = D.back
  oob : D'.outOfBounds = D.outOfBounds
  leaf : ∀ n o, OrLost (D'.leaf n o) (D.leaf n o)

theorem Walk.step_fewer {D' D : Walk κ α} (hD : D'.Like D) (hv : Fewer v' v) (p : Nat) (o : Option Nat) (st : Stack) :
    OrLost (D'.step v' p o st) (D.step v p o st) := by
  unfold Walk.step
  rcases hv.cases p with h | h
  · rw [h]
    cases v p with
    | none => exact .inl rfl
    | some n =>
      simp only [hD.un, hD.first, hD.oob]
      split
      · rcases hD.leaf n o with h | ⟨e, h, h2⟩
        · rw [h]; exact .inl rfl
        · rw [h]; exact .inr ⟨e, rfl, h2⟩
      · have hr : ∀ i kids, D'.revisit p i kids st = D.revisit p i kids st := by
          intro i kids; unfold Walk.revisit; rw [hD.back]
        simp only [hr]
        exact .inl rfl
  · rw [h]; exact .inr ⟨_, rfl, lost_page _⟩

theorem Walk.run_fewer {D' D : Walk κ α} (hD : D'.Like D) (hv : Fewer v' v) : ∀ (fuel : Nat) (st : Stack),
    D'.run v' fuel st = D.run v fuel st ∨
      ((D'.run v' fuel st).1 <+: (D.run v fuel st).1 ∧ ∃ e, (D'.run v' fuel st).2 = some e ∧ Lost e) := by
  intro fuel
  induction fuel with
  | zero => intro st; cases st <;> exact .inl rfl
  | succ fuel ih =>
    intro st
    cases st with
    | nil => exact .inl rfl
    | cons x st =>
      obtain ⟨p, o⟩ := x
      unfold Walk.run
      rcases Walk.step_fewer hD hv p o st with h | ⟨e, h, h2⟩
      · rw [h]
        split
        · exact .inl rfl
        · next es st' _ =>
          rcases ih st' with h | ⟨h1, h2⟩
          · rw [h]; exact .inl rfl
          · exact .inr ⟨by simpa using h1, h2⟩
      · rw [h]; exact .inr ⟨List.nil_prefix, e, rfl, h2⟩

theorem evWalk_like (hv : Fewer v' v) (start : Option Nat) (back : Bool) : (evWalk v' start back).Like (evWalk v start back) where
  un := rfl
  first := rfl
  back := rfl
  oob := rfl
  leaf n o := by
    unfold evWalk
    cases n <;> try exact .inl rfl
    simp only
    split
    · exact .inl rfl
    · exact .inl rfl
    · unfold evLeafAt
      split
      · split
        · next k val _ _ =>
          rcases materialize_fewer hv val with h | ⟨e, h, h2⟩
          · rw [h]; exact .inl rfl
          · rw [h]; exact .inr ⟨e, rfl, h2⟩
        · exact .inl rfl
      · exact .inl rfl

theorem evScan_fewer (hv : Fewer v' v) (fuel root : Nat) (start : Option Nat) (back : Bool) :
    evScan v' fuel root start back = evScan v fuel root start back ∨
      ((evScan v' fuel root start back).1 <+: (evScan v fuel root start back).1 ∧
        ∃ e, (evScan v' fuel root start back).2 = some e ∧ Lost e) := by
  unfold evScan
  split
  · exact .inl rfl
  · exact Walk.run_fewer (evWalk_like hv start back) hv _ _

theorem tagScan_fewer (hv : Fewer v' v) (bs : List Nat → Nat → Nat) (fuel root tag : Nat) (start : Option Nat) (back : Bool) :
    tagScan bs v' fuel root tag start back <+: tagScan bs v fuel root tag start back := by
  unfold tagScan
  rcases findLeaf_fewer hv tagsOps (fun keys _ => ub keys tag) fuel root with h | ⟨e, h, -⟩
  · rw [h]
    split
    · split
      · exact List.prefix_rfl
      · split
        · exact List.prefix_rfl
        · split
          · exact List.prefix_rfl
          · rcases Walk.run_fewer (D' := perWalk bs start back) (D := perWalk bs start back) ⟨rfl, rfl, rfl, rfl, fun _ _ => .inl rfl⟩
              hv fuel [(_, none)] with h | h
            · rw [h]
            · exact h.1
    · exact List.prefix_rfl
  · rw [h]; exact List.nil_prefix

theorem snapOf_fewer (hv : Fewer v' v) (c : Conf) (fuel er tr : Nat) : Worse (snapOf c v' fuel er tr) (snapOf c v fuel er tr) where
  scan st b := evScan_fewer hv fuel er st b
  lookup p := evLookup_fewer hv fuel er p
  tagScan h st b := tagScan_fewer hv c.bs fuel tr h st b

theorem trackLookup_fewer (hv : Fewer v' v) (fuel root : Nat) (src : String) :
    OrLost (trackLookup v' fuel root src) (trackLookup v fuel root src) := by
  unfold trackLookup
  split
  · exact .inl rfl
  · rcases findLeaf_fewer hv trOps (fun keys _ => ub keys src) fuel root with h | ⟨e, h, h2⟩
    · rw [h]; exact .inl rfl
    · rw [h]; exact .inr ⟨e, rfl, h2⟩

/-- An index page that cannot be read makes the index look empty. -/
theorem tagScan_blind {bs : List Nat → Nat → Nat} {root : Nat} (h : v root = none) (fuel tag : Nat) (start : Option Nat)
    (back : Bool) : tagScan bs v fuel root tag start back = [] := by
  unfold tagScan
  cases fuel with
  | zero => rfl
  | succ fuel => unfold findLeaf; rw [h]

/-- An event tree whose root cannot be read gives an error. -/
theorem evScan_blind {root : Nat} (h : v root = none) {fuel : Nat} (hf : fuel ≠ 0) {start : Option Nat} {back : Bool}
    (hs : ¬ (back = true ∧ start = some 0)) : evScan v fuel root start back = ([], some (.pageNotFound root)) := by
  obtain ⟨n, rfl⟩ : ∃ n, fuel = n + 1 := ⟨fuel - 1, by omega⟩
  unfold evScan Walk.run Walk.step
  rw [if_neg hs, h]

end Uma.Page
