import Mathlib.Order.Basic
import Mathlib.Data.Nat.Basic
import Verif.Page.Tree

/-!
# Order of the content of a tree, and binary search

`slice::binary_search` of the Rust standard library is described by `Bs`: which of several equal keys it finds is left
open.
-/

namespace Uma.Page
open Uma.Codec

variable {κ E : Type} [LinearOrder κ]

def Item.key (f : E → κ) : Item κ E → κ
  | .ent e => f e
  | .sep k => k

def Item.isSep : Item κ E → Bool
  | .ent _ => false
  | .sep _ => true

/-- Keys never decrease. -/
def Weak (f : E → κ) (sq : List (Item κ E)) : Prop := sq.Pairwise fun a b => a.key f ≤ b.key f

/-- Entries left of a separator are below it, entries right of it are at or above it, and keys are distinct. -/
def ItemLt (f : E → κ) (a b : Item κ E) : Prop :=
  a.key f < b.key f ∨ (a.key f = b.key f ∧ a.isSep = true ∧ b.isSep = false)

def Strict (f : E → κ) (sq : List (Item κ E)) : Prop := sq.Pairwise (ItemLt f)

/-- Every separator is the key of the entry after it. -/
def SepEnt (f : E → κ) (sq : List (Item κ E)) : Prop :=
  ∀ a k b, sq = a ++ .sep k :: b → ∃ e b', b = .ent e :: b' ∧ f e = k

omit [LinearOrder κ] in
theorem SepEnt.dense {f : E → κ} : ∀ {sq : List (Item κ E)}, SepEnt f sq → Dense sq
  | [], _ => trivial
  | .ent e :: sq, h => SepEnt.dense (f := f) (sq := sq) fun a k b hab => h (.ent e :: a) k b (by rw [hab]; rfl)
  | .sep k :: sq, h => by
    obtain ⟨e, b, hb, -⟩ := h [] k sq rfl
    exact ⟨⟨e, b, hb⟩, SepEnt.dense (f := f) fun a k' b' hab => h (.sep k :: a) k' b' (by rw [hab]; rfl)⟩

theorem Strict.weak {f : E → κ} {sq : List (Item κ E)} (h : Strict f sq) : Weak f sq :=
  h.imp fun h => by
    rcases h with h | ⟨h, _⟩
    · exact le_of_lt h
    · exact le_of_eq h

/-- `match keys.binary_search(&x) { Ok(i) => i + 1, Err(i) => i }`. -/
structure Bs (bs : List κ → κ → Nat) : Prop where
  le : ∀ (keys : List κ) (x : κ), bs keys x ≤ keys.length
  left : ∀ (keys : List κ) (x : κ), keys.Pairwise (· ≤ ·) → ∀ k ∈ keys.take (bs keys x), k ≤ x
  right : ∀ (keys : List κ) (x : κ), keys.Pairwise (· ≤ ·) → ∀ k ∈ keys.drop (bs keys x), x ≤ k
  hit : ∀ (keys : List κ) (x : κ), keys.Pairwise (· ≤ ·) → x ∈ keys → (keys.take (bs keys x)).getLast? = some x

/-- The number of keys up to `x`: the result of the search when no key is repeated. -/
def ub (keys : List κ) (x : κ) : Nat := keys.countP fun k => decide (k ≤ x)

omit [LinearOrder κ] in
theorem split_at {l : List κ} {n : Nat} (h : n ≤ l.length) : ∃ a b, l = a ++ b ∧ a.length = n :=
  ⟨l.take n, l.drop n, (List.take_append_drop n l).symm, by simp [h]⟩

/-- A sorted list is the part up to `x` followed by the part above `x`. -/
theorem ub_split (x : κ) : ∀ keys : List κ, keys.Pairwise (· ≤ ·) →
    (∀ k ∈ keys.take (ub keys x), k ≤ x) ∧ (∀ k ∈ keys.drop (ub keys x), x < k)
  | [], _ => by simp
  | k :: keys, h => by
    obtain ⟨h1, h2⟩ := List.pairwise_cons.mp h
    obtain ⟨a, b⟩ := ub_split x keys h2
    unfold ub at *
    by_cases hk : k ≤ x
    · rw [List.countP_cons_of_pos (by simpa using hk)]
      simp only [List.take_succ_cons, List.drop_succ_cons, List.mem_cons, forall_eq_or_imp]
      exact ⟨⟨hk, a⟩, b⟩
    · have hz : List.countP (fun k => decide (k ≤ x)) keys = 0 := by
        rw [List.countP_eq_zero]
        intro j hj
        have := h1 j hj
        simpa using lt_of_lt_of_le (not_le.mp hk) this
      rw [List.countP_cons_of_neg (by simpa using hk), hz]
      simp only [List.take_zero, List.drop_zero, List.mem_cons, forall_eq_or_imp]
      refine ⟨by simp, not_le.mp hk, fun j hj => ?_⟩
      exact lt_of_lt_of_le (not_le.mp hk) (h1 j hj)

theorem ub_bs : Bs (ub (κ := κ)) where
  le keys x := List.countP_le_length
  left keys x h := (ub_split x keys h).1
  right keys x h k hk := le_of_lt ((ub_split x keys h).2 k hk)
  hit keys x h hx := by
    obtain ⟨h1, h2⟩ := ub_split x keys h
    rw [← List.take_append_drop (ub keys x) keys] at hx h
    rcases List.mem_append.mp hx with hx | hx
    · cases hl : (keys.take (ub keys x)).getLast? with
      | none => rw [List.getLast?_eq_none_iff] at hl; rw [hl] at hx; cases hx
      | some y =>
        obtain ⟨l, hy⟩ := List.getLast?_eq_some_iff.mp hl
        have hle : y ≤ x := h1 y (by rw [hy]; simp)
        rw [hy] at hx h
        rcases List.mem_append.mp hx with hx | hx
        · have := (List.pairwise_append.mp (List.pairwise_append.mp h).1).2.2 x hx y (by simp)
          rw [le_antisymm hle this]
        · rw [List.mem_singleton.mp hx]
    · exact absurd (h2 x hx) (lt_irrefl _)

/-! ## One internal page -/

omit [LinearOrder κ] in
theorem lseps_sublist (L : Lefts κ E) : (L.map (·.2)).map (Item.sep (E := E)) |>.Sublist (lsq L) := by
  induction L with
  | nil => simp
  | cons x L ih =>
    simp only [List.map_cons, lsq_cons]
    exact (List.Sublist.cons_cons _ ih).trans (List.sublist_append_right _ _)

omit [LinearOrder κ] in
theorem rseps_sublist (R : Rights κ E) : (R.map (·.1)).map (Item.sep (E := E)) |>.Sublist (rsq R) := by
  induction R with
  | nil => simp
  | cons x R ih =>
    simp only [List.map_cons, rsq_cons]
    exact (ih.trans (List.sublist_append_right _ _)).cons_cons _

omit [LinearOrder κ] in
theorem seps_sublist (O : Ops κ) (id : Nat) (L : Lefts κ E) (m : Kid κ E) (R : Rights κ E) :
    (keysOf L R).map (Item.sep (E := E)) |>.Sublist (nodeKid O id L m R).sq := by
  simp only [keysOf, List.map_append, nodeKid]
  rw [List.append_assoc]
  exact (lseps_sublist L).append ((rseps_sublist R).trans (List.sublist_append_right _ _))

theorem Weak.keys {f : E → κ} {sq : List (Item κ E)} {keys : List κ} (h : Weak f sq)
    (hs : (keys.map (Item.sep (E := E))).Sublist sq) : keys.Pairwise (· ≤ ·) := by
  have := List.pairwise_map.mp (h.sublist hs)
  exact this

theorem Strict.keys {f : E → κ} {sq : List (Item κ E)} {keys : List κ} (h : Strict f sq)
    (hs : (keys.map (Item.sep (E := E))).Sublist sq) : keys.Pairwise (· < ·) := by
  have := List.Pairwise.sublist hs h
  refine (List.pairwise_map.mp this).imp ?_
  rintro a b (h | ⟨_, _, h⟩)
  · exact h
  · simp [Item.isSep] at h

/-- Everything left of a separator is at most that separator. -/
theorem lsq_le {f : E → κ} {L : Lefts κ E} (h : Weak f (lsq L)) {x : κ} (hx : ∀ k ∈ L.map (·.2), k ≤ x) :
    ∀ i ∈ lsq L, i.key f ≤ x := by
  induction L using List.reverseRecOn with
  | nil => simp
  | append_singleton L y ih =>
    obtain ⟨c, k⟩ := y
    rw [lsq_append] at h ⊢
    simp only [lsq_cons, lsq_nil] at h ⊢
    intro i hi
    have hk : k ≤ x := hx k (by simp)
    have hik : i.key f ≤ k := by
      rw [← List.append_assoc] at h hi
      rcases List.mem_append.mp hi with hi | hi
      · exact (List.pairwise_append.mp h).2.2 i hi (.sep k) (by simp)
      · cases List.mem_singleton.mp hi; exact le_refl _
    exact le_trans hik hk

theorem le_rsq {f : E → κ} {R : Rights κ E} (h : Weak f (rsq R)) {x : κ} (hx : ∀ k ∈ R.map (·.1), x ≤ k) :
    ∀ i ∈ rsq R, x ≤ i.key f := by
  cases R with
  | nil => simp
  | cons y R =>
    obtain ⟨k, c⟩ := y
    simp only [rsq_cons] at h ⊢
    intro i hi
    have hk : x ≤ k := hx k (by simp)
    rcases List.mem_cons.mp hi with rfl | hi
    · exact hk
    · exact le_trans hk ((List.pairwise_cons.mp h).1 i hi)

/-- Where a search that takes child `L.length` has come to. -/
structure Between (f : E → κ) (x : κ) (L : Lefts κ E) (R : Rights κ E) : Prop where
  left : ∀ i ∈ lsq L, i.key f ≤ x
  right : ∀ i ∈ rsq R, x ≤ i.key f
  hit : x ∈ keysOf L R → ∃ L' c, L = L' ++ [(c, x)]

theorem between {f : E → κ} {bs : List κ → κ → Nat} (hbs : Bs bs) {O : Ops κ} {id : Nat} {L : Lefts κ E} {m : Kid κ E}
    {R : Rights κ E} (h : Weak f (nodeKid O id L m R).sq) {x : κ} (hp : L.length = bs (keysOf L R) x) :
    Between f x L R := by
  have hk := h.keys (seps_sublist O id L m R)
  have htake : (keysOf L R).take (bs (keysOf L R) x) = L.map (·.2) := by
    rw [← hp]; simp [keysOf]
  have hdrop : (keysOf L R).drop (bs (keysOf L R) x) = R.map (·.1) := by
    rw [← hp]; simp [keysOf]
  have hw : Weak f (lsq L ++ m.sq ++ rsq R) := h
  refine ⟨lsq_le (hw.sublist ((List.sublist_append_left _ _).trans (List.sublist_append_left _ _))) ?_,
    le_rsq (hw.sublist (List.sublist_append_right _ _)) ?_, fun hx => ?_⟩
  · rw [← htake]; exact hbs.left _ x hk
  · rw [← hdrop]; exact hbs.right _ x hk
  · have := hbs.hit _ x hk hx
    rw [htake, List.getLast?_map, Option.map_eq_some_iff] at this
    obtain ⟨⟨c, k⟩, hl, rfl⟩ := this
    obtain ⟨L', hL⟩ := List.getLast?_eq_some_iff.mp hl
    exact ⟨L', c, hL⟩

/-! ## A whole path -/

theorem zl_zr_bounds {f : E → κ} {bs : List κ → κ → Nat} (hbs : Bs bs) {O : Ops κ} {x : κ} (fs : List (Fr κ E)) :
    ∀ (k : Kid κ E), Weak f (plug O fs k).sq → (∀ g ∈ fs, Picked (fun keys _ => bs keys x) g) →
    (∀ i ∈ zl fs, i.key f ≤ x) ∧ (∀ i ∈ zr fs, x ≤ i.key f) := by
  induction fs with
  | nil => intro k _ _; simp [zl, zr]
  | cons g fs ih =>
    intro k h hp
    rw [plug] at h
    obtain ⟨a, b⟩ := ih _ h (fun g hg => hp g (by simp [hg]))
    obtain ⟨_, _, hl⟩ := hp g (by simp)
    have hw : Weak f (nodeKid O g.id g.L k g.R).sq := by
      rw [plug_sq] at h
      exact h.sublist ((List.sublist_append_right _ _).trans (List.sublist_append_left _ _))
    have bt := between hbs hw hl
    simp only [zl, zr]
    refine ⟨fun i hi => ?_, fun i hi => ?_⟩
    · rcases List.mem_append.mp hi with hi | hi
      · exact a i hi
      · exact bt.left i hi
    · rcases List.mem_append.mp hi with hi | hi
      · exact bt.right i hi
      · exact b i hi

/-- With distinct keys nothing outside the chosen leaf has the key searched for, except a separator on the left. -/
theorem zl_zr_strict {f : E → κ} {O : Ops κ} {x : κ} (fs : List (Fr κ E)) :
    ∀ (k : Kid κ E), Strict f (plug O fs k).sq → (∀ g ∈ fs, Picked (fun keys _ => ub keys x) g) →
    (∀ i ∈ zl fs, i.key f < x ∨ i = .sep x) ∧ (∀ i ∈ zr fs, x < i.key f) := by
  induction fs with
  | nil => intro k _ _; simp [zl, zr]
  | cons g fs ih =>
    intro k h hp
    rw [plug] at h
    obtain ⟨a, b⟩ := ih _ h (fun g hg => hp g (by simp [hg]))
    obtain ⟨_, _, hl⟩ := hp g (by simp)
    simp only at hl
    have hw : Strict f (lsq g.L ++ k.sq ++ rsq g.R) := by
      rw [plug_sq] at h
      exact List.Pairwise.sublist ((List.sublist_append_right _ _).trans (List.sublist_append_left _ _)) h
    have hk := Weak.keys (f := f) hw.weak (seps_sublist O g.id g.L k g.R)
    obtain ⟨c, d⟩ := ub_split x _ hk
    rw [← hl] at c d
    have htake : (keysOf g.L g.R).take g.L.length = g.L.map (·.2) := by simp [keysOf]
    have hdrop : (keysOf g.L g.R).drop g.L.length = g.R.map (·.1) := by simp [keysOf]
    rw [htake] at c
    rw [hdrop] at d
    simp only [zl, zr]
    refine ⟨fun i hi => ?_, fun i hi => ?_⟩
    · rcases List.mem_append.mp hi with hi | hi
      · exact a i hi
      · have hL : Strict f (lsq g.L) :=
          List.Pairwise.sublist ((List.sublist_append_left _ _).trans (List.sublist_append_left _ _)) hw
        clear a b ih h hp hl hw hk d htake hdrop
        generalize g.L = L at *
        induction L using List.reverseRecOn with
        | nil => simp at hi
        | append_singleton L y ih =>
          obtain ⟨c', k'⟩ := y
          rw [lsq_append] at hL hi
          simp only [lsq_cons, lsq_nil] at hL hi
          have hk' : k' ≤ x := c k' (by simp)
          rw [← List.append_assoc] at hL hi
          rcases List.mem_append.mp hi with hi | hi
          · left
            rcases (List.pairwise_append.mp hL).2.2 i hi (.sep k') (by simp) with h | ⟨_, _, h⟩
            · exact lt_of_lt_of_le h hk'
            · simp [Item.isSep] at h
          · cases List.mem_singleton.mp hi
            rcases lt_or_eq_of_le hk' with h | h
            · exact .inl h
            · exact .inr (by rw [h])
    · rcases List.mem_append.mp hi with hi | hi
      · have hR : Strict f (rsq g.R) := List.Pairwise.sublist (List.sublist_append_right _ _) hw
        revert hR hi d
        cases g.R with
        | nil => simp
        | cons y R =>
          obtain ⟨k', c'⟩ := y
          intro d hi hR
          simp only [rsq_cons] at hR hi
          have hk' : x < k' := d k' (by simp)
          rcases List.mem_cons.mp hi with rfl | hi
          · exact hk'
          · exact lt_of_lt_of_le hk' ((List.pairwise_cons.mp hR.weak).1 i hi)
      · exact b i hi

end Uma.Page
