import Verif.Page.Walk

/-!
# Looking up a key in a tree without changing anything

The loops of `event_tree_lookup` (events_tree.rs 496-543), `get_tracking_info` (db.rs 45-77) and the first part of
`TagsTreeIterator::next_batch` (tags_tree.rs 678-766).
-/

namespace Uma.Page
open Uma.Codec

variable {κ E : Type}

/-- Follow child `pick keys kids` down to a leaf. -/
def findLeaf (O : Ops κ) (pick : List κ → List Nat → Nat) (v : Nat → Option Node) : Nat → Nat → Except Err Node
  | 0, _ => .error (.internal "out of fuel")
  | fuel + 1, id =>
    match v id with
    | none => .error (.pageNotFound id)
    | some n =>
      if O.isLeaf n then .ok n
      else match O.un n with
        | none => .error (.databaseCorrupted "Invalid node type in tree")
        | some (keys, kids) =>
          match kids[pick keys kids]? with
          | none => .error (.databaseCorrupted "Child index out of bounds")
          | some c => findLeaf O pick v fuel c

variable {Y : Layout κ E} {v : Nat → Option Node}

theorem findLeaf_spec {pick : List κ → List Nat → Nat} (hp : PickOk pick) {K : Kid κ E} (hK : Tr Y K) :
    ∀ (fuel : Nat), K.pg.card ≤ fuel → Sees v K.pg →
    ∃ fs k n, Found Y pick K fs k ∧ findLeaf Y.ops pick v fuel K.id = .ok n ∧ (k.id, n) ∈ k.pg ∧ v k.id = some n ∧
      k.pg ≤ K.pg := by
  induction hK with
  | leaf k hk =>
    intro fuel hfuel hs
    have hpos := Tr.card_pos (.leaf k hk)
    obtain ⟨fuel, rfl⟩ : ∃ f, fuel = f + 1 := ⟨fuel - 1, by omega⟩
    obtain ⟨n, P, e, hn⟩ := Y.leaf_page k hk
    have hm : (k.id, n) ∈ k.pg := by rw [e]; simp
    have hv := hs _ _ hm
    refine ⟨[], k, n, ⟨rfl, by simp, by simp, hk⟩, ?_, hm, hv, le_refl _⟩
    unfold findLeaf
    rw [hv]
    simp only [hn, if_true]
  | node id m R hm hR hf ihm ihR =>
    intro fuel hfuel hs
    obtain ⟨fuel, rfl⟩ : ∃ f, fuel = f + 1 := ⟨fuel - 1, by
      have := Tr.card_pos (Tr.node (Y := Y) id m R hm hR hf); omega⟩
    set keys := keysOf ([] : Lefts κ E) R with hkeys
    set kids := kidsOf ([] : Lefts κ E) m.id R with hkids
    have hlen : kids.length = keys.length + 1 := kidsOf_length _ _ _
    have hi : pick keys kids ≤ R.length := by
      have := hp keys kids hlen
      simpa [hkeys, keysOf] using this
    have hv : v id = some (Y.ops.inner keys kids) := hs _ _ (by simp [nodeKid, hkeys, hkids])
    let G : Kid κ E → Prop := fun c => Tr Y c ∧
      ∀ (fuel : Nat), c.pg.card ≤ fuel → Sees v c.pg →
      ∃ fs k n, Found Y pick c fs k ∧ findLeaf Y.ops pick v fuel c.id = .ok n ∧ (k.id, n) ∈ k.pg ∧ v k.id = some n ∧
        k.pg ≤ c.pg
    obtain ⟨L', m', R', e, hl, hk, hc, a, b, d⟩ := nodeKid_focus Y.ops id G (pick keys kids) [] m R (by simp)
      ⟨hm, ihm⟩ (fun x hx => ⟨hR x hx, ihR x hx⟩) hi
    have hl : L'.length = pick keys kids := by simpa using hl
    have hget : kids[pick keys kids]? = some m'.id := by
      rw [← hl, hkids, ← hc]
      simp [kidsOf]
    have hcard : m'.pg.card ≤ fuel := by
      have := congrArg (fun k => k.pg.card) e
      have h2 : (nodeKid Y.ops id [] m R).pg.card ≤ fuel + 1 := hfuel
      rw [show (nodeKid Y.ops id [] m R).pg.card = _ from this] at h2
      simp [nodeKid] at h2
      omega
    rw [e] at hs ⊢
    have hle : m'.pg ≤ (nodeKid Y.ops id L' m' R').pg := by
      have : (nodeKid Y.ops id L' m' R').pg =
        ({(id, Y.ops.inner (keysOf L' R') (kidsOf L' m'.id R'))} + lpg L' + rpg R') + m'.pg := by
        simp only [nodeKid]; abel
      rw [this]; exact Multiset.le_add_left _ _
    obtain ⟨fs, k, n, hF, h1, h2, h3, h4⟩ := b.2 fuel hcard (hs.sub hle)
    have hframe : FrOk Y ⟨id, L', R'⟩ := ⟨fun x hx => (a x hx).1, fun x hx => (d x hx).1, by
      show Y.fit (keysOf L' R'); rw [hk]; simpa [keysOf] using hf⟩
    refine ⟨fs ++ [⟨id, L', R'⟩], k, n, ⟨?_, ?_, ?_, hF.leaf⟩, ?_, h2, h3, h4.trans hle⟩
    · rw [plug_append, hF.eq]; rfl
    · intro f hf'
      rcases List.mem_append.mp hf' with hf' | hf'
      · exact hF.frames f hf'
      · cases List.mem_singleton.mp hf'; exact hframe
    · intro f hf'
      rcases List.mem_append.mp hf' with hf' | hf'
      · exact hF.picked f hf'
      · cases List.mem_singleton.mp hf'
        refine ⟨kids, ?_, ?_⟩
        · show kids.length = (keysOf L' R').length + 1; rw [hk]; exact hlen
        · show L'.length = pick (keysOf L' R') kids; rw [hk]; exact hl
    · show findLeaf Y.ops pick v (fuel + 1) id = _
      unfold findLeaf
      rw [hv]
      simp only [Y.inner_leaf, Y.un_inner, Bool.false_eq_true, if_false, hget]
      exact h1

end Uma.Page
