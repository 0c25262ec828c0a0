import Verif.Page.Upsert

/-!
# Taking things out of a tree

The two trees of the free list are the only ones from which entries are removed (mvcc.rs 1953-2410).  The way up replaces
child ids; on the lowest level a child that became empty is removed from its parent.
-/

namespace Uma.Page
open Uma.Codec

variable {κ E : Type} {A : Nat → Prop} {X : Multiset Nat}

/-- The loop over the stack when nothing is inserted: mvcc.rs 2176-2240 (with `g` writing the child id) and 2315-2395 (with
`g` replacing the child id).  The pair is the old and new id of the child; equal ids stand for `None` in the code. -/
def upWith (g : Nat → Nat → Nat → Node → Except Err (Unit × Node)) : List (Nat × Nat) → Nat → Nat → W (Nat × Nat)
  | [], o, c => pure (o, c)
  | (pid, idx) :: st, o, c => do
    let d ← getDirty pid
    modDirty d (g idx o c)
    upWith g st pid d

theorem upWith_spec {Y : Layout κ E} {g : Nat → Nat → Nat → Node → Except Err (Unit × Node)}
    (hg : ∀ (L : Lefts κ E) (R : Rights κ E) c0 c1, g L.length c0 c1 (Y.ops.inner (keysOf L R) (kidsOf L c0 R)) =
      .ok ((), Y.ops.inner (keysOf L R) (kidsOf L c1 R))) (Z : List Nat) (fs : List (Fr κ E)) :
    ∀ (w : Writer) (Q : Multiset (Nat × Node)) (c0 : Nat) (t1 : Kid κ E), (∀ f ∈ fs, FrOk Y f) → Tr Y t1 →
    Own w A X (t1.pg + fpg Y.ops fs c0 + Q) → (∀ f ∈ fs, Loaded w f.id) →
    (t1.id ≠ c0 → c0 ∈ w.freed ∨ c0 ∈ Z) →
    Run (upWith g (stackOf fs) c0 t1.id) w fun res w' => ∃ T : Kid κ E, Tr Y T ∧ res = (rootOf fs c0, T.id) ∧
      T.sq = zl fs ++ t1.sq ++ zr fs ∧ Own w' A X (T.pg + Q) ∧ Keep (t1.pg + side fs + Q) w w' ∧
      (∀ p ∈ ids T.pg, p ∈ ids (t1.pg + side fs) ∨ IsDirty w' p) ∧
      (T.id ≠ rootOf fs c0 → rootOf fs c0 ∈ w'.freed ∨ rootOf fs c0 ∈ Z) := by
  induction fs with
  | nil =>
    intro w Q c0 t1 _ ht hw _ hz
    refine .pure ⟨t1, ht, rfl, by simp [zl, zr], hw.congr (by simp [fpg]), .refl _ _, fun p hp => .inl (by simpa using hp), hz⟩
  | cons f fs ih =>
    intro w Q c0 t1 hfs ht hw hload hz
    have hf := hfs f (by simp)
    show Run (upWith g ((f.id, f.L.length) :: stackOf fs) _ _) w _
    unfold upWith
    have hw : Own w A X ({(f.id, Y.ops.inner (keysOf f.L f.R) (kidsOf f.L c0 f.R))} +
        (lpg f.L + t1.pg + rpg f.R + (fpg Y.ops fs f.id + Q))) := hw.congr (by simp only [fpg]; abel)
    refine ((getDirty_spec hw (hload f (by simp))).both (getDirty_freed hw (hload f (by simp)))).andThen ?_
    rintro d w1 ⟨⟨h1, k1, d1⟩, hfd⟩
    refine (modDirty_spec h1 d1 (hg f.L f.R c0 t1.id)).andThen ?_
    rintro _ w2 ⟨-, h2, k2, d2⟩
    have hT : Tr Y (nodeKid Y.ops d f.L t1 f.R) := .nodeAny hf.left ht hf.right hf.fit
    have h2 : Own w2 A X ((nodeKid Y.ops d f.L t1 f.R).pg + fpg Y.ops fs f.id + Q) :=
      h2.congr (by simp only [nodeKid]; abel)
    refine (ih w2 Q f.id _ (fun g hg => hfs g (by simp [hg])) hT h2 (fun g hg => ?_) ?_).mono ?_
    · have hm := mem_fpg (O := Y.ops) fs f.id hg
      exact k2.loaded _ (by simp [hm]) (k1.loaded _ (by simp [hm]) (hload g (by simp [hg])))
    · intro hne
      exact .inl (k2.freed _ (hfd hne))
    · rintro res w3 ⟨T, hT, hres, hsq, h3, k3, hd3, hz3⟩
      have hle : t1.pg + side (f :: fs) + Q ≤ (nodeKid Y.ops d f.L t1 f.R).pg + side fs + Q := by
        rw [side_cons, show t1.pg + (lpg f.L + rpg f.R + side fs) + Q = lpg f.L + t1.pg + rpg f.R + side fs + Q by abel]
        exact add_le_add_left (add_le_add_left (Multiset.le_add_left _ _) _) _
      have hle2 : t1.pg + side (f :: fs) + Q ≤ lpg f.L + t1.pg + rpg f.R + (fpg Y.ops fs f.id + Q) := by
        rw [side_cons, show t1.pg + (lpg f.L + rpg f.R + side fs) + Q = lpg f.L + t1.pg + rpg f.R + (side fs + Q) by abel]
        exact add_le_add_right (add_le_add_left (side_le _ _ _) _) _
      refine ⟨T, hT, hres, ?_, h3, ((k1.trans k2).sub hle2).trans (k3.sub hle), ?_, hz3⟩
      · rw [hsq]; simp [zl, zr, nodeKid]
      · intro p hp
        rcases hd3 p hp with h | h
        · simp only [nodeKid, ids_add, ids_singleton, Multiset.mem_add, Multiset.mem_singleton] at h
          rcases h with (rfl | (h | h) | h) | h
          · exact .inr (k3.dirty _ (by simp [nodeKid]) d2)
          · left; simp [h]
          · left; simp [h]
          · left; simp [h]
          · left; simp [h]
        · exact .inr h

/-- Removing the child that was taken, with the key next to it: mvcc.rs 2190-2197 and 2357-2361. -/
theorem drop_focus {Y : Layout κ E} {f : Fr κ E} (hf : FrOk Y f) (h1 : keysOf f.L f.R ≠ []) (c : Nat) :
    ∃ (L : Lefts κ E) (x : Kid κ E) (R : Rights κ E),
      (kidsOf f.L c f.R).eraseIdx f.L.length = kidsOf L x.id R ∧
      (keysOf f.L f.R).eraseIdx (f.L.length - 1) = keysOf L R ∧
      lpg f.L + rpg f.R = lpg L + x.pg + rpg R ∧
      (lsq L ++ x.sq ++ rsq R).Sublist (lsq f.L ++ rsq f.R) ∧
      ents (lsq L ++ x.sq ++ rsq R) = ents (lsq f.L ++ rsq f.R) ∧
      (∀ y ∈ L, Tr Y y.1) ∧ Tr Y x ∧ (∀ y ∈ R, Tr Y y.2) := by
  obtain ⟨hl, hr, -⟩ := hf
  obtain ⟨id, L, R⟩ := f
  simp only at *
  have hk : (kidsOf L c R).eraseIdx L.length = L.map (·.1.id) ++ R.map (·.2.id) := by
    simp only [kidsOf]
    rw [List.eraseIdx_append_of_length_le (by simp)]
    simp
  rw [hk]
  rcases List.eq_nil_or_concat L with rfl | ⟨L', ⟨x, k⟩, rfl⟩
  · cases R with
    | nil => exact absurd rfl h1
    | cons y R =>
      obtain ⟨k, x⟩ := y
      refine ⟨[], x, R, by simp [kidsOf], by simp [keysOf], by simp, ?_, by simp, by simp, hr (k, x) (by simp),
        fun y hy => hr y (by simp [hy])⟩
      simp
  · simp only [List.concat_eq_append] at *
    refine ⟨L', x, R, by simp [kidsOf], ?_, by simp, ?_, by simp, fun y hy => hl y (by simp [hy]), hl (x, k) (by simp), hr⟩
    · simp only [keysOf, List.map_append, List.map_cons, List.map_nil, List.length_append, List.length_cons,
        List.length_nil, Nat.zero_add, Nat.add_sub_cancel]
      rw [List.append_assoc, List.eraseIdx_append_of_length_le (by simp)]
      simp
    · simp only [lsq_append, lsq_cons, lsq_nil, List.append_assoc]
      exact List.Sublist.append_left (List.Sublist.append_left (by simp) _) _

/-- Freeing several pages. -/
def appendFreeds : List Nat → W Unit
  | [] => pure ()
  | p :: l => do appendFreed p; appendFreeds l

theorem appendFreeds_spec (l : List Nat) : ∀ (w : Writer) (Z R : Multiset (Nat × Node)), ids Z = ↑l →
    Own w A X (Z + R) → Run (appendFreeds l) w fun _ w' => Own w' A X R ∧ Keep0 R w w' ∧ ∀ p ∈ l, p ∈ w'.freed := by
  induction l with
  | nil =>
    intro w Z R hZ hw
    have : Z = 0 := Multiset.map_eq_zero.mp (hZ.trans rfl)
    subst this
    exact .pure ⟨hw.congr (by simp), .refl _ _, by simp⟩
  | cons p l ih =>
    intro w Z R hZ hw
    unfold appendFreeds
    have hp : p ∈ ids Z := by rw [hZ]; simp
    obtain ⟨n, hn⟩ := mem_ids.mp hp
    obtain ⟨Z', rfl⟩ := Multiset.exists_cons_of_mem hn
    have hZ' : ids Z' = ↑l := by
      rw [ids_cons, ← Multiset.cons_coe] at hZ
      exact (Multiset.cons_inj_right p).mp hZ
    have hw : Own w A X ({(p, n)} + (Z' + R)) := hw.congr (by rw [← Multiset.singleton_add]; abel)
    have hfr : Run (appendFreed p) w fun _ w' => p ∈ w'.freed := by
      unfold Run appendFreed
      by_cases h : w.freed.contains p
      · rw [if_pos h]; exact ⟨_, _, rfl, by simpa using h⟩
      · rw [if_neg h]; exact ⟨_, _, rfl, by simp⟩
    refine ((appendFreed_spec hw).both hfr).andThen ?_
    rintro _ w1 ⟨⟨h1, k1⟩, hp1⟩
    refine (ih w1 Z' R hZ' h1).mono ?_
    rintro _ w2 ⟨h2, k2, hl2⟩
    refine ⟨h2, (k1.sub (Multiset.le_add_left _ _)).trans k2, ?_⟩
    intro q hq
    rcases List.mem_cons.mp hq with rfl | hq
    · exact k2.freed _ hp1
    · exact hl2 q hq

/-- Nothing but its own pages belongs to an entry. -/
theorem Tr.ent_le {Y : Layout κ E} {pg : E → Multiset (Nat × Node)}
    (hY : ∀ k, Y.Leaf k → ∀ e ∈ ents k.sq, pg e ≤ k.pg) {K : Kid κ E} (h : Tr Y K) : ∀ e ∈ ents K.sq, pg e ≤ K.pg := by
  induction h with
  | leaf k hk => exact hY k hk
  | node id m R hm hR hf ihm ihR =>
    intro e he
    simp only [nodeKid, lsq_nil, List.nil_append, ents_append, List.mem_append] at he
    simp only [nodeKid, lpg_nil, zero_add]
    rcases he with he | he
    · exact (ihm e he).trans (le_of_eq_add _ (by rw [add_comm m.pg, ← add_assoc]))
    · have : pg e ≤ rpg R := by
        clear hf hR hm ihm
        induction R with
        | nil => simp at he
        | cons y R ih =>
          simp only [rsq_cons, ents_sep, ents_append, List.mem_append] at he
          rw [rpg_cons]
          rcases he with he | he
          · exact (ihR y (by simp) e he).trans (Multiset.le_add_right _ _)
          · exact (ih (fun x hx => ihR x (by simp [hx])) he).trans (Multiset.le_add_left _ _)
      exact this.trans ((Multiset.le_add_left _ _).trans (Multiset.le_add_left _ _))

theorem ent_lsq {Y : Layout κ E} {pg : E → Multiset (Nat × Node)} (hY : ∀ k, Y.Leaf k → ∀ e ∈ ents k.sq, pg e ≤ k.pg)
    {L : Lefts κ E} (h : ∀ x ∈ L, Tr Y x.1) : ∀ e ∈ ents (lsq L), pg e ≤ lpg L := by
  induction L with
  | nil => simp
  | cons y L ih =>
    intro e he
    simp only [lsq_cons, ents_append, ents_sep, List.mem_append] at he
    rw [lpg_cons]
    rcases he with he | he
    · exact ((h y (by simp)).ent_le hY e he).trans (Multiset.le_add_right _ _)
    · exact (ih (fun x hx => h x (by simp [hx])) e he).trans (Multiset.le_add_left _ _)

theorem ent_rsq {Y : Layout κ E} {pg : E → Multiset (Nat × Node)} (hY : ∀ k, Y.Leaf k → ∀ e ∈ ents k.sq, pg e ≤ k.pg)
    {R : Rights κ E} (h : ∀ x ∈ R, Tr Y x.2) : ∀ e ∈ ents (rsq R), pg e ≤ rpg R := by
  induction R with
  | nil => simp
  | cons y R ih =>
    intro e he
    simp only [rsq_cons, ents_append, ents_sep, List.mem_append] at he
    rw [rpg_cons]
    rcases he with he | he
    · exact ((h y (by simp)).ent_le hY e he).trans (Multiset.le_add_right _ _)
    · exact (ih (fun x hx => h x (by simp [hx])) e he).trans (Multiset.le_add_left _ _)

theorem ent_side {Y : Layout κ E} {pg : E → Multiset (Nat × Node)} (hY : ∀ k, Y.Leaf k → ∀ e ∈ ents k.sq, pg e ≤ k.pg)
    {fs : List (Fr κ E)} (h : ∀ f ∈ fs, FrOk Y f) : ∀ e, e ∈ ents (zl fs) ∨ e ∈ ents (zr fs) → pg e ≤ side fs := by
  induction fs with
  | nil => simp [zl, zr]
  | cons f fs ih =>
    intro e he
    have hf := h f (by simp)
    have ih := ih (fun g hg => h g (by simp [hg]))
    simp only [zl, zr, ents_append, List.mem_append] at he
    rw [side_cons]
    rcases he with (he | he) | he | he
    · exact (ih e (.inl he)).trans (Multiset.le_add_left _ _)
    · exact (ent_lsq hY hf.left e he).trans ((Multiset.le_add_right _ _).trans (Multiset.le_add_right _ _))
    · exact (ent_rsq hY hf.right e he).trans ((Multiset.le_add_left _ _).trans (Multiset.le_add_right _ _))
    · exact (ih e (.inr he)).trans (Multiset.le_add_left _ _)

/-! ## A linear search from the left -/

/-- `while i < keys.len() && x >= keys[i] { i += 1 }`, mvcc.rs 1982-1985 and 2131-2136. -/
def lin (keys : List Nat) (x : Nat) : Nat := (keys.takeWhile fun k => decide (k ≤ x)).length

theorem lin_le (keys : List Nat) (x : Nat) : lin keys x ≤ keys.length := by
  unfold lin; exact (List.takeWhile_sublist _).length_le

theorem lin_eq_ub {keys : List Nat} (h : keys.Pairwise (· ≤ ·)) (x : Nat) : lin keys x = ub keys x := by
  unfold lin ub
  induction keys with
  | nil => rfl
  | cons k keys ih =>
    obtain ⟨h1, h2⟩ := List.pairwise_cons.mp h
    by_cases hk : k ≤ x
    · rw [List.takeWhile_cons_of_pos (by simpa using hk), List.countP_cons_of_pos (by simpa using hk), List.length_cons, ih h2]
    · rw [List.takeWhile_cons_of_neg (by simpa using hk), List.countP_cons_of_neg (by simpa using hk)]
      symm
      rw [List.length_nil, List.countP_eq_zero]
      intro j hj
      have := h1 j hj
      simp; omega

/-- In an ordered tree the linear search takes the same path as the binary search. -/
theorem Found.of_lin {Y : Layout Nat E} {f : E → Nat} {x : Nat} {K : Kid Nat E} {fs : List (Fr Nat E)} {k : Kid Nat E}
    (h : Found Y (fun keys _ => lin keys x) K fs k) (hK : Weak f K.sq) : Found Y (fun keys _ => ub keys x) K fs k := by
  refine ⟨h.eq, h.frames, ?_, h.leaf⟩
  have hw : Weak f (plug Y.ops fs k).sq := by rw [h.eq]; exact hK
  have hp := h.picked
  clear h hK
  induction fs generalizing k with
  | nil => simp
  | cons g fs ih =>
    intro g' hg'
    rcases List.mem_cons.mp hg' with rfl | hg'
    · obtain ⟨kids, hl, hq⟩ := hp g' (by simp)
      refine ⟨kids, hl, ?_⟩
      have hwn : Weak f (nodeKid Y.ops g'.id g'.L k g'.R).sq := by
        rw [plug, plug_sq] at hw
        exact List.Pairwise.sublist ((List.sublist_append_right _ _).trans (List.sublist_append_left _ _)) hw
      rw [hq]
      exact lin_eq_ub (hwn.keys (seps_sublist _ _ _ _ _)) x
    · exact ih hw (fun g hg => hp g (by simp [hg])) g' hg'

end Uma.Page
