import Verif.Page.Shrink

/-!
# The free-list subtree of one transaction (umadb-core/src/mvcc.rs 1792-1951 and 2071-2250)

The page ids freed by one transaction move from the free-list leaf to a tree of their own when the leaf is full.
-/

namespace Uma.Page
open Uma.Codec

/-- Parameters of the subtree.  `max_node_size` is `page_size` minus the page header (mvcc.rs 271), so comparing a node
with it is comparing the page with `page_size`. -/
def tsnOps : Ops Nat where
  inner := .tsnInternal
  un
    | .tsnInternal keys kids => some (keys, kids)
    | _ => none
  isLeaf
    | .tsnLeaf _ => true
    | _ => false
  rightmost := false
  always := false
  minKeys := 0
  splitPos n := n / 2

/-- Inserting into a leaf and splitting it, mvcc.rs 1828-1852. -/
def tsnPut (kw ps key : Nat) : Node → Except Err (Option (Nat × List Nat) × Node)
  | .tsnLeaf l =>
    match searchIdx l key with
    | .ok _ => .ok (none, .tsnLeaf l)
    | .error i =>
      if nodeSize kw (.tsnLeaf (l.insertIdx i key)) ≤ ps - pageHeaderSize then .ok (none, .tsnLeaf (l.insertIdx i key))
      else
        match (l.insertIdx i key).drop ((l.insertIdx i key).length / 2) with
        | [] => .error (.panic "index out of bounds")
        | k :: r => .ok (some (k, k :: r), .tsnLeaf ((l.insertIdx i key).take ((l.insertIdx i key).length / 2)))
  | _ => .error (.databaseCorrupted "Expected TSN-subtree leaf")

/-- The loop over the path, mvcc.rs 1863-1929: all pages are dirty already.  The last result is the id of the page
visited last. -/
def tsnUp : List (Nat × Nat) → Option (Nat × Nat) → Nat → W (Option (Nat × Nat) × Nat)
  | [], s, cur => pure (s, cur)
  | (pid, _) :: st, none, _ => tsnUp st none pid
  | (pid, idx) :: st, some x, _ => do
    let w ← getW
    let off ← modDirty pid (upNode tsnOps w.kw w.pageSize idx none (some x))
    match off with
    | none => tsnUp st none pid
    | some (k, keys, kids) => do
      let c ← newPage (.tsnInternal keys kids)
      tsnUp st (some (k, c)) pid

/-- mvcc.rs 1930-1948. -/
def tsnRoot (root : Nat) : Option (Nat × Nat) × Nat → W Nat
  | (none, _) => pure root
  | (some (k, c), cur) => newPage (.tsnInternal [k] [cur, c])

/-- `tsn_subtree_insert`, mvcc.rs 1792-1951.  Returns the root. -/
def tsnInsert (root key : Nat) : W Nat := do
  let w ← getW
  let leaf ← descend tsnOps (fun keys _ => ub keys key) w.nextPage root []
  let off ← modDirty leaf.1 (tsnPut w.kw w.pageSize key)
  match off with
  | none => pure root
  | some (k, right) => do
    let c ← newPage (.tsnLeaf right)
    let up ← tsnUp leaf.2 (some (k, c)) leaf.1
    tsnRoot root up

/-- Removing a page id from a leaf; the result says whether the leaf is empty now.  mvcc.rs 2083-2104 and 2152-2177. -/
def tsnDel (used : Nat) : Node → Except Err (Bool × Node)
  | .tsnLeaf l =>
    if l.contains used then .ok ((l.erase used).isEmpty, .tsnLeaf (l.erase used))
    else .error (.databaseCorrupted "page id not found in TSN-subtree")
  | _ => .error (.databaseCorrupted "Expected TSN-subtree leaf")

/-- `parent_node.child_ids[child_idx] = dirty_child_id`, mvcc.rs 2233-2236. -/
def tsnSet (idx _old new : Nat) : Node → Except Err (Unit × Node)
  | .tsnInternal keys kids =>
    if idx < kids.length then .ok ((), .tsnInternal keys (kids.set idx new))
    else .error (.panic "index out of bounds")
  | _ => .error (.databaseCorrupted "Expected TSN-subtree internal node")

/-- Removing an emptied leaf from its parent, mvcc.rs 2199-2206; the result is the list of children left. -/
def tsnDrop (idx : Nat) : Node → Except Err (List Nat × Node)
  | .tsnInternal keys kids =>
    if idx < kids.length then .ok (kids.eraseIdx idx, .tsnInternal (keys.eraseIdx (idx - 1)) (kids.eraseIdx idx))
    else .error (.panic "removal index out of bounds")
  | _ => .error (.databaseCorrupted "Expected TSN-subtree internal node")

/-- What is left of the parent `d` after its empty leaf `c` was removed, mvcc.rs 2208-2230; then the rest of the path.
Results: the root unless the subtree became empty, and the pages to be freed. -/
def tsnCollapse (c pid d : Nat) (st : List (Nat × Nat)) : List Nat → W (Option Nat × List Nat)
  | [] => do
    let _ ← upWith tsnSet st c c
    pure (none, [c, d])
  | [x] => do
    let r ← upWith tsnSet st pid x
    pure (some r.2, [c, d])
  | _ => do
    let r ← upWith tsnSet st pid d
    pure (some r.2, [c])

/-- Removal below an internal root, mvcc.rs 2106-2248. -/
def tsnRemoveDeep (root used : Nat) : W (Option Nat × List Nat) := do
  let w ← getW
  let leaf ← descend tsnOps (fun keys _ => lin keys used) w.nextPage root []
  let c ← getDirty leaf.1
  let empty ← modDirty c (tsnDel used)
  match empty, leaf.2 with
  | true, (pid, idx) :: st => do
    let d ← getDirty pid
    let kids ← modDirty d (tsnDrop idx)
    tsnCollapse c pid d st kids
  | true, [] => pure (some root, [c])
  | false, st => do
    let r ← upWith tsnSet st leaf.1 c
    pure (some r.2, [])

/-- The part of `remove_free_page_id` that changes the subtree, mvcc.rs 2073-2253.  The root page is made dirty without
being read first. -/
def tsnRemove (root used : Nat) : W (Option Nat × List Nat) := do
  let d ← getDirty root
  let n ← getPage d
  match n with
  | .tsnLeaf _ => do
    let empty ← modDirty d (tsnDel used)
    pure (if empty then (none, [d]) else (some d, []))
  | .tsnInternal _ _ => tsnRemoveDeep d used
  | _ => fail (.databaseCorrupted "Expected TSN-subtree node")

/-! ## The tree -/

def tsnKid (id : Nat) (l : List Nat) : Kid Nat Nat where
  id := id
  pg := {(id, .tsnLeaf l)}
  sq := l.map .ent

def TsnLeaf (ps : Nat) (k : Kid Nat Nat) : Prop :=
  ∃ l, l ≠ [] ∧ k = tsnKid k.id l ∧ 11 + 8 * l.length ≤ ps

theorem tsnLeaf_size (kw : Nat) (l : List Nat) : pageSizeOf kw (.tsnLeaf l) = 11 + 8 * l.length := by
  simp [pageSizeOf, pageHeaderSize, nodeSize]; omega

theorem tsnInner_size (kw : Nat) (keys kids : List Nat) (h : kids.length = keys.length + 1) :
    pageSizeOf kw (.tsnInternal keys kids) = 21 + 16 * keys.length := by
  simp [pageSizeOf, pageHeaderSize, nodeSize, h]; omega

def tsnLayout (kw ps : Nat) (hps : 1024 ≤ ps) : Layout Nat Nat where
  ops := tsnOps
  kw := kw
  ps := ps
  Leaf := TsnLeaf ps
  kfit _ := True
  fit keys := 1 ≤ keys.length ∧ 21 + 16 * keys.length ≤ ps
  un_inner _ _ := rfl
  inner_leaf _ _ := rfl
  leaf_page k h := by
    obtain ⟨l, _, e, _⟩ := h
    exact ⟨.tsnLeaf l, 0, by rw [e]; simp [tsnKid], rfl⟩
  fit_kfit _ _ _ _ := trivial
  fit_one k _ := by simp; omega
  fit_over h := by cases h
  fit_ins a b k kids hl _ _ hs := by
    have hs : pageSizeOf kw (.tsnInternal (a ++ k :: b) kids) ≤ ps := hs
    rw [tsnInner_size _ _ _ hl] at hs
    exact ⟨by simp; omega, hs⟩
  fit_split a b k kids hl hf _ hs := by
    have hs : ps < pageSizeOf kw (.tsnInternal (a ++ k :: b) kids) := hs
    rw [tsnInner_size _ _ _ hl] at hs
    simp only [List.length_append, List.length_cons] at hf hs
    show 0 ≤ (a ++ k :: b).length ∧ (a ++ k :: b).length / 2 < (a ++ k :: b).length ∧
      (1 ≤ ((a ++ k :: b).take ((a ++ k :: b).length / 2)).length ∧
        21 + 16 * ((a ++ k :: b).take ((a ++ k :: b).length / 2)).length ≤ ps) ∧
      (1 ≤ ((a ++ k :: b).drop ((a ++ k :: b).length / 2 + 1)).length ∧
        21 + 16 * ((a ++ k :: b).drop ((a ++ k :: b).length / 2 + 1)).length ≤ ps)
    simp only [List.length_take, List.length_drop, List.length_append, List.length_cons]
    omega

/-- The root `root` and the pages `P` hold the page ids `l`. -/
def TsnRep (kw ps : Nat) (hps : 1024 ≤ ps) (root : Nat) (P : Multiset (Nat × Node)) (l : List Nat) : Prop :=
  ∃ K, Tr (tsnLayout kw ps hps) K ∧ root = K.id ∧ P = K.pg ∧ l = ents K.sq ∧ Strict id K.sq

theorem strict_ents {E : Type} {f : E → Nat} {sq : List (Item Nat E)} (h : Strict f sq) :
    (ents sq).Pairwise fun a b => f a < f b := by
  unfold ents
  rw [List.pairwise_filterMap]
  refine List.Pairwise.imp ?_ h
  intro a b hab x hx y hy
  cases a <;> cases b <;> cases hx <;> cases hy
  rcases hab with hab | ⟨_, h, _⟩
  · exact hab
  · cases h

theorem TsnRep.nodup {kw ps : Nat} {hps : 1024 ≤ ps} {root : Nat} {P : Multiset (Nat × Node)} {l : List Nat}
    (h : TsnRep kw ps hps root P l) : l.Nodup := by
  obtain ⟨K, _, _, _, rfl, hs⟩ := h
  exact (strict_ents hs).imp fun h => Nat.ne_of_lt h

variable {w : Writer} {A : Nat → Prop} {X : Multiset Nat} {Q : Multiset (Nat × Node)}

/-! ## Inserting -/

theorem tsnUp_spec {kw ps : Nat} {hps : 1024 ≤ ps} (fs : List (Fr Nat Nat)) :
    ∀ (w : Writer) (Q : Multiset (Nat × Node)) (t1 : Kid Nat Nat) (s : Promo Nat Nat),
    (∀ f ∈ fs, FrOk (tsnLayout kw ps hps) f) → Tr (tsnLayout kw ps hps) t1 → PromoOk (tsnLayout kw ps hps) s →
    w.kw = kw → w.pageSize = ps →
    Own w A X (t1.pg + rpg s.rights + fpg tsnOps fs t1.id + Q) →
    (∀ p ∈ ids (t1.pg + rpg s.rights + fpg tsnOps fs t1.id), IsDirty w p) →
    Run (tsnUp (stackOf fs) s.ref t1.id) w fun res w' => ∃ (T : Kid Nat Nat) (S : Promo Nat Nat),
      Tr (tsnLayout kw ps hps) T ∧ PromoOk (tsnLayout kw ps hps) S ∧ res = (S.ref, T.id) ∧ T.id = rootOf fs t1.id ∧
      T.sq ++ rsq S.rights = zl fs ++ t1.sq ++ rsq s.rights ++ zr fs ∧
      Own w' A X (T.pg + rpg S.rights + Q) ∧ (∀ p ∈ ids (T.pg + rpg S.rights), IsDirty w' p) ∧ Keep Q w w' := by
  induction fs with
  | nil =>
    intro w Q t1 s _ ht hs _ _ hw hd
    exact .pure ⟨t1, s, ht, hs, rfl, rfl, by simp [zl, zr], hw.congr (by simp [fpg]),
      fun p hp => hd p (by simpa [fpg] using hp), .refl _ _⟩
  | cons f fs ih =>
    intro w Q t1 s hfs ht hs hkw hpz hw hd
    have hf := hfs f (by simp)
    have hfs' : ∀ g ∈ fs, FrOk (tsnLayout kw ps hps) g := fun g hg => hfs g (by simp [hg])
    show Run (tsnUp ((f.id, f.L.length) :: stackOf fs) s.ref t1.id) w _
    cases s with
    | none =>
      show Run (tsnUp (stackOf fs) none f.id) w _
      have hT : Tr (tsnLayout kw ps hps) (nodeKid tsnOps f.id f.L t1 f.R) := .nodeAny hf.left ht hf.right hf.fit
      have hpg : t1.pg + rpg (Promo.rights (none : Promo Nat Nat)) + fpg tsnOps (f :: fs) t1.id =
          (nodeKid tsnOps f.id f.L t1 f.R).pg + rpg (Promo.rights (none : Promo Nat Nat)) + fpg tsnOps fs f.id := by
        simp only [fpg, nodeKid, Promo.rights, rpg_nil]; abel
      rw [hpg] at hw hd
      refine (ih w Q (nodeKid tsnOps f.id f.L t1 f.R) none hfs' hT hs hkw hpz hw hd).mono ?_
      rintro res w' ⟨T, S, h1, h2, h3, h4, h5, h6⟩
      exact ⟨T, S, h1, h2, h3, h4, by rw [h5]; simp [zl, zr, nodeKid, Promo.rights], h6⟩
    | some x =>
      obtain ⟨k0, K0⟩ := x
      show Run (tsnUp ((f.id, f.L.length) :: stackOf fs) (some (k0, K0.id)) t1.id) w _
      unfold tsnUp
      refine .get ?_
      rw [hkw, hpz]
      have hw1 : Own w A X ({(f.id, .tsnInternal (keysOf f.L f.R) (kidsOf f.L t1.id f.R))} +
          (lpg f.L + t1.pg + rpg (Promo.rights (some (k0, K0))) + rpg f.R + (fpg tsnOps fs f.id + Q))) :=
        hw.congr (by
          rw [fpg, show tsnOps.inner (keysOf f.L f.R) (kidsOf f.L t1.id f.R) =
            .tsnInternal (keysOf f.L f.R) (kidsOf f.L t1.id f.R) from rfl]
          abel)
      have hdf : IsDirty w f.id := hd f.id (by simp [fpg])
      have hrepl : (none : Option (Nat × Nat)) = replInfo t1.id t1.id := by simp [replInfo]
      have hup := upNode_ok hf (fun h => by cases h) ht t1.id hs
      rw [← hrepl] at hup
      have hdrest : ∀ p ∈ ids (lpg f.L + t1.pg + rpg (Promo.rights (some (k0, K0))) + rpg f.R + fpg tsnOps fs f.id),
          IsDirty w p := by
        intro p hp
        refine hd p ?_
        simp only [fpg, ids_add, Multiset.mem_add] at hp ⊢
        tauto
      rcases hup with ⟨T, hT, hid, hsq, -, n, Q1, hpg, hQ1, hup⟩ |
        ⟨T, k, keys, kids, C, hT, hC, hk, hid, hCid, hsq, -, n, Q1, Q2, hpg, hpgC, hQ, hup⟩
      · refine (modDirty_spec hw1 hdf hup).andThen ?_
        rintro off w2 ⟨rfl, h2, k2, d2⟩
        simp only
        have h2' : Own w2 A X (T.pg + rpg (Promo.rights (none : Promo Nat Nat)) + fpg tsnOps fs T.id + Q) :=
          h2.congr (by rw [hpg, hQ1, hid]; simp only [Promo.rights, rpg_nil]; abel)
        have hd2 : ∀ p ∈ ids (T.pg + rpg (Promo.rights (none : Promo Nat Nat)) + fpg tsnOps fs T.id), IsDirty w2 p := by
          intro p hp
          rw [hpg, hQ1, hid] at hp
          simp only [Promo.rights, rpg_nil, add_zero, ids_add, ids_singleton, Multiset.mem_add,
            Multiset.mem_singleton] at hp
          rcases hp with (rfl | hp) | hp
          · exact d2
          · refine k2.dirty p ?_ (hdrest p ?_)
            · simp only [ids_add, Multiset.mem_add]; tauto
            · simp only [ids_add, Multiset.mem_add]; tauto
          · refine k2.dirty p ?_ (hdrest p ?_)
            · simp only [ids_add, Multiset.mem_add]; tauto
            · simp only [ids_add, Multiset.mem_add]; tauto
        have := ih w2 Q T none hfs' hT .none (k2.step.kw.trans hkw) (k2.step.pageSize.trans hpz) h2' hd2
        rw [hid] at this
        refine this.mono ?_
        rintro res w' ⟨T', S, h1, h2, h3, h4, h5, h6, h7, h8⟩
        exact ⟨T', S, h1, h2, h3, h4, by rw [h5, hsq]; simp [zl, zr, Promo.rights], h6, h7,
          (k2.sub ((Multiset.le_add_left _ _).trans (Multiset.le_add_left _ _))).trans h8⟩
      · refine (modDirty_spec hw1 hdf hup).andThen ?_
        rintro off w2 ⟨rfl, h2, k2, d2⟩
        simp only
        refine (newPage_spec _ h2).andThen ?_
        rintro c w3 ⟨h3, k3, d3⟩
        have h3' : Own w3 A X (T.pg + rpg (Promo.rights (some (k, C c))) + fpg tsnOps fs T.id + Q) := h3.congr (by
          rw [hpg, hid]; simp only [Promo.rights, rpg_nil, rpg_cons, hpgC]
          show _ = {(c, tsnOps.inner keys kids)} + ({(f.id, n)} +
            (lpg f.L + t1.pg + rpg (Promo.rights (some (k0, K0))) + rpg f.R + (fpg tsnOps fs f.id + Q)))
          rw [← hQ]
          show {(f.id, n)} + Q1 + ({(c, tsnOps.inner keys kids)} + Q2 + 0) + fpg tsnOps fs f.id + Q = _
          abel)
        have hd3 : ∀ p ∈ ids (T.pg + rpg (Promo.rights (some (k, C c))) + fpg tsnOps fs T.id), IsDirty w3 p := by
          intro p hp
          rw [hpg, hid] at hp
          simp only [Promo.rights, rpg_cons, hpgC, rpg_nil, add_zero, ids_add, ids_singleton, Multiset.mem_add,
            Multiset.mem_singleton] at hp
          have hside : p ∈ ids Q1 ∨ p ∈ ids Q2 ∨ p ∈ ids (fpg tsnOps fs f.id) → IsDirty w3 p := by
            intro h
            have hm : p ∈ ids (lpg f.L + t1.pg + rpg (Promo.rights (some (k0, K0))) + rpg f.R + fpg tsnOps fs f.id) := by
              rw [← hQ]; simp only [ids_add, Multiset.mem_add]; tauto
            have hm' : p ∈ ids (lpg f.L + t1.pg + rpg (Promo.rights (some (k0, K0))) + rpg f.R +
                (fpg tsnOps fs f.id + Q)) := by
              rw [← add_assoc, ids_add, Multiset.mem_add]; exact .inl hm
            exact k3.dirty p (by rw [ids_add, Multiset.mem_add]; exact .inr hm') (k2.dirty p hm' (hdrest p hm))
          rcases hp with ((rfl | hp) | rfl | hp) | hp
          · exact k3.dirty _ (by simp) d2
          · exact hside (.inl hp)
          · exact d3
          · exact hside (.inr (.inl hp))
          · exact hside (.inr (.inr hp))
        have := ih w3 Q T (some (k, C c)) hfs' hT ⟨by simp [Promo.rights, hC], by simp [Promo.rights, hk]⟩
          (k3.step.kw.trans (k2.step.kw.trans hkw)) (k3.step.pageSize.trans (k2.step.pageSize.trans hpz)) h3' hd3
        rw [hid] at this
        rw [show (some (k, c) : Option (Nat × Nat)) = Promo.ref (some (k, C c)) by simp [Promo.ref, hCid]]
        refine this.mono ?_
        rintro res w' ⟨T', S, h1, h2, h3, h4, h5, h6, h7, h8⟩
        refine ⟨T', S, h1, h2, h3, h4, ?_, h6, h7, ?_⟩
        · rw [h5]
          have := hsq c
          rw [show rsq (Promo.rights (some (k, C c))) = .sep k :: (C c).sq by simp [Promo.rights],
            List.append_assoc (zl fs), this]
          simp [zl, zr]
        · have hQ3 : Q ≤ lpg f.L + t1.pg + rpg (Promo.rights (some (k0, K0))) + rpg f.R + (fpg tsnOps fs f.id + Q) :=
            (Multiset.le_add_left _ _).trans (Multiset.le_add_left _ _)
          exact (k2.sub hQ3).trans ((k3.sub (hQ3.trans (Multiset.le_add_left _ _))).trans h8)

/-- Inserting a new page id into a subtree of which every page is dirty. -/
theorem tsnInsert_spec {kw ps : Nat} {hps : 1024 ≤ ps} {root : Nat} {P : Multiset (Nat × Node)} {l : List Nat}
    (hr : TsnRep kw ps hps root P l) (hkw : w.kw = kw) (hpz : w.pageSize = ps) {key : Nat} (hnew : key ∉ l)
    (hw : Own w A X (P + Q)) (hd : ∀ p ∈ ids P, IsDirty w p) :
    Run (tsnInsert root key) w fun root' w' => ∃ P' l', TsnRep kw ps hps root' P' l' ∧ l'.Perm (key :: l) ∧
      Own w' A X (P' + Q) ∧ (∀ p ∈ ids P', IsDirty w' p) ∧ Keep Q w w' := by
  obtain ⟨K, hK, rfl, rfl, rfl, hst⟩ := hr
  unfold tsnInsert
  refine .get ?_
  have hcard : K.pg.card ≤ w.nextPage := by
    have := hw.card_lt; simp only [Multiset.card_add] at this; omega
  refine (descend_spec (Y := tsnLayout kw ps hps) (pick := fun keys _ => ub keys key)
    (fun keys kids _ => ub_bs.le keys key) hK w.nextPage [] w Q hcard hw).andThen ?_
  rintro leaf w1 ⟨fs, k, hF, rfl, h1, k1, hl1, hfl⟩
  simp only [List.append_nil]
  obtain ⟨l, hlne, hk, hsz⟩ := hF.leaf
  have hkpg : k.pg = {(k.id, .tsnLeaf l)} := by rw [hk]; rfl
  have hksq : k.sq = l.map .ent := by rw [hk]; rfl
  have hKpg : K.pg = k.pg + fpg tsnOps fs k.id := by rw [← hF.eq]; exact plug_pg _ _ _
  have hKid : K.id = rootOf fs k.id := by rw [← hF.eq]; exact plug_id _ _ _
  have hKsq : K.sq = zl fs ++ l.map .ent ++ zr fs := by rw [← hF.eq, plug_sq, hksq]
  obtain ⟨hzl, hzr⟩ := zl_zr_strict (f := id) (O := tsnOps) (x := key) fs k (by
    show Strict _ (plug (tsnLayout kw ps hps).ops fs k).sq
    rw [hF.eq]; exact hst) hF.picked
  have hd1 : ∀ p ∈ ids K.pg, IsDirty w1 p := fun p hp => k1.dirty p (by simp [hp]) (hd p hp)
  rw [hKpg, hkpg] at h1 hd1
  have h1 : Own w1 A X ({(k.id, .tsnLeaf l)} + (fpg tsnOps fs k.id + Q)) := h1.congr (by abel)
  have hst' : Strict id (l.map (Item.ent (κ := Nat))) := List.Pairwise.sublist
    (by rw [hKsq]; exact (List.sublist_append_right _ _).trans (List.sublist_append_left _ _)) hst
  have hkeys : (l.map id).Pairwise (· < ·) := strict_keys hst'
  have hnl : key ∉ l := fun h => hnew (by rw [hKsq]; simp [h])
  obtain ⟨a, m, b, hl, hput, hm, ha, hb, hsi⟩ := putEnt_split (f := id) hkeys key
  have hm0 : m = [] := by
    rcases hm with h | ⟨o, rfl, ho⟩
    · exact h
    · exact absurd (by rw [hl]; simp [show o = key from ho]) hnl
  subst hm0
  simp only [List.append_nil] at hl
  obtain ⟨i, hi, hia⟩ : ∃ i, searchIdx l key = .error i ∧ i = a.length := by
    rw [List.map_id] at hsi
    cases hs : searchIdx l key with
    | ok i => simp only [id, hs] at hsi; exact absurd rfl hsi.2
    | error i => simp only [id, hs] at hsi; exact ⟨i, rfl, hsi.1⟩
  have hins : l.insertIdx i key = a ++ key :: b := by rw [hia, hl, insertIdx_at]
  have hnext : Strict id (zl fs ++ (a ++ key :: b).map .ent ++ zr fs) := by
    refine Strict.put (m := []) (A := a) (B := b) ?_ hzl hzr ha hb
    rw [List.append_nil, ← hl, ← hKsq]; exact hst
  have hperm : (a ++ key :: b).Perm (key :: l) := by
    rw [hl]; exact List.perm_middle
  have hpall : (ents (zl fs) ++ (a ++ key :: b) ++ ents (zr fs)).Perm (key :: (ents (zl fs) ++ l ++ ents (zr fs))) :=
    ((hperm.append_left _).append_right _).trans
      (by simp)
  have hkw1 : w1.kw = kw := k1.step.kw.trans hkw
  have hps1 : w1.pageSize = ps := k1.step.pageSize.trans hpz
  have hlen : (a ++ key :: b).length = l.length + 1 := by rw [hl]; simp; omega
  rw [hkw, hpz]
  have hns : nodeSize kw (.tsnLeaf (a ++ key :: b)) = 2 + 8 * (l.length + 1) := by
    have := tsnLeaf_size kw (a ++ key :: b)
    simp only [pageSizeOf, pageHeaderSize] at this
    rw [hlen] at this; omega
  by_cases hfit : 2 + 8 * (l.length + 1) ≤ ps - 9
  · have hp : tsnPut kw ps key (.tsnLeaf l) = .ok (none, .tsnLeaf (a ++ key :: b)) := by
      simp only [tsnPut, hi, hins]
      rw [if_pos (by rw [hns]; exact hfit)]
    refine (modDirty_spec h1 (hd1 k.id (by simp)) hp).andThen ?_
    rintro off w2 ⟨rfl, h2, k2, d2⟩
    have htr : Tr (tsnLayout kw ps hps) (tsnKid k.id (a ++ key :: b)) :=
      .leaf _ ⟨a ++ key :: b, by simp, rfl, by rw [hlen]; omega⟩
    have hpg : (plug tsnOps fs (tsnKid k.id (a ++ key :: b))).pg =
        {(k.id, .tsnLeaf (a ++ key :: b))} + fpg tsnOps fs k.id := plug_pg _ _ _
    have hsq : (plug tsnOps fs (tsnKid k.id (a ++ key :: b))).sq = zl fs ++ (a ++ key :: b).map .ent ++ zr fs :=
      plug_sq _ _ _
    refine .pure ⟨_, _, ⟨plug tsnOps fs (tsnKid k.id (a ++ key :: b)), Tr.plug hF.frames htr, ?_, rfl, rfl,
      by rw [hsq]; exact hnext⟩, ?_, h2.congr (by rw [hpg]; abel), ?_, ?_⟩
    · rw [plug_id]; exact hKid
    · rw [hsq, hKsq]
      simpa only [ents_append, ents_map] using hpall
    · intro p hp
      rw [hpg, ids_add, ids_singleton, Multiset.mem_add, Multiset.mem_singleton] at hp
      rcases hp with rfl | hp
      · exact d2
      · exact k2.dirty p (by simp [hp]) (hd1 p (by simp [hp]))
    · exact (k1.sub (Multiset.le_add_left _ _)).trans (k2.sub (Multiset.le_add_left _ _))
  · set l' := a ++ key :: b with hl'
    have hmid : l'.length / 2 < l'.length := by omega
    have hdrop : l'.drop (l'.length / 2) = l'[l'.length / 2] :: l'.drop (l'.length / 2 + 1) :=
      List.drop_eq_getElem_cons hmid
    have hp : tsnPut kw ps key (.tsnLeaf l) = .ok (some (l'[l'.length / 2], l'.drop (l'.length / 2)),
        .tsnLeaf (l'.take (l'.length / 2))) := by
      simp only [tsnPut, hi, hins]
      rw [if_neg (by rw [hns]; exact hfit), hdrop]
    refine (modDirty_spec h1 (hd1 k.id (by simp)) hp).andThen ?_
    rintro off w2 ⟨rfl, h2, k2, d2⟩
    simp only
    refine (newPage_spec _ h2).andThen ?_
    rintro c w3 ⟨h3, k3, d3⟩
    have ht1 : Tr (tsnLayout kw ps hps) (tsnKid k.id (l'.take (l'.length / 2))) :=
      .leaf _ ⟨_, by rw [ne_eq, List.take_eq_nil_iff]; rintro (h | h)
                     · omega
                     · rw [h] at hlen; simp at hlen, rfl, by simp; omega⟩
    have hs : PromoOk (tsnLayout kw ps hps) (some (l'[l'.length / 2], tsnKid c (l'.drop (l'.length / 2)))) := by
      refine ⟨?_, fun _ _ => trivial⟩
      intro x hx
      cases List.mem_singleton.mp hx
      exact .leaf _ ⟨_, by rw [hdrop]; exact List.cons_ne_nil _ _, rfl, by simp; omega⟩
    have h3 : Own w3 A X ((tsnKid k.id (l'.take (l'.length / 2))).pg +
        rpg (Promo.rights (some (l'[l'.length / 2], tsnKid c (l'.drop (l'.length / 2))))) +
        fpg tsnOps fs (tsnKid k.id (l'.take (l'.length / 2))).id + Q) := h3.congr (by
      simp only [tsnKid, Promo.rights, rpg_cons, rpg_nil]; abel)
    refine (tsnUp_spec fs w3 Q _ _ hF.frames ht1 hs (by rw [k3.step.kw, k2.step.kw, hkw1])
      (by rw [k3.step.pageSize, k2.step.pageSize, hps1]) h3 ?_).andThen ?_
    · intro p hp
      simp only [tsnKid, Promo.rights, rpg_cons, rpg_nil, ids_add, ids_singleton, ids_zero, Multiset.mem_add,
        Multiset.mem_singleton] at hp
      rcases hp with (rfl | rfl | h) | hp
      · exact k3.dirty _ (by simp) d2
      · exact d3
      · cases h
      · exact k3.dirty p (by simp [hp]) (k2.dirty p (by simp [hp]) (hd1 p (by simp [hp])))
    rintro up w4 ⟨T, S, hT, hS, rfl, hTid, hTsq, h4, hd4, k4⟩
    have hkk : Keep Q w w4 := (k1.sub (Multiset.le_add_left _ _)).trans ((k2.sub (Multiset.le_add_left _ _)).trans
      ((k3.sub ((Multiset.le_add_left _ _).trans (Multiset.le_add_left _ _))).trans k4))
    have hsplit : splitSq id l' (some (l'.length / 2)) = (tsnKid k.id (l'.take (l'.length / 2))).sq ++
        rsq (Promo.rights (some (l'[l'.length / 2], tsnKid c (l'.drop (l'.length / 2))))) := by
      simp only [splitSq, List.getElem?_eq_getElem hmid, tsnKid, Promo.rights, rsq_cons, rsq_nil, List.append_nil]
      rfl
    have hsq : T.sq ++ rsq S.rights = zl fs ++ splitSq id l' (some (l'.length / 2)) ++ zr fs := by
      rw [hTsq, hsplit]; simp
    have hstrict : Strict id (T.sq ++ rsq S.rights) := by
      rw [hsq]
      exact Strict.splitSq hnext _ (fun i hi => by cases hi; omega)
    have hents : (ents (T.sq ++ rsq S.rights)).Perm (key :: ents K.sq) := by
      rw [hsq, hKsq]
      simpa only [ents_append, ents_map, ents_splitSq] using hpall
    cases S with
    | none =>
      refine .pure ⟨T.pg, _, ⟨T, hT, ?_, rfl, rfl, by simpa [Promo.rights] using hstrict⟩,
        by simpa [Promo.rights] using hents, h4.congr (by simp [Promo.rights]),
        fun p hp => hd4 p (by simp [hp]), hkk⟩
      rw [hTid]; exact hKid
    | some x =>
      obtain ⟨k', c'⟩ := x
      show Run (newPage _) w4 _
      refine (newPage_spec _ h4).mono ?_
      rintro r w5 ⟨h5, k5, d5⟩
      refine ⟨_, _, ⟨nodeKid tsnOps r [] T [(k', c')], .node r T _ hT
        (fun x hx => hS.tree x (by simpa [Promo.rights] using hx)) ((tsnLayout kw ps hps).fit_one k' trivial), rfl, rfl, rfl,
        ?_⟩, ?_, h5.congr ?_, ?_, hkk.trans (k5.sub (Multiset.le_add_left _ _))⟩
      · simpa [nodeKid, Promo.rights] using hstrict
      · simpa [nodeKid, Promo.rights] using hents
      · simp only [nodeKid, Promo.rights, lpg_nil, rpg_cons, rpg_nil]
        rw [show tsnOps.inner (keysOf [] [(k', c')]) (kidsOf [] T.id [(k', c')]) = .tsnInternal [k'] [T.id, c'.id] from rfl]
        abel
      · intro p hp
        simp only [nodeKid, lpg_nil, rpg_cons, rpg_nil, ids_add, ids_singleton, ids_zero, Multiset.mem_add,
          Multiset.mem_singleton] at hp
        have hold : p ∈ ids T.pg ∨ p ∈ ids c'.pg → IsDirty w5 p := by
          intro h
          refine k5.dirty p ?_ (hd4 p ?_)
          · simp only [Promo.rights, rpg_cons, rpg_nil, add_zero, ids_add, Multiset.mem_add]; tauto
          · simp only [Promo.rights, rpg_cons, rpg_nil, add_zero, ids_add, Multiset.mem_add]; tauto
        rcases hp with rfl | ((h | h) | h | h)
        · exact d5
        · cases h
        · exact hold (.inl h)
        · exact hold (.inr h)
        · cases h

/-! ## Removing -/

theorem tsnSet_ok {kw ps : Nat} {hps : 1024 ≤ ps} (L : Lefts Nat Nat) (R : Rights Nat Nat) (c0 c1 : Nat) :
    tsnSet L.length c0 c1 ((tsnLayout kw ps hps).ops.inner (keysOf L R) (kidsOf L c0 R)) =
      .ok ((), (tsnLayout kw ps hps).ops.inner (keysOf L R) (kidsOf L c1 R)) := by
  show tsnSet L.length c0 c1 (.tsnInternal (keysOf L R) (kidsOf L c0 R)) = .ok ((), .tsnInternal (keysOf L R) (kidsOf L c1 R))
  simp only [tsnSet]
  rw [if_pos (by simp [kidsOf])]
  simp [kidsOf]

theorem tsnDel_ok {l : List Nat} {used : Nat} (h : used ∈ l) :
    tsnDel used (.tsnLeaf l) = .ok ((l.erase used).isEmpty, .tsnLeaf (l.erase used)) := by
  simp only [tsnDel]; rw [if_pos (by simpa using h)]

theorem length_erase_le (l : List Nat) (x : Nat) : (l.erase x).length ≤ l.length := List.erase_sublist.length_le

/-- Outcome of removing `used` from the ids `l`. -/
structure TsnGone (kw ps : Nat) (hps : 1024 ≤ ps) (A : Nat → Prop) (X : Multiset Nat) (Q : Multiset (Nat × Node))
    (w : Writer) (used : Nat) (l : List Nat) (r : Option Nat) (rem : List Nat) (w' : Writer) (P' Z : Multiset (Nat × Node))
    (l' : List Nat) : Prop where
  perm : l.Perm (used :: l')
  rem : ids Z = ↑rem
  tree : (r = none ∧ P' = 0 ∧ l' = []) ∨ ∃ root, r = some root ∧ TsnRep kw ps hps root P' l'
  own : Own w' A X (P' + Z + Q)
  keep : Keep Q w w'
  loaded : ∀ p ∈ ids P', Loaded w' p

theorem tsnRemoveDeep_spec {kw ps : Nat} {hps : 1024 ≤ ps} {K : Kid Nat Nat} (hK : Tr (tsnLayout kw ps hps) K)
    (hdeep : 2 ≤ K.pg.card) (hst : Strict id K.sq) {used : Nat} (hin : used ∈ ents K.sq)
    (hw : Own w A X (K.pg + Q)) (hld : ∀ p ∈ ids K.pg, Loaded w p) :
    Run (tsnRemoveDeep K.id used) w fun res w' => ∃ P' Z l',
      TsnGone kw ps hps A X Q w used (ents K.sq) res.1 res.2 w' P' Z l' := by
  unfold tsnRemoveDeep
  refine .get ?_
  have hcard : K.pg.card ≤ w.nextPage := by
    have := hw.card_lt; simp only [Multiset.card_add] at this; omega
  refine (descend_spec (Y := tsnLayout kw ps hps) (pick := fun keys _ => lin keys used)
    (fun keys kids _ => lin_le keys used) hK w.nextPage [] w Q hcard hw).andThen ?_
  rintro leaf w1 ⟨fs, k, hF, rfl, h1, k1, hl1, hfl⟩
  simp only [List.append_nil]
  have hF := hF.of_lin (f := id) hst.weak
  obtain ⟨l, hlne, hk, hsz⟩ := hF.leaf
  have hkpg : k.pg = {(k.id, .tsnLeaf l)} := by rw [hk]; rfl
  have hksq : k.sq = l.map .ent := by rw [hk]; rfl
  have hKpg : K.pg = k.pg + fpg tsnOps fs k.id := by rw [← hF.eq]; exact plug_pg _ _ _
  have hKid : K.id = rootOf fs k.id := by rw [← hF.eq]; exact plug_id _ _ _
  have hKsq : K.sq = zl fs ++ l.map .ent ++ zr fs := by rw [← hF.eq, plug_sq, hksq]
  obtain ⟨hzl, hzr⟩ := zl_zr_strict (f := id) (O := tsnOps) (x := used) fs k (by
    show Strict _ (plug (tsnLayout kw ps hps).ops fs k).sq
    rw [hF.eq]; exact hst) hF.picked
  have hul : used ∈ l := by
    rw [hKsq, ents_append, ents_append, ents_map, List.mem_append, List.mem_append] at hin
    rcases hin with (h | h) | h
    · rcases hzl (.ent used) (mem_ents.mp h) with h' | h'
      · simp [Item.key] at h'
      · cases h'
    · exact h
    · have := hzr (.ent used) (mem_ents.mp h)
      simp [Item.key] at this
  have hperm : l.Perm (used :: l.erase used) := List.perm_cons_erase hul
  have hpall : (ents K.sq).Perm (used :: (ents (zl fs) ++ l.erase used ++ ents (zr fs))) := by
    rw [hKsq]
    simp only [ents_append, ents_map]
    exact ((hperm.append_left _).append_right _).trans (by simp)
  have hld1 : ∀ p ∈ ids K.pg, Loaded w1 p := fun p hp => k1.loaded p (by simp [hp]) (hld p hp)
  rw [hKpg, hkpg] at h1 hld1
  have h1 : Own w1 A X ({(k.id, .tsnLeaf l)} + (fpg tsnOps fs k.id + Q)) := h1.congr (by abel)
  refine ((getDirty_spec h1 hl1).both (getDirty_freed h1 hl1)).andThen ?_
  rintro c w2 ⟨⟨h2, k2, d2⟩, hfd2⟩
  refine (modDirty_spec h2 d2 (tsnDel_ok hul)).andThen ?_
  rintro empty w3 ⟨rfl, h3, k3, d3⟩
  have hld3 : ∀ p ∈ ids (fpg tsnOps fs k.id), Loaded w3 p := fun p hp =>
    k3.loaded p (by simp [hp]) (k2.loaded p (by simp [hp]) (hld1 p (by simp [hp])))
  have hfl3 : ∀ f ∈ fs, Loaded w3 f.id := fun f hf => hld3 _ (mem_fpg fs k.id hf)
  have hkk3 : Keep Q w w3 := (k1.sub (Multiset.le_add_left _ _)).trans ((k2.trans k3).sub (Multiset.le_add_left _ _))
  by_cases hem : l.erase used = []
  · -- the leaf is empty now
    rw [hem] at h3 hpall ⊢
    cases fs with
    | nil =>
      exfalso
      rw [hKpg, hkpg] at hdeep
      simp [fpg] at hdeep
    | cons f fs =>
      show Run (do
        let d ← getDirty f.id
        let kids ← modDirty d (tsnDrop f.L.length)
        tsnCollapse c f.id d (stackOf fs) kids) w3 _
      have hf := hF.frames f (by simp)
      have hfs' : ∀ g ∈ fs, FrOk (tsnLayout kw ps hps) g := fun g hg => hF.frames g (by simp [hg])
      have h3 : Own w3 A X ({(f.id, .tsnInternal (keysOf f.L f.R) (kidsOf f.L k.id f.R))} +
          (lpg f.L + rpg f.R + fpg tsnOps fs f.id + ({(c, .tsnLeaf [])} + Q))) := h3.congr (by
        rw [fpg, show tsnOps.inner (keysOf f.L f.R) (kidsOf f.L k.id f.R) =
            .tsnInternal (keysOf f.L f.R) (kidsOf f.L k.id f.R) from rfl]
        abel)
      refine ((getDirty_spec h3 (hfl3 f (by simp))).both (getDirty_freed h3 (hfl3 f (by simp)))).andThen ?_
      rintro d w4 ⟨⟨h4, k4, d4⟩, hfd4⟩
      have hkne : keysOf f.L f.R ≠ [] := by
        intro h; have := hf.fit.1; rw [h] at this; simp at this
      obtain ⟨L, x, R, hkids, hkeys, hpg, hsub, hents, hL, hx, hR⟩ := drop_focus hf hkne k.id
      have hdrop : tsnDrop f.L.length (.tsnInternal (keysOf f.L f.R) (kidsOf f.L k.id f.R)) =
          .ok (kidsOf L x.id R, .tsnInternal (keysOf L R) (kidsOf L x.id R)) := by
        simp only [tsnDrop]
        rw [if_pos (by simp [kidsOf]), hkids, hkeys]
      refine (modDirty_spec h4 d4 hdrop).andThen ?_
      rintro kids w5 ⟨rfl, h5, k5, d5⟩
      have hld5 : ∀ p ∈ ids (lpg f.L + rpg f.R + fpg tsnOps fs f.id), Loaded w5 p := by
        intro p hp
        have hp' : p ∈ ids (lpg f.L + rpg f.R + fpg tsnOps fs f.id + ({(c, .tsnLeaf [])} + Q)) := by
          rw [ids_add, Multiset.mem_add]; exact .inl hp
        refine k5.loaded p hp' (k4.loaded p hp' (hld3 p ?_))
        simp only [fpg, ids_add, Multiset.mem_add] at hp ⊢; tauto
      have hfl5 : ∀ g ∈ fs, Loaded w5 g.id := fun g hg => hld5 _ (by
        have := mem_fpg (O := tsnOps) fs f.id hg
        rw [ids_add, Multiset.mem_add]; exact .inr this)
      have hkk5 : Keep Q w w5 := hkk3.trans ((k4.trans k5).sub
        ((Multiset.le_add_left _ _).trans (Multiset.le_add_left _ _)))
      -- what remains of the sequence
      have hrest : ∀ T : Kid Nat Nat, T.sq = zl fs ++ (lsq L ++ x.sq ++ rsq R) ++ zr fs →
          Strict id T.sq ∧ (ents K.sq).Perm (used :: ents T.sq) := by
        intro T hT
        constructor
        · refine List.Pairwise.sublist ?_ hst
          rw [hT, hKsq]
          simp only [zl, zr]
          have h1 : (zl fs ++ (lsq L ++ x.sq ++ rsq R) ++ zr fs).Sublist (zl fs ++ (lsq f.L ++ rsq f.R) ++ zr fs) :=
            List.Sublist.append_right (List.Sublist.append_left hsub _) _
          refine h1.trans ?_
          simp only [List.append_assoc]
          refine List.Sublist.append_left (List.Sublist.append_left ?_ _) _
          exact List.sublist_append_right _ _
        · refine hpall.trans ?_
          rw [hT, ents_append, ents_append, hents]
          simp [zl, zr]
      by_cases hone : keysOf L R = []
      · -- the parent has one child left, which takes its place
        have hLR : L = [] ∧ R = [] := by simpa [keysOf] using hone
        obtain ⟨rfl, rfl⟩ := hLR
        show Run (do
          let r ← upWith tsnSet (stackOf fs) f.id x.id
          Pure.pure (some r.2, [c, d])) w5 _
        have h5 : Own w5 A X (x.pg + fpg (tsnLayout kw ps hps).ops fs f.id + ({(c, .tsnLeaf [])} +
            {(d, .tsnInternal (keysOf [] []) (kidsOf [] x.id []))} + Q)) := h5.congr (by
          rw [hpg, lpg_nil, rpg_nil]
          show x.pg + fpg tsnOps fs f.id + _ = _
          abel)
        refine (upWith_spec (tsnSet_ok (kw := kw) (ps := ps) (hps := hps)) [f.id] fs w5 _ f.id x hfs' hx h5 hfl5
          (fun _ => .inr (by simp))).andThen ?_
        rintro res w6 ⟨T, hT, rfl, hTsq, h6, k6, hd6, -⟩
        obtain ⟨hs, hp⟩ := hrest T (by rw [hTsq]; simp)
        refine .pure ⟨T.pg, {(c, .tsnLeaf [])} + {(d, .tsnInternal (keysOf [] []) (kidsOf [] x.id []))}, _, hp, ?_,
          .inr ⟨T.id, rfl, T, hT, rfl, rfl, rfl, hs⟩, h6.congr (by abel), ?_, ?_⟩
        · rw [ids_add, ids_singleton, ids_singleton]; rfl
        · refine hkk5.trans (k6.sub ?_)
          rw [← add_assoc]; exact Multiset.le_add_left _ _
        · intro p hp
          rcases hd6 p hp with h | h
          · refine k6.loaded p ?_ (hld5 p ?_)
            · rw [ids_add, Multiset.mem_add]; exact .inl h
            · rw [hpg, lpg_nil, rpg_nil]
              simp only [ids_add, ids_zero, Multiset.mem_add] at h ⊢
              rcases h with h | h
              · tauto
              · exact .inr (Multiset.mem_of_le (Multiset.map_le_map (side_le tsnOps fs f.id)) h)
          · exact .inl h
      · -- the parent remains
        have hfit : (tsnLayout kw ps hps).fit (keysOf L R) := by
          have hlen := congrArg List.length hkeys
          have hf1 := hf.fit
          show 1 ≤ _ ∧ 21 + 16 * _ ≤ ps
          obtain ⟨_, hf2⟩ := hf1
          refine ⟨?_, ?_⟩
          · rcases hLR : keysOf L R with _ | ⟨y, ys⟩
            · exact absurd hLR hone
            · simp
          · have : (keysOf L R).length ≤ (keysOf f.L f.R).length := by
              rw [← hkeys]; exact (List.eraseIdx_sublist _ _).length_le
            omega
        have hTd : Tr (tsnLayout kw ps hps) (nodeKid tsnOps d L x R) := .nodeAny hL hx hR hfit
        have hkids2 : tsnCollapse c f.id d (stackOf fs) (kidsOf L x.id R) = (do
            let r ← upWith tsnSet (stackOf fs) f.id d
            Pure.pure (some r.2, [c])) := by
          have hlen := kidsOf_length L x.id R
          cases hk2 : kidsOf L x.id R with
          | nil => rw [hk2] at hlen; simp at hlen
          | cons y ys =>
            cases ys with
            | nil => rw [hk2] at hlen; simp at hlen; exact absurd hlen hone
            | cons z zs => rfl
        rw [hkids2]
        have h5 : Own w5 A X ((nodeKid tsnOps d L x R).pg + fpg (tsnLayout kw ps hps).ops fs f.id +
            ({(c, .tsnLeaf [])} + Q)) := h5.congr (by
          rw [hpg]
          show ({(d, .tsnInternal (keysOf L R) (kidsOf L x.id R))} : Multiset (Nat × Node)) +
            (lpg L + x.pg + rpg R) + fpg tsnOps fs f.id + _ = _
          simp only [add_assoc])
        refine (upWith_spec (tsnSet_ok (kw := kw) (ps := ps) (hps := hps)) [f.id] fs w5 _ f.id _ hfs' hTd h5 hfl5
          (fun _ => .inr (by simp))).andThen ?_
        rintro res w6 ⟨T, hT, rfl, hTsq, h6, k6, hd6, -⟩
        obtain ⟨hs, hp⟩ := hrest T hTsq
        refine .pure ⟨T.pg, {(c, .tsnLeaf [])}, _, hp, by rw [ids_singleton]; rfl,
          .inr ⟨T.id, rfl, T, hT, rfl, rfl, rfl, hs⟩, h6.congr (by abel), ?_, ?_⟩
        · refine hkk5.trans (k6.sub ?_)
          rw [← add_assoc]; exact Multiset.le_add_left _ _
        · intro p hp
          rcases hd6 p hp with h | h
          · refine k6.loaded p (by rw [ids_add, Multiset.mem_add]; exact .inl h) ?_
            have hle := hpg
            simp only [nodeKid, ids_add, ids_singleton, Multiset.mem_add, Multiset.mem_singleton] at h
            rcases h with (rfl | h) | h
            · exact .inl d5
            · refine hld5 p ?_
              rw [hpg]; simp only [ids_add, Multiset.mem_add]; tauto
            · refine hld5 p ?_
              rw [ids_add, Multiset.mem_add]
              exact .inr (Multiset.mem_of_le (Multiset.map_le_map (side_le tsnOps fs f.id)) h)
          · exact .inl h
  · -- the leaf remains
    have hne : (l.erase used).isEmpty = false := by simpa using hem
    rw [hne]
    show Run (do
      let r ← upWith tsnSet (stackOf fs) k.id c
      Pure.pure (some r.2, [])) w3 _
    have ht1 : Tr (tsnLayout kw ps hps) (tsnKid c (l.erase used)) :=
      .leaf _ ⟨_, hem, rfl, by have := length_erase_le l used; omega⟩
    have h3 : Own w3 A X ((tsnKid c (l.erase used)).pg + fpg (tsnLayout kw ps hps).ops fs k.id + Q) := h3.congr (by
      show {(c, .tsnLeaf (l.erase used))} + fpg tsnOps fs k.id + Q = _
      abel)
    refine (upWith_spec (tsnSet_ok (kw := kw) (ps := ps) (hps := hps)) [k.id] fs w3 _ k.id _ hF.frames ht1 h3 hfl3
      (fun _ => .inr (by simp))).andThen ?_
    rintro res w4 ⟨T, hT, rfl, hTsq, h4, k4, hd4, -⟩
    have hTs : T.sq = zl fs ++ (l.erase used).map .ent ++ zr fs := hTsq
    refine .pure ⟨T.pg, 0, ents T.sq, ?_, rfl, .inr ⟨T.id, rfl, T, hT, rfl, rfl, rfl, ?_⟩, h4.congr (by abel),
      hkk3.trans (k4.sub (Multiset.le_add_left _ _)), ?_⟩
    · rw [hTs]; simpa only [ents_append, ents_map] using hpall
    · refine List.Pairwise.sublist ?_ hst
      rw [hTs, hKsq]
      exact List.Sublist.append_right (List.Sublist.append_left (List.Sublist.map _ List.erase_sublist) _) _
    · intro p hp
      rcases hd4 p hp with h | h
      · refine k4.loaded p (by rw [ids_add, Multiset.mem_add]; exact .inl h) ?_
        rw [ids_add, Multiset.mem_add] at h
        rcases h with h | h
        · rw [show p = c by simpa [tsnKid] using h]
          exact .inl d3
        · exact hld3 p (Multiset.mem_of_le (Multiset.map_le_map (side_le tsnOps fs k.id)) h)
      · exact .inl h

/-- Removing a page id from a subtree of which every page has been read. -/
theorem tsnRemove_spec {kw ps : Nat} {hps : 1024 ≤ ps} {root : Nat} {P : Multiset (Nat × Node)} {l : List Nat}
    (hr : TsnRep kw ps hps root P l) {used : Nat} (hin : used ∈ l) (hw : Own w A X (P + Q))
    (hld : ∀ p ∈ ids P, Loaded w p) :
    Run (tsnRemove root used) w fun res w' => ∃ P' Z l', TsnGone kw ps hps A X Q w used l res.1 res.2 w' P' Z l' := by
  obtain ⟨K, hK, rfl, rfl, rfl, hst⟩ := hr
  unfold tsnRemove
  cases hK with
  | leaf _ hk =>
    obtain ⟨l, hlne, hk, hsz⟩ := hk
    have hkpg : K.pg = {(K.id, .tsnLeaf l)} := by rw [hk]; rfl
    have hksq : K.sq = l.map .ent := by rw [hk]; rfl
    rw [hkpg] at hw hld
    rw [hksq, ents_map] at hin ⊢
    rw [hksq] at hst
    refine (getDirty_spec hw (hld K.id (by simp))).andThen ?_
    rintro d w1 ⟨h1, k1, d1⟩
    refine (getPage_spec (n := .tsnLeaf l) h1 (by simp)).andThen ?_
    rintro n w2 ⟨rfl, h2, k2, -⟩
    simp only
    refine (modDirty_spec h2 (k2.dirty d (by simp) d1) (tsnDel_ok hin)).andThen ?_
    rintro em w3 ⟨rfl, h3, k3, d3⟩
    have hkk : Keep Q w w3 := k1.trans ((k2.sub (Multiset.le_add_left _ _)).trans k3)
    by_cases hem : l.erase used = []
    · rw [hem]
      refine .pure ⟨0, {(d, .tsnLeaf [])}, [], ?_, by simp, .inl ⟨rfl, rfl, rfl⟩, h3.congr (by rw [hem]; abel), hkk, by simp⟩
      rw [← hem]; exact List.perm_cons_erase hin
    · have hne : (l.erase used).isEmpty = false := by simpa using hem
      rw [hne]
      refine .pure ⟨_, 0, l.erase used, List.perm_cons_erase hin, rfl, .inr ⟨d, rfl, tsnKid d (l.erase used),
        .leaf _ ⟨_, hem, rfl, by have := length_erase_le l used; omega⟩, rfl, rfl, (ents_map _).symm, ?_⟩,
        h3.congr (by show {(d, .tsnLeaf (l.erase used))} + 0 + Q = _; abel), hkk, ?_⟩
      · exact List.Pairwise.sublist (List.Sublist.map _ List.erase_sublist) hst
      · intro p hp
        rw [show p = d by simpa [tsnKid] using hp]
        exact .inl d3
  | node id m R hm hR hf =>
    have hw : Own w A X ({(id, .tsnInternal (keysOf [] R) (kidsOf [] m.id R))} + (m.pg + rpg R + Q)) := hw.congr (by
      show _ = {(id, Node.tsnInternal (keysOf [] R) (kidsOf [] m.id R))} + (lpg [] + m.pg + rpg R) + Q
      rw [lpg_nil]; abel)
    refine (getDirty_spec hw (hld id (by simp [nodeKid]))).andThen ?_
    rintro d w1 ⟨h1, k1, d1⟩
    refine (getPage_spec (n := .tsnInternal (keysOf [] R) (kidsOf [] m.id R)) h1 (by simp)).andThen ?_
    rintro n w2 ⟨rfl, h2, k2, -⟩
    simp only
    have hT : Tr (tsnLayout kw ps hps) (nodeKid tsnOps d [] m R) := .node d m R hm hR hf
    have h2 : Own w2 A X ((nodeKid tsnOps d [] m R).pg + Q) := h2.congr (by
      show {(d, Node.tsnInternal (keysOf [] R) (kidsOf [] m.id R))} + (lpg [] + m.pg + rpg R) + Q = _
      rw [lpg_nil]; abel)
    refine (tsnRemoveDeep_spec hT ?_ hst hin h2 ?_).mono ?_
    · have := hm.card_pos
      simp only [nodeKid, Multiset.card_add, Multiset.card_singleton]
      omega
    · intro p hp
      simp only [nodeKid, lpg_nil, zero_add, ids_add, ids_singleton, Multiset.mem_add, Multiset.mem_singleton] at hp
      rcases hp with rfl | hp
      · exact .inl (k2.dirty _ (by simp) d1)
      · refine k2.loaded p ?_ (k1.loaded p ?_ (hld p ?_))
        · simp only [ids_add, Multiset.mem_add]; tauto
        · simp only [ids_add, Multiset.mem_add]; tauto
        · simp only [nodeKid, lpg_nil, zero_add, ids_add, Multiset.mem_add]; tauto
    · rintro res w3 ⟨P', Z, l', hg⟩
      refine ⟨P', Z, l', hg.perm, hg.rem, hg.tree, hg.own, ?_, hg.loaded⟩
      exact (k1.sub (Multiset.le_add_left _ _)).trans ((k2.sub ((Multiset.le_add_left _ _).trans
        (Multiset.le_add_left _ _))).trans hg.keep)

/-! ## Examples -/

section Examples

/-- Pages 5 (internal), 6 and 7 (leaves) of a subtree holding the ids 20, 21 and 30. -/
def tsnSample : Writer where
  base p := [(5, Node.tsnInternal [30] [6, 7]), (6, .tsnLeaf [20, 21]), (7, .tsnLeaf [30])].lookup p
  kw := 8
  pageSize := 1024
  tsn := 4
  nextPage := 40
  freeRoot := 2
  eventsRoot := 3
  tagsRoot := 4
  trackRoot := 8
  nextPos := 1
  reusable := []
  reused := []
  freed := []
  deser p := [(5, Node.tsnInternal [30] [6, 7]), (6, .tsnLeaf [20, 21]), (7, .tsnLeaf [30])].lookup p
  dirty := []

-- Removing 21 copies the leaf and the root.
example : ((tsnRemove 5 21) tsnSample).1 = .ok (some 40, []) ∧
    ((tsnRemove 5 21) tsnSample).2.dirty = [(40, .tsnInternal [30] [41, 7]), (41, .tsnLeaf [20])] := by decide +kernel
-- Removing 30 empties a leaf, and the other leaf becomes the root.
example : ((tsnRemove 5 30) tsnSample).1 = .ok (some 6, [41, 40]) := by decide +kernel
example : ((tsnRemove 5 22) tsnSample).1 = .error (.databaseCorrupted "page id not found in TSN-subtree") := by
  decide +kernel
example : tsnPut 8 27 9 (.tsnLeaf [1]) = .ok (none, .tsnLeaf [1, 9]) := by decide +kernel
example : tsnPut 8 26 9 (.tsnLeaf [1]) = .ok (some (9, [9]), .tsnLeaf [1]) := by decide +kernel

end Examples

end Uma.Page
