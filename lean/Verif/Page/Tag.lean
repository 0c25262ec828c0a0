import Verif.Page.Upsert

/-!
# The tree of positions of one tag (umadb-core/src/tags_tree.rs 148-330 and 773-884, tags_tree_nodes.rs 507-528)

`keys.binary_search` may meet several equal keys here: when an event carries a tag more than once, its position is
inserted more than once.  The functions take the result of the search as a parameter `bs` with the law `Bs`.
-/

namespace Uma.Page
open Uma.Codec Uma.Spec

/-- Parameters of the per-tag trees. -/
def perOps : Ops Nat where
  inner := .tagInternal
  un
    | .tagInternal keys kids => some (keys, kids)
    | _ => none
  isLeaf
    | .tagLeaf _ => true
    | _ => false
  rightmost := false
  always := true
  minKeys := 3
  splitPos n := (n + 1) / 2 - 1

/-- Pushing onto a leaf; `some p`: `p` was taken off again because the leaf became too large, tags_tree.rs 190-205. -/
def perPut (kw ps pos : Nat) : Node → Except Err (Option Nat × Node)
  | .tagLeaf l =>
    if pageSizeOf kw (.tagLeaf (l ++ [pos])) > ps then
      match (l ++ [pos]).getLast? with
      | none => .error (.databaseCorrupted "No positions to pop")
      | some p => .ok (some p, .tagLeaf (l ++ [pos]).dropLast)
    else .ok (none, .tagLeaf (l ++ [pos]))
  | _ => .error (.databaseCorrupted "Expected TagLeaf at per-tag insert")

/-- tags_tree.rs 184-226. -/
def perLeafPut (d pos : Nat) : W (Option (Nat × Nat)) := do
  let w ← getW
  let off ← modDirty d (perPut w.kw w.pageSize pos)
  match off with
  | none => pure none
  | some p => do
    let c ← newPage (.tagLeaf [p])
    pure (some (p, c))

/-- Appending a position to a per-tag tree, tags_tree.rs 149-314.  Returns the new root. -/
def perAppend (bs : List Nat → Nat → Nat) (root pos : Nat) : W Nat := do
  let w ← getW
  let leaf ← descend perOps (fun keys _ => bs keys pos) w.nextPage root []
  let d ← getDirty leaf.1
  let s ← perLeafPut d pos
  finish perOps root leaf.2 leaf.1 d s

/-- The positions of one page from `start` on: `partition_point` and the slices, tags_tree.rs 737-757 and 839-867. -/
def clip (start : Option Nat) (back : Bool) (l : List Nat) : List Nat :=
  match back, start with
  | false, some f => l.drop (l.countP fun p => decide (p < f))
  | false, none => l
  | true, some f => (l.take (l.countP fun p => decide (p ≤ f))).reverse
  | true, none => l.reverse

/-- The traversal of a per-tag tree, tags_tree.rs 773-884. -/
def perWalk (bs : List Nat → Nat → Nat) (start : Option Nat) (back : Bool) : Walk Nat Nat where
  un := perOps.un
  first keys kids := some (if keys = [] then (if back then kids.length - 1 else 0) else firstIdx bs start back keys kids)
  leaf
    | .tagLeaf l, _ => .ok (clip start back l, none)
    | _, _ => .ok ([], none)
  back := back
  outOfBounds := none

/-! ## The tree -/

def perKid (id : Nat) (l : List Nat) : Kid Nat Nat where
  id := id
  pg := {(id, .tagLeaf l)}
  sq := l.map .ent

def PerLeaf (ps : Nat) (k : Kid Nat Nat) : Prop :=
  ∃ l, l ≠ [] ∧ k = perKid k.id l ∧ 11 + 8 * l.length ≤ ps

theorem tagLeaf_size (kw : Nat) (l : List Nat) : pageSizeOf kw (.tagLeaf l) = 11 + 8 * l.length := by
  simp [pageSizeOf, pageHeaderSize, nodeSize]; omega

theorem perInner_size (kw : Nat) (keys kids : List Nat) (h : kids.length = keys.length + 1) :
    pageSizeOf kw (.tagInternal keys kids) = 19 + 16 * keys.length := by
  simp [pageSizeOf, pageHeaderSize, nodeSize, h]; omega

/-- A per-tag tree. -/
def perLayout (kw ps : Nat) (hps : 1024 ≤ ps) : Layout Nat Nat where
  ops := perOps
  kw := kw
  ps := ps
  Leaf := PerLeaf ps
  kfit _ := True
  fit keys := 1 ≤ keys.length ∧ 19 + 16 * keys.length ≤ ps
  un_inner _ _ := rfl
  inner_leaf _ _ := rfl
  leaf_page k h := by
    obtain ⟨l, _, e, _⟩ := h
    exact ⟨.tagLeaf l, 0, by rw [e]; simp [perKid], rfl⟩
  fit_kfit _ _ _ _ := trivial
  fit_one k _ := by simp; omega
  fit_over _ keys kids hl hf := by
    show pageSizeOf kw (.tagInternal keys kids) ≤ ps
    rw [perInner_size _ _ _ hl]; exact hf.2
  fit_ins a b k kids hl _ _ hs := by
    have hs : pageSizeOf kw (.tagInternal (a ++ k :: b) kids) ≤ ps := hs
    rw [perInner_size _ _ _ hl] at hs
    exact ⟨by simp; omega, hs⟩
  fit_split a b k kids hl hf _ hs := by
    have hs : ps < pageSizeOf kw (.tagInternal (a ++ k :: b) kids) := hs
    rw [perInner_size _ _ _ hl] at hs
    simp only [List.length_append, List.length_cons] at hf hs
    show 3 ≤ (a ++ k :: b).length ∧ ((a ++ k :: b).length + 1) / 2 - 1 < (a ++ k :: b).length ∧
      (1 ≤ ((a ++ k :: b).take (((a ++ k :: b).length + 1) / 2 - 1)).length ∧
        19 + 16 * ((a ++ k :: b).take (((a ++ k :: b).length + 1) / 2 - 1)).length ≤ ps) ∧
      (1 ≤ ((a ++ k :: b).drop (((a ++ k :: b).length + 1) / 2 - 1 + 1)).length ∧
        19 + 16 * ((a ++ k :: b).drop (((a ++ k :: b).length + 1) / 2 - 1 + 1)).length ≤ ps)
    simp only [List.length_take, List.length_drop, List.length_append, List.length_cons]
    omega

/-- The root `root` and the pages `P` hold the positions `l`. -/
def PerRep (kw ps : Nat) (hps : 1024 ≤ ps) (root : Nat) (P : Multiset (Nat × Node)) (l : List Nat) : Prop :=
  ∃ K, Bt (perLayout kw ps hps) K ∧ root = K.id ∧ P = K.pg ∧ l = ents K.sq ∧ Weak id K.sq ∧ SepEnt id K.sq

theorem weak_ents {E : Type} {f : E → Nat} {sq : List (Item Nat E)} (h : Weak f sq) :
    (ents sq).Pairwise fun a b => f a ≤ f b := by
  unfold ents
  rw [List.pairwise_filterMap]
  refine h.imp ?_
  intro a b hab x hx y hy
  cases a <;> cases b <;> cases hx <;> cases hy
  exact hab

theorem PerRep.sorted {kw ps : Nat} {hps : 1024 ≤ ps} {root : Nat} {P : Multiset (Nat × Node)} {l : List Nat}
    (h : PerRep kw ps hps root P l) : l.Pairwise (· ≤ ·) := by
  obtain ⟨K, _, _, _, rfl, hw, _⟩ := h
  exact weak_ents hw

theorem eq_replicate {p : Nat} {l : List Nat} (h : ∀ x ∈ l, x = p) : l = List.replicate l.length p :=
  List.eq_replicate_of_mem h

theorem SepEnt.left {E : Type} {f : E → Nat} {P S : List (Item Nat E)} {e : E} (h : SepEnt f (P ++ .ent e :: S)) :
    SepEnt f (P ++ [.ent e]) := by
  intro a k b he
  rcases List.eq_nil_or_concat b with rfl | ⟨b', x, hb⟩
  · have := congrArg List.getLast? he
    simp at this
  · rw [List.concat_eq_append] at hb
    subst hb
    rw [← List.cons_append, ← List.append_assoc] at he
    obtain ⟨h1, h2⟩ := List.append_inj' he rfl
    cases h2
    obtain ⟨e', b'', h3, h4⟩ := h a k (b' ++ .ent e :: S) (by rw [h1]; simp)
    cases b' with
    | nil => simp only [List.nil_append, List.cons.injEq] at h3; exact ⟨e', [], by rw [List.nil_append, h3.1], h4⟩
    | cons y b' =>
      simp only [List.cons_append, List.cons.injEq] at h3
      exact ⟨e', b' ++ [.ent e], by rw [List.cons_append, h3.1], h4⟩

theorem SepEnt.append {E : Type} {f : E → Nat} {P S : List (Item Nat E)} (h1 : SepEnt f P) (h2 : SepEnt f S) :
    SepEnt f (P ++ S) := by
  intro a k b he
  rcases List.append_eq_append_iff.mp he with ⟨c, rfl, h4⟩ | ⟨c, h3, h4⟩
  · exact h2 c k b h4
  · cases c with
    | nil => exact h2 [] k b (by simpa using h4.symm)
    | cons y c =>
      simp only [List.cons_append, List.cons.injEq] at h4
      obtain ⟨rfl, rfl⟩ := h4
      obtain ⟨e, b', rfl, h6⟩ := h1 a k c h3
      exact ⟨e, b' ++ S, by simp, h6⟩

theorem SepEnt.right {E : Type} {f : E → Nat} {P S : List (Item Nat E)} (h : SepEnt f (P ++ S)) : SepEnt f S := by
  intro a k b he
  exact h (P ++ a) k b (by rw [he]; simp)

variable {w : Writer} {A : Nat → Prop} {X : Multiset Nat} {Q : Multiset (Nat × Node)}

theorem perLeafPut_spec {kw ps : Nat} {hps : 1024 ≤ ps} {l : List Nat} (hl : l ≠ []) (hsz : 11 + 8 * l.length ≤ ps)
    {d : Nat} (pos : Nat) (hkw : w.kw = kw) (hpz : w.pageSize = ps) (hw : Own w A X ({(d, .tagLeaf l)} + Q))
    (hd : IsDirty w d) :
    Run (perLeafPut d pos) w fun s w' => ∃ (t1 : Kid Nat Nat) (p : Promo Nat Nat),
      s = p.ref ∧ t1.id = d ∧ Tr (perLayout kw ps hps) t1 ∧ PromoOk (perLayout kw ps hps) p ∧
      (t1.sq ++ rsq p.rights = l.map .ent ++ [.ent pos] ∨ t1.sq ++ rsq p.rights = l.map .ent ++ [.sep pos, .ent pos]) ∧
      Own w' A X (t1.pg + rpg p.rights + Q) ∧ Keep Q w w' ∧ t1.dep = {0} ∧ ∀ x ∈ p.rights, x.2.dep = {0} := by
  unfold perLeafPut
  refine .get ?_
  rw [hkw, hpz]
  by_cases hs : pageSizeOf kw (.tagLeaf (l ++ [pos])) > ps
  · have hput : perPut kw ps pos (.tagLeaf l) = .ok (some pos, .tagLeaf l) := by
      simp only [perPut]
      rw [if_pos hs]
      simp
    refine (modDirty_spec hw hd hput).andThen ?_
    rintro off w1 ⟨rfl, h1, k1, -⟩
    simp only
    refine (newPage_spec _ h1).andThen ?_
    rintro c w2 ⟨h2, k2, -⟩
    refine .pure ⟨perKid d l, some (pos, perKid c [pos]), rfl, rfl, .leaf _ ⟨l, hl, rfl, hsz⟩, ⟨?_, fun _ _ => trivial⟩,
      .inr (by simp [Promo.rights, perKid]), h2.congr ?_, k1.trans (k2.sub (Multiset.le_add_left _ _)), rfl,
      by simp [Promo.rights, perKid]⟩
    · intro x hx
      cases List.mem_singleton.mp hx
      exact .leaf _ ⟨[pos], by simp, rfl, by simp; omega⟩
    · simp only [Promo.rights, rpg_cons, rpg_nil, perKid]; abel
  · have hput : perPut kw ps pos (.tagLeaf l) = .ok (none, .tagLeaf (l ++ [pos])) := by
      simp only [perPut]
      rw [if_neg hs]
    rw [tagLeaf_size] at hs
    refine (modDirty_spec hw hd hput).andThen ?_
    rintro off w1 ⟨rfl, h1, k1, -⟩
    refine .pure ⟨perKid d (l ++ [pos]), none, rfl, rfl, .leaf _ ⟨l ++ [pos], by simp, rfl, by omega⟩, .none,
      .inl (by simp [Promo.rights, perKid]), h1.congr (by simp [Promo.rights, perKid]), k1, rfl,
      by simp [Promo.rights]⟩

/-- Appending a position that is not below the recorded ones. -/
theorem perAppend_spec {bs : List Nat → Nat → Nat} (hbs : Bs bs) {kw ps : Nat} {hps : 1024 ≤ ps} {root : Nat}
    {P : Multiset (Nat × Node)} {l : List Nat} (hr : PerRep kw ps hps root P l) (hkw : w.kw = kw) (hpz : w.pageSize = ps)
    (pos : Nat) (hmax : ∀ q ∈ l, q ≤ pos) (hw : Own w A X (P + Q)) :
    Run (perAppend bs root pos) w fun root' w' => ∃ P', PerRep kw ps hps root' P' (l ++ [pos]) ∧
      Own w' A X (P' + Q) ∧ Keep Q w w' := by
  obtain ⟨K, hK, rfl, rfl, rfl, hweak, hsep⟩ := hr
  unfold perAppend
  refine .get ?_
  have hcard : K.pg.card ≤ w.nextPage := by
    have := hw.card_lt; simp only [Multiset.card_add] at this; omega
  refine (descend_spec (Y := perLayout kw ps hps) (pick := fun keys _ => bs keys pos)
    (fun keys kids _ => hbs.le keys pos) hK w.nextPage [] w Q hcard hw).andThen ?_
  rintro leaf w1 ⟨fs, k, hF, rfl, h1, k1, hl1, hfl⟩
  simp only [List.append_nil]
  obtain ⟨l, hlne, hk, hsz⟩ := hF.leaf
  have hkpg : k.pg = {(k.id, .tagLeaf l)} := by rw [hk]; rfl
  have hksq : k.sq = l.map .ent := by rw [hk]; rfl
  have hKpg : K.pg = k.pg + fpg perOps fs k.id := by rw [← hF.eq]; exact plug_pg _ _ _
  have hKid : K.id = rootOf fs k.id := by rw [← hF.eq]; exact plug_id _ _ _
  have hKsq : K.sq = zl fs ++ l.map .ent ++ zr fs := by rw [← hF.eq, plug_sq, hksq]
  obtain ⟨hzl, hzr⟩ := zl_zr_bounds (f := id) hbs (O := perOps) (x := pos) fs k (by
    show Weak _ (plug (perLayout kw ps hps).ops fs k).sq
    rw [hF.eq]; exact hweak) hF.picked
  rw [hKpg, hkpg] at h1
  have h1 : Own w1 A X ({(k.id, .tagLeaf l)} + (fpg perOps fs k.id + Q)) := h1.congr (by abel)
  refine (getDirty_spec h1 hl1).andThen ?_
  rintro d w2 ⟨h2, k2, hd2⟩
  have hkw2 : w2.kw = kw := by rw [k2.step.kw, k1.step.kw, hkw]
  have hps2 : w2.pageSize = ps := by rw [k2.step.pageSize, k1.step.pageSize, hpz]
  refine (perLeafPut_spec (hps := hps) hlne hsz pos hkw2 hps2 h2 hd2).andThen ?_
  rintro s w3 ⟨t1, p, rfl, rfl, ht1, hp, hsq, h3, k3, e1, e2⟩
  rw [hKid]
  refine (finish_spec (Y := perLayout kw ps hps) hF.frames (fun f _ h => by cases h) ht1 hp
    (by rw [k3.step.kw, hkw2]; rfl) (by rw [k3.step.pageSize, hps2]; rfl)
    (h3.congr (by show t1.pg + rpg p.rights + fpg perOps fs k.id + Q = _; abel)) (fun f hf => ?_)).mono ?_
  · have hm := mem_fpg (O := perOps) fs k.id hf
    exact k3.loaded _ (by simp [hm]) (k2.loaded _ (by simp [hm]) (hfl f hf))
  rintro root w4 ⟨U, hU, rfl, hUsq, h4, k4, -, hev⟩
  -- the content of the new tree
  have hents : ∀ e, Item.ent e ∈ K.sq → e ≤ pos := fun e he => hmax e (mem_ents.mpr he)
  have hlast : ∃ l0 x, l = l0 ++ [x] := ⟨l.dropLast, l.getLast hlne, (List.dropLast_append_getLast hlne).symm⟩
  obtain ⟨l0, x, hlx⟩ := hlast
  have hleft : SepEnt id (zl fs ++ l.map .ent) := by
    have := hsep
    rw [hKsq, hlx] at this
    have h5 := SepEnt.left (P := zl fs ++ l0.map .ent) (e := x) (S := zr fs) (by simpa using this)
    rw [hlx]; simpa using h5
  have hright : SepEnt id (zr fs) := SepEnt.right (P := zl fs ++ l.map .ent) (hKsq ▸ hsep)
  have hzre : ∀ q ∈ ents (zr fs), q = pos := by
    intro q hq
    have h5 := hzr _ (mem_ents.mp hq)
    have h6 := hents q (by rw [hKsq]; simp [mem_ents.mp hq])
    simp only [Item.key, id] at h5
    omega
  obtain ⟨M, hM, hMsq⟩ : ∃ M : List (Item Nat Nat), (M = [.ent pos] ∨ M = [.sep pos, .ent pos]) ∧
      U.sq = (zl fs ++ l.map .ent) ++ (M ++ zr fs) := by
    rcases hsq with h | h
    · exact ⟨_, .inl rfl, by rw [hUsq, h]; simp⟩
    · exact ⟨_, .inr rfl, by rw [hUsq, h]; simp⟩
  have hMsep : SepEnt id M := by
    intro a k b he
    rcases hM with rfl | rfl
    · have := congrArg List.getLast? he
      cases a with
      | nil => simp at he
      | cons y a => simp at he
    · cases a with
      | nil =>
        simp only [List.nil_append, List.cons.injEq, Item.sep.injEq] at he
        exact ⟨pos, [], he.2.symm, he.1⟩
      | cons y a =>
        cases a with
        | nil => simp at he
        | cons z a => simp at he
  have hMkey : ∀ i ∈ M, i.key id = pos := by
    intro i hi
    rcases hM with rfl | rfl
    · cases List.mem_singleton.mp hi; rfl
    · simp only [List.mem_cons, List.not_mem_nil, or_false] at hi
      rcases hi with rfl | rfl <;> rfl
  have hUd : Dense U.sq := by
    rw [hMsq]
    exact hleft.dense.append (hMsep.dense.append hright.dense)
  have hMe : ents M = [pos] := by rcases hM with rfl | rfl <;> rfl
  refine ⟨U.pg, ⟨U, ⟨hU, hev k (by rw [hk]; rfl) (hF.eq.symm ▸ hK.even) e1 e2, hUd⟩, rfl, rfl, ?_, ?_, ?_⟩, h4, ?_⟩
  · rw [hMsq, hKsq]
    simp only [ents_append, ents_map, hMe]
    rw [eq_replicate hzre]
    simp only [List.append_assoc, List.append_cancel_left_eq]
    rw [← List.replicate_succ', List.singleton_append, ← List.replicate_succ]
  · rw [hMsq]
    have hw' : Weak id ((zl fs ++ l.map .ent) ++ zr fs) := hKsq ▸ hweak
    obtain ⟨a, b, c⟩ := List.pairwise_append.mp hw'
    have hsepkey : ∀ i ∈ zl fs ++ l.map .ent, i.key id ≤ pos := by
      intro i hi
      rcases List.mem_append.mp hi with hi | hi
      · exact hzl i hi
      · obtain ⟨q, hq, rfl⟩ := List.mem_map.mp hi
        exact hents q (by rw [hKsq]; simp [hq])
    refine List.pairwise_append.mpr ⟨a, List.pairwise_append.mpr ⟨?_, b, ?_⟩, ?_⟩
    · rcases hM with rfl | rfl <;> simp [Item.key]
    · intro i hi j hj; rw [hMkey i hi]; exact hzr j hj
    · intro i hi j hj
      rcases List.mem_append.mp hj with hj | hj
      · rw [hMkey j hj]; exact hsepkey i hi
      · exact c i hi j hj
  · rw [hMsq]; exact hleft.append (hMsep.append hright)
  · exact (k1.sub (Multiset.le_add_left _ _)).trans ((k2.sub (Multiset.le_add_left _ _)).trans
      ((k3.sub (Multiset.le_add_left _ _)).trans k4))

/-! ## Reading -/

/-- On sorted positions `clip` selects those in range. -/
theorem clip_eq (start : Option Nat) (back : Bool) {l : List Nat} (h : l.Pairwise (· ≤ ·)) :
    clip start back l = (let sel := l.filter (fun p => decide (InRange start back p)); if back then sel.reverse else sel) := by
  have hd : ∀ (f : Nat) (l : List Nat), l.Pairwise (· ≤ ·) →
      l.drop (l.countP fun p => decide (p < f)) = l.filter fun p => decide (f ≤ p) := by
    intro f l
    induction l with
    | nil => intro _; rfl
    | cons a l ih =>
      intro h
      obtain ⟨h1, h2⟩ := List.pairwise_cons.mp h
      by_cases ha : a < f
      · rw [List.countP_cons_of_pos (by simpa using ha), List.drop_succ_cons, ih h2,
          List.filter_cons_of_neg (by simpa using ha)]
      · have h0 : l.countP (fun p => decide (p < f)) = 0 := by
          rw [List.countP_eq_zero]
          intro x hx; have := h1 x hx; simp; omega
        rw [List.countP_cons_of_neg (by simpa using ha), h0, List.drop_zero, eq_comm, List.filter_eq_self]
        intro x hx
        rcases List.mem_cons.mp hx with rfl | hx
        · simpa using ha
        · have := h1 x hx; simp; omega
  have ht : ∀ (f : Nat) (l : List Nat), l.Pairwise (· ≤ ·) →
      l.take (l.countP fun p => decide (p ≤ f)) = l.filter fun p => decide (p ≤ f) := by
    intro f l
    induction l with
    | nil => intro _; rfl
    | cons a l ih =>
      intro h
      obtain ⟨h1, h2⟩ := List.pairwise_cons.mp h
      by_cases ha : a ≤ f
      · rw [List.countP_cons_of_pos (by simpa using ha), List.take_succ_cons, ih h2,
          List.filter_cons_of_pos (by simpa using ha)]
      · have h0 : l.countP (fun p => decide (p ≤ f)) = 0 := by
          rw [List.countP_eq_zero]
          intro x hx; have := h1 x hx; simp; omega
        rw [List.countP_cons_of_neg (by simpa using ha), h0, List.take_zero, eq_comm, List.filter_eq_nil_iff]
        intro x hx
        rcases List.mem_cons.mp hx with rfl | hx
        · simpa using ha
        · have := h1 x hx; simp; omega
  unfold clip
  have hn : ∀ b, l.filter (fun p => decide (InRange none b p)) = l := by
    intro b
    rw [List.filter_eq_self]
    intro x _
    exact decide_eq_true trivial
  cases back <;> cases start
  · simp [hn]
  · exact hd _ l h
  · simp [hn]
  · simp only [if_true, ht _ l h]; rfl

theorem perLeaf_visit {bs : List Nat → Nat → Nat} {v : Nat → Option Node} {ps : Nat} {start : Option Nat} {back : Bool}
    {k : Kid Nat Nat} (hk : PerLeaf ps k) (hpre : RangePre id start back False k) (hs : Sees v k.pg) :
    ∃ l, Visit (perWalk bs start back) v k.id none l (walkCost k) ∧ RangeOut id start back k l := by
  obtain ⟨l, hl, hke, _⟩ := hk
  have hsq : k.sq = l.map .ent := by rw [hke]; rfl
  have hv : v k.id = some (.tagLeaf l) := hs _ _ (by rw [hke]; simp [perKid])
  have hsorted : l.Pairwise (· ≤ ·) := by
    have := weak_ents hpre.weak
    rwa [hsq, ents_map] at this
  refine ⟨clip start back l, ?_, ?_⟩
  · intro n st l' he
    refine ⟨n + 1, ?_, ?_⟩
    · have : 1 ≤ walkCost k := by
        unfold walkCost
        rw [show k.pg = {(k.id, .tagLeaf l)} by rw [hke]; rfl]
        simp
      omega
    · have hstep : (perWalk bs start back).step v k.id none st = .ok (clip start back l, st) := by
        unfold Walk.step
        rw [hv]
        rfl
      exact .step hstep he
  · rw [clip_eq start back hsorted]
    refine ⟨?_, ?_, ?_⟩
    · rw [hsq, ents_map]
      cases back
      · simp
      · simp only [if_true]; exact List.filter_sublist.reverse
    · intro e he
      have : e ∈ l.filter (fun p => decide (InRange start back p)) := by
        cases back <;> simpa using he
      simpa using (List.mem_filter.mp this).2
    · intro e he hr
      rw [hsq, ents_map] at he
      refine ⟨e, ?_, rfl⟩
      have : e ∈ l.filter (fun p => decide (InRange start back p)) := List.mem_filter.mpr ⟨he, by simpa using hr⟩
      cases back <;> simpa using this

/-- The traversal yields the positions in range, in order; of equal positions some may be left out. -/
theorem perWalk_spec {bs : List Nat → Nat → Nat} (hbs : Bs bs) {v : Nat → Option Node} {kw ps : Nat} {hps : 1024 ≤ ps}
    {root : Nat} {P : Multiset (Nat × Node)} {l : List Nat} (h : PerRep kw ps hps root P l) (hs : Sees v P)
    {fuel : Nat} (hf : l.length + 2 * P.card ≤ fuel) (start : Option Nat) (back : Bool) :
    ∃ out, (perWalk bs start back).run v fuel [(root, none)] = (out, none) ∧
      out.Sublist (if back then l.reverse else l) ∧ ∀ p, p ∈ out ↔ p ∈ l ∧ InRange start back p := by
  obtain ⟨K, hK, rfl, rfl, rfl, hweak, hsep⟩ := h
  obtain ⟨out, hv, ho⟩ := range_spec (Y := perLayout kw ps hps) (D := perWalk bs start back) (bs := bs) (N := False) (f := id)
    hbs rfl rfl
    (by
      intro keys kids hfit
      have h1 : 1 ≤ keys.length := hfit.1
      show some (if keys = [] then _ else _) = _
      rw [if_neg (by rintro rfl; simp at h1)]
      rfl)
    (fun k hk hp hs => perLeaf_visit hk hp hs) hK ⟨hweak, hsep, fun h => h.elim⟩ hs
  refine ⟨out, hv.run (by unfold walkCost; omega), ho.sub, fun p => ⟨fun hp => ⟨?_, ho.sound p hp⟩, ?_⟩⟩
  · have : p ∈ if back then (ents K.sq).reverse else ents K.sq := ho.sub.subset hp
    cases back <;> simpa using this
  · rintro ⟨hp, hr⟩
    obtain ⟨p', h1, h2⟩ := ho.complete p hp hr
    cases h2; exact h1

/-! ## Examples -/

section Examples

private def view : Nat → Option Node
  | 5 => some (.tagInternal [4] [6, 7])
  | 6 => some (.tagLeaf [1, 2, 4])
  | 7 => some (.tagLeaf [4, 9])
  | _ => none

example : (perWalk ub (some 2) false).run view 9 [(5, none)] = ([2, 4, 4, 9], none) := by decide +kernel
example : (perWalk ub (some 4) false).run view 9 [(5, none)] = ([4, 9], none) := by decide +kernel
example : (perWalk ub (some 4) true).run view 9 [(5, none)] = ([4, 4, 2, 1], none) := by decide +kernel
example : perPut 8 27 9 (.tagLeaf [1]) = .ok (none, .tagLeaf [1, 9]) := by decide +kernel
example : perPut 8 26 9 (.tagLeaf [1]) = .ok (some 9, .tagLeaf [1]) := by decide +kernel

end Examples

end Uma.Page
