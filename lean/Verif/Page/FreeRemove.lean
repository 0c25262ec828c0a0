import Verif.Page.Free

/-!
# The free list: taking pages out (umadb-core/src/mvcc.rs 1953-2410)
-/

namespace Uma.Page
open Uma.Codec

/-- Where the leaf has the transaction, and the root of its subtree: mvcc.rs 2002-2020. -/
def freeIdx (tsn : Nat) : Node → Except Err (Nat × Nat)
  | .freeLeaf keys values =>
    match keys.findIdx? (· == tsn) with
    | none => .error (.databaseCorrupted "Expected TSN not found in leaf")
    | some i =>
      match values[i]? with
      | none => .error (.panic "index out of bounds")
      | some v => .ok (i, v.root)
  | _ => .error (.databaseCorrupted "Expected FreeListLeaf node")

/-- Removing an id from the list in the leaf, and the transaction with its last id: mvcc.rs 2034-2067.  The result says
whether the leaf is empty now. -/
def freeDel (i used : Nat) : Node → Except Err (Bool × Node)
  | .freeLeaf keys values =>
    match values[i]? with
    | none => .error (.panic "index out of bounds")
    | some v =>
      if v.pageIds.contains used then
        if (v.pageIds.erase used).isEmpty then
          .ok ((keys.eraseIdx i).isEmpty, .freeLeaf (keys.eraseIdx i) (values.eraseIdx i))
        else .ok (false, .freeLeaf keys (values.set i { v with pageIds := v.pageIds.erase used }))
      else .error (.databaseCorrupted "page id not found in TSN")
  | _ => .error (.databaseCorrupted "Expected FreeListLeaf node")

/-- The leaf after its subtree has changed, mvcc.rs 2262-2304: without the entry if the subtree is empty. -/
def freeSub (i tsn : Nat) (root : Option Nat) : Node → Except Err (Bool × Node)
  | .freeLeaf keys values =>
    match keys[i]?, values[i]? with
    | some k, some v =>
      if k ≠ tsn then .error (.databaseCorrupted "Expected TSN not found in dirty leaf")
      else match root with
        | none => .ok ((keys.eraseIdx i).isEmpty, .freeLeaf (keys.eraseIdx i) (values.eraseIdx i))
        | some r => .ok (false, .freeLeaf keys (values.set i { v with root := r }))
    | _, _ => .error (.panic "index out of bounds")
  | _ => .error (.databaseCorrupted "Expected FreeListLeaf node")

/-- mvcc.rs 2027-2310.  Results: whether the leaf is empty, its new id, the pages to be freed. -/
def freeTake (leaf tsn used i root : Nat) : W (Bool × Nat × List Nat) :=
  if root = 0 then do
    let d ← getDirty leaf
    let e ← modDirty d (freeDel i used)
    pure (e, d, [])
  else do
    let r ← tsnRemove root used
    let d ← getDirty leaf
    let e ← modDirty d (freeSub i tsn r.1)
    pure (e, d, r.2)

/-- mvcc.rs 2328-2346: nothing is done if the child has kept its id. -/
def freeRepl (idx old new : Nat) : Node → Except Err (Unit × Node)
  | .freeInternal keys kids =>
    if old = new then .ok ((), .freeInternal keys kids)
    else match kids[idx]? with
      | none => .error (.panic "index out of bounds")
      | some c =>
        if c = old then .ok ((), .freeInternal keys (kids.set idx new))
        else .error (.databaseCorrupted "Child ID mismatch")
  | n => if old = new then .ok ((), n) else .error (.databaseCorrupted "Expected FreeListInternal node")

/-- Removing an empty leaf from its parent, mvcc.rs 2353-2385.  The result is the only child left if there is no key left. -/
def freeUnlink (idx removed : Nat) : Node → Except Err (Option Nat × Node)
  | .freeInternal keys kids =>
    match kids[idx]? with
    | none => .error (.panic "index out of bounds")
    | some c =>
      if c ≠ removed then .error (.databaseCorrupted "Child ID mismatch")
      else
        if (keys.eraseIdx (idx - 1)).isEmpty then
          match kids.eraseIdx idx with
          | [x] => .ok (some x, .freeInternal (keys.eraseIdx (idx - 1)) [x])
          | _ => .error (.panic "assertion `left == right` failed")
        else .ok (none, .freeInternal (keys.eraseIdx (idx - 1)) (kids.eraseIdx idx))
  | _ => .error (.databaseCorrupted "Expected FreeListInternal node")

/-- What takes the place of the page `pid`, now `pd`, in its parent, and the pages to be freed; `d` is the empty leaf.
mvcc.rs 2375-2385. -/
def freeUpFrom (st : List (Nat × Nat)) (pid pd d : Nat) : Option Nat → W ((Nat × Nat) × List Nat)
  | some x => do
    let r ← upWith freeRepl st pid x
    pure (r, [d, pd])
  | none => do
    let r ← upWith freeRepl st pid pd
    pure (r, [d])

/-- The loop over the stack, mvcc.rs 2313-2394.  Results: old and new id of the root, and the pages to be freed. -/
def freeUp (empty : Bool) (old d : Nat) : List (Nat × Nat) → W ((Nat × Nat) × List Nat)
  | [] => pure ((old, d), [])
  | (pid, idx) :: st =>
    if empty then do
      let pd ← getDirty pid
      modDirty pd (freeRepl idx old d)
      let o ← modDirty pd (freeUnlink idx d)
      freeUpFrom st pid pd d o
    else do
      let r ← upWith freeRepl ((pid, idx) :: st) old d
      pure (r, [])

/-- mvcc.rs 2400-2410. -/
def freeRoot (old new : Nat) : W Unit := do
  let w ← getW
  if old = new then pure ()
  else if w.freeRoot = old then do
    appendFreed old
    modW fun w => { w with freeRoot := new }
  else fail (.rootIdMismatch old new)

/-- `remove_free_page_id`, mvcc.rs 1953-2410. -/
def freeRemove (tsn used : Nat) : W Unit := do
  let w ← getW
  let leaf ← descend freeOps (fun keys _ => lin keys tsn) w.nextPage w.freeRoot []
  let n ← getPage leaf.1
  let i ← ofExcept (freeIdx tsn n)
  let t ← freeTake leaf.1 tsn used i.1 i.2
  let up ← freeUp t.1 leaf.1 t.2.1 leaf.2
  appendFreeds (t.2.2 ++ up.2)
  freeRoot up.1.1 up.1.2

variable {w : Writer} {A : Nat → Prop} {X : Multiset Nat} {Q : Multiset (Nat × Node)}

/-- What the change of the leaf `c` amounts to: the entry `o` has become `m`. -/
structure FreeTook (kw ps : Nat) (hps : 1024 ≤ ps) (A : Nat → Prop) (X : Multiset Nat) (R : Multiset (Nat × Node))
    (w : Writer) (c used : Nat) (a b : List FreeEnt) (o : FreeEnt) (em : Bool) (d : Nat) (rem : List Nat) (w' : Writer)
    (m : List FreeEnt) (Z : Multiset (Nat × Node)) : Prop where
  entry : (m = [] ∧ o.pids.Perm [used]) ∨ ∃ o', m = [o'] ∧ o'.tsn = o.tsn ∧ o.pids.Perm (used :: o'.pids) ∧
    FreeOk kw ps hps o' ∧ ∀ q ∈ ids o'.pg, Loaded w' q
  empty : em = (a ++ m ++ b).isEmpty
  rem : ids Z = ↑rem
  size : pageSizeOf kw (frNode (a ++ m ++ b)) ≤ ps
  own : Own w' A X ({(d, frNode (a ++ m ++ b))} + (frPg (a ++ m ++ b) + Z + R))
  keep : Keep (frPg a + frPg b + R) w w'
  dirty : IsDirty w' d
  freed : d ≠ c → c ∈ w'.freed

theorem frNode_mid (a b : List FreeEnt) (o : FreeEnt) : ((a ++ o :: b).map (·.val))[a.length]? = some o.val := by simp

theorem freeIdx_ok {a b : List FreeEnt} {o : FreeEnt} (ha : ∀ x ∈ a, x.tsn ≠ o.tsn) :
    freeIdx o.tsn (frNode (a ++ o :: b)) = .ok (a.length, o.root) := by
  have h : ((a ++ o :: b).map (·.tsn)).findIdx? (· == o.tsn) = some a.length := by
    rw [List.map_append, List.findIdx?_append, List.findIdx?_eq_none_iff.mpr]
    · rw [List.map_cons, List.findIdx?_cons, if_pos (by simp)]; simp
    · intro x hx
      obtain ⟨y, hy, rfl⟩ := List.mem_map.mp hx
      simpa using ha y hy
  rw [frNode]
  simp only [freeIdx, h, frNode_mid]
  rfl

theorem frNode_erase (a b : List FreeEnt) (o : FreeEnt) :
    Node.freeLeaf (((a ++ o :: b).map (·.tsn)).eraseIdx a.length) (((a ++ o :: b).map (·.val)).eraseIdx a.length) =
      frNode (a ++ b) := by
  have h1 : ∀ {α} (f : FreeEnt → α), ((a ++ o :: b).map f).eraseIdx a.length = (a ++ b).map f := by
    intro α f
    rw [List.map_append, List.eraseIdx_append_of_length_le (by simp)]
    simp
  rw [h1, h1, frNode]

theorem frNode_put (a b : List FreeEnt) (o o' : FreeEnt) (h : o'.tsn = o.tsn) :
    Node.freeLeaf ((a ++ o :: b).map (·.tsn)) (((a ++ o :: b).map (·.val)).set a.length o'.val) =
      frNode (a ++ o' :: b) := by
  simp [frNode, h]

theorem frNode_empty (a b : List FreeEnt) (o : FreeEnt) :
    (((a ++ o :: b).map (·.tsn)).eraseIdx a.length).isEmpty = (a ++ b).isEmpty := by
  rw [List.map_append, List.eraseIdx_append_of_length_le (by simp)]
  cases a <;> cases b <;> simp

theorem freeDel_ok {a b : List FreeEnt} {o : FreeEnt} {used : Nat} (h : used ∈ o.inl) :
    freeDel a.length used (frNode (a ++ o :: b)) =
      if (o.inl.erase used).isEmpty then .ok ((a ++ b).isEmpty, frNode (a ++ b))
      else .ok (false, frNode (a ++ { o with inl := o.inl.erase used } :: b)) := by
  rw [frNode]
  simp only [freeDel, frNode_mid, frNode_erase, frNode_empty]
  rw [show o.val.pageIds = o.inl from rfl, if_pos (by simpa using h), ← frNode_put a b o { o with inl := o.inl.erase used } rfl]
  rfl

theorem freeSub_ok {a b : List FreeEnt} {o : FreeEnt} (root : Option Nat) :
    freeSub a.length o.tsn root (frNode (a ++ o :: b)) =
      match root with
      | none => .ok ((a ++ b).isEmpty, frNode (a ++ b))
      | some r => .ok (false, frNode (a ++ { o with root := r } :: b)) := by
  have hkey : ((a ++ o :: b).map (·.tsn))[a.length]? = some o.tsn := by simp
  rw [frNode]
  simp only [freeSub, frNode_mid, hkey, frNode_erase, frNode_empty]
  rw [if_neg (by simp)]
  cases root with
  | none => rfl
  | some r =>
    simp only
    rw [← frNode_put a b o { o with root := r } rfl]
    rfl

theorem freeTake_spec {kw ps : Nat} {hps : 1024 ≤ ps} {c used : Nat} {a b : List FreeEnt} {o : FreeEnt}
    {R : Multiset (Nat × Node)} (hes : FreeOk kw ps hps o) (hsz : pageSizeOf kw (frNode (a ++ o :: b)) ≤ ps)
    (hin : used ∈ o.pids) (hld : ∀ q ∈ ids o.pg, Loaded w q) (hc : Loaded w c)
    (hw : Own w A X ({(c, frNode (a ++ o :: b))} + (frPg (a ++ o :: b) + R))) :
    Run (freeTake c o.tsn used a.length o.root) w fun res w' => ∃ m Z,
      FreeTook kw ps hps A X R w c used a b o res.1 res.2.1 res.2.2 w' m Z := by
  have hsum : ∀ m : List FreeEnt, pageSizeOf kw (frNode (a ++ m ++ b)) = 11 + ((a.map fun e => 18 + 8 * e.inl.length).sum +
      (m.map fun e => 18 + 8 * e.inl.length).sum + (b.map fun e => 18 + 8 * e.inl.length).sum) := by
    intro m; rw [frNode_size, List.map_append, List.map_append, List.sum_append, List.sum_append]
  have hsz0 := hsum [o]
  rw [List.append_assoc, List.singleton_append] at hsz0
  simp only [List.map_cons, List.map_nil, List.sum_cons, List.sum_nil] at hsz0
  rw [hsz0] at hsz
  have hpg : frPg (a ++ o :: b) = frPg a + o.pg + frPg b := by simp [add_assoc]
  unfold freeTake
  rcases hes with ⟨hr, hinl, hopg, hne⟩ | ⟨hr, hinl, hrep⟩
  · rw [if_pos hr]
    refine ((getDirty_spec hw hc).both (getDirty_freed hw hc)).andThen ?_
    rintro d w1 ⟨⟨h1, k1, d1⟩, hfd⟩
    have hperm : o.pids.Perm (used :: o.pids.erase used) := List.perm_cons_erase hin
    by_cases hem : o.pids.erase used = []
    · refine (modDirty_spec (a := (a ++ b).isEmpty) (n' := frNode (a ++ b)) h1 d1 ?_).andThen ?_
      · rw [freeDel_ok (by rw [hinl]; exact hin), hinl, if_pos (by simp [hem])]
      · rintro _ w2 ⟨rfl, h2, k2, d2⟩
        refine .pure ⟨[], 0, .inl ⟨rfl, by rw [hem] at hperm; exact hperm⟩, by simp, rfl, ?_, h2.congr ?_, (k1.trans k2).sub ?_, d2,
          fun h => k2.freed _ (hfd h)⟩
        · rw [hsum, List.map_nil, List.sum_nil]; omega
        · rw [hpg, hopg]; simp [add_assoc]
        · rw [hpg, hopg, add_zero]
    · refine (modDirty_spec (a := false) (n' := frNode (a ++ ⟨o.tsn, 0, o.pids.erase used, o.pids.erase used, 0⟩ :: b)) h1 d1 ?_).andThen ?_
      · rw [freeDel_ok (by rw [hinl]; exact hin), hinl, if_neg (by simpa using hem)]
        simp [frNode, FreeEnt.val, hr]
      · rintro _ w2 ⟨rfl, h2, k2, d2⟩
        refine .pure ⟨[⟨o.tsn, 0, o.pids.erase used, o.pids.erase used, 0⟩], 0, .inr ⟨_, rfl, rfl, hperm, .inl ⟨rfl, rfl, rfl, hem⟩,
          by simp⟩, by simp, rfl, ?_, h2.congr ?_, (k1.trans k2).sub ?_, d2, fun h => k2.freed _ (hfd h)⟩
        · rw [hsum, List.map_cons, List.sum_cons, List.map_nil, List.sum_nil]
          have := length_erase_le o.pids used
          rw [hinl] at hsz
          show 11 + (_ + (18 + 8 * (o.pids.erase used).length + 0) + _) ≤ ps
          omega
        · rw [hpg, hopg]; simp [add_assoc]
        · rw [hpg, hopg, add_zero]
  · rw [if_neg hr]
    have hw' : Own w A X (o.pg + ({(c, frNode (a ++ o :: b))} + (frPg a + frPg b + R))) := hw.congr (by rw [hpg]; abel)
    refine (tsnRemove_spec hrep hin hw' hld).andThen ?_
    rintro ⟨r, rem⟩ w1 ⟨P', Z, l', g⟩
    have hc1 : Loaded w1 c := g.keep.loaded c (by simp) hc
    have h1 : Own w1 A X ({(c, frNode (a ++ o :: b))} + (P' + Z + (frPg a + frPg b + R))) := g.own.congr (by abel)
    refine ((getDirty_spec h1 hc1).both (getDirty_freed h1 hc1)).andThen ?_
    rintro d w2 ⟨⟨h2, k2, d2⟩, hfd⟩
    have hkk : ∀ w3, Keep (P' + Z + (frPg a + frPg b + R)) w2 w3 → Keep (frPg a + frPg b + R) w w3 := fun w3 k3 =>
      (g.keep.sub (Multiset.le_add_left _ _)).trans ((k2.trans k3).sub (Multiset.le_add_left _ _))
    rcases g.tree with ⟨rfl, rfl, rfl⟩ | ⟨root, rfl, hrep'⟩
    · refine (modDirty_spec (a := (a ++ b).isEmpty) (n' := frNode (a ++ b)) h2 d2 ?_).andThen ?_
      · rw [freeSub_ok]
      · rintro _ w3 ⟨rfl, h3, k3, d3⟩
        refine .pure ⟨[], Z, .inl ⟨rfl, g.perm⟩, by simp, g.rem, ?_, h3.congr ?_, hkk w3 k3, d3,
          fun h => k3.freed _ (hfd h)⟩
        · rw [hsum, List.map_nil, List.sum_nil]; omega
        · simp only [List.append_nil, frPg_append]; abel
    · have hr0 : root ≠ 0 := by
        obtain ⟨K, hK, rfl, rfl, -⟩ := hrep'
        obtain ⟨n, Q', e⟩ := hK.page
        have := g.own.lt (p := K.id) (by rw [e]; simp)
        omega
      refine (modDirty_spec (a := false) (n' := frNode (a ++ ⟨o.tsn, root, [], l', P'⟩ :: b)) h2 d2 ?_).andThen ?_
      · rw [freeSub_ok]
        simp [frNode, FreeEnt.val, hinl]
      · rintro _ w3 ⟨rfl, h3, k3, d3⟩
        refine .pure ⟨[⟨o.tsn, root, [], l', P'⟩], Z, .inr ⟨_, rfl, rfl, g.perm, .inr ⟨hr0, rfl, hrep'⟩, ?_⟩, by simp, g.rem, ?_,
          h3.congr ?_, hkk w3 k3, d3, fun h => k3.freed _ (hfd h)⟩
        · intro q hq
          have hq' : q ∈ ids (P' + Z + (frPg a + frPg b + R)) := by
            simp only [ids_add, Multiset.mem_add]; exact .inl (.inl hq)
          exact k3.loaded q hq' (k2.loaded q hq' (g.loaded q hq))
        · rw [hsum]; simp only [List.map_nil, List.sum_nil, List.map_cons, List.sum_cons, List.length_nil]; omega
        · simp only [List.append_assoc, List.singleton_append, frPg_append, frPg_cons]; abel

theorem freeRepl_ok {kw ps : Nat} {hps : 1024 ≤ ps} (L : Lefts Nat FreeEnt) (R : Rights Nat FreeEnt) (c0 c1 : Nat) :
    freeRepl L.length c0 c1 ((frLayout kw ps hps).ops.inner (keysOf L R) (kidsOf L c0 R)) =
      .ok ((), (frLayout kw ps hps).ops.inner (keysOf L R) (kidsOf L c1 R)) := by
  show freeRepl L.length c0 c1 (.freeInternal (keysOf L R) (kidsOf L c0 R)) = .ok ((), .freeInternal (keysOf L R) (kidsOf L c1 R))
  unfold freeRepl
  by_cases h : c0 = c1
  · simp [h]
  · have h1 : (kidsOf L c0 R)[L.length]? = some c0 := by simp [kidsOf]
    simp only [h1, if_neg h, if_true]
    simp [kidsOf]

theorem freeUnlink_some {keys kids : List Nat} {idx c x : Nat} (h1 : kids[idx]? = some c) (h2 : keys.eraseIdx (idx - 1) = [])
    (h3 : kids.eraseIdx idx = [x]) : freeUnlink idx c (.freeInternal keys kids) = .ok (some x, .freeInternal [] [x]) := by
  simp only [freeUnlink, h1, h2, h3]
  rw [if_neg (by simp)]
  rfl

theorem freeUnlink_none {keys kids keys' kids' : List Nat} {idx c : Nat} (h1 : kids[idx]? = some c)
    (h2 : keys.eraseIdx (idx - 1) = keys') (h3 : kids.eraseIdx idx = kids') (hne : keys' ≠ []) :
    freeUnlink idx c (.freeInternal keys kids) = .ok (none, .freeInternal keys' kids') := by
  simp only [freeUnlink, h1, h2, h3]
  rw [if_neg (by simp), if_neg (by simpa using hne)]

/-- What the way up makes of the tree with the leaf `d` in place of `c`. -/
structure FreeUp (kw ps : Nat) (hps : 1024 ≤ ps) (A : Nat → Prop) (X : Multiset Nat) (Q : Multiset (Nat × Node))
    (w : Writer) (c : Nat) (fs : List (Fr Nat FreeEnt)) (es : List FreeEnt) (res : (Nat × Nat) × List Nat) (w' : Writer)
    (P : Multiset (Nat × Node)) (Z : Multiset (Nat × Node)) : Prop where
  tree : FreeTree kw ps hps res.1.2 P (ents (zl fs) ++ es ++ ents (zr fs))
  old : res.1.1 = rootOf fs c
  rem : ids Z = ↑res.2
  own : Own w' A X (P + Z + Q)
  keep : Keep (frPg es + side fs + Q) w w'
  gone : res.1.2 ≠ rootOf fs c → rootOf fs c ∈ w'.freed ∨ rootOf fs c ∈ res.2

theorem freeUp_spec {kw ps : Nat} {hps : 1024 ≤ ps} {c d : Nat} {fs : List (Fr Nat FreeEnt)} {es : List FreeEnt}
    (hes : ∀ e ∈ es, FreeOk kw ps hps e) (hsz : pageSizeOf kw (frNode es) ≤ ps)
    (hfs : ∀ f ∈ fs, FrOk (frLayout kw ps hps) f) (hst : Strict FreeEnt.tsn (zl fs ++ es.map .ent ++ zr fs))
    (hload : ∀ f ∈ fs, Loaded w f.id) (hw : Own w A X ({(d, frNode es)} + (frPg es + (fpg freeOps fs c + Q))))
    (hcd : d ≠ c → c ∈ w.freed) :
    Run (freeUp es.isEmpty c d (stackOf fs)) w fun res w' => ∃ P Z, FreeUp kw ps hps A X Q w c fs es res w' P Z := by
  by_cases hem : es = []
  · subst hem
    cases fs with
    | nil =>
      exact .pure ⟨{(d, frNode [])}, 0, .inr ⟨by simp [zl, zr], rfl⟩, rfl, rfl, hw.congr (by simp [fpg]), .refl _ _,
        fun h => .inl (hcd h)⟩
    | cons f fs =>
      show Run (do
        let pd ← getDirty f.id
        modDirty pd (freeRepl f.L.length c d)
        let o ← modDirty pd (freeUnlink f.L.length d)
        freeUpFrom (stackOf fs) f.id pd d o) w _
      have hf := hfs f (by simp)
      have hfs' : ∀ g ∈ fs, FrOk (frLayout kw ps hps) g := fun g hg => hfs g (by simp [hg])
      have hw : Own w A X ({(f.id, .freeInternal (keysOf f.L f.R) (kidsOf f.L c f.R))} +
          (lpg f.L + rpg f.R + fpg freeOps fs f.id + ({(d, frNode [])} + Q))) := hw.congr (by
        rw [fpg, show freeOps.inner (keysOf f.L f.R) (kidsOf f.L c f.R) =
            .freeInternal (keysOf f.L f.R) (kidsOf f.L c f.R) from rfl, frPg_nil]
        abel)
      refine ((getDirty_spec hw (hload f (by simp))).both (getDirty_freed hw (hload f (by simp)))).andThen ?_
      rintro pd w1 ⟨⟨h1, k1, d1⟩, hfd⟩
      refine (modDirty_spec h1 d1 (freeRepl_ok (kw := kw) (ps := ps) (hps := hps) f.L f.R c d)).andThen ?_
      rintro _ w2 ⟨-, h2, k2, d2⟩
      have hkne : keysOf f.L f.R ≠ [] := by
        intro h; have := hf.fit.1; rw [h] at this; simp at this
      obtain ⟨L, x, R, hkids, hkeys, hpg, hsub, hents, hL, hx, hR⟩ := drop_focus hf hkne d
      have hget : (kidsOf f.L d f.R)[f.L.length]? = some d := by simp [kidsOf]
      have hlo : ∀ w3, Keep (lpg f.L + rpg f.R + fpg freeOps fs f.id + ({(d, frNode [])} + Q)) w2 w3 →
          ∀ g ∈ fs, Loaded w3 g.id := by
        intro w3 k3 g hg
        have hm := mem_fpg (O := freeOps) fs f.id hg
        have hm' : g.id ∈ ids (lpg f.L + rpg f.R + fpg freeOps fs f.id + ({(d, frNode [])} + Q)) := by
          simp only [ids_add, Multiset.mem_add]; exact .inl (.inr hm)
        exact k3.loaded _ hm' (k2.loaded _ hm' (k1.loaded _ hm' (hload g (by simp [hg]))))
      have hside : frPg [] + side (f :: fs) + Q ≤ lpg f.L + rpg f.R + fpg freeOps fs f.id + ({(d, frNode [])} + Q) := by
        rw [frPg_nil, zero_add, side_cons]
        exact add_le_add (add_le_add_right (side_le _ _ _) _) (Multiset.le_add_left _ _)
      have hrest : ∀ T : Kid Nat FreeEnt, T.sq = zl fs ++ (lsq L ++ x.sq ++ rsq R) ++ zr fs →
          Strict FreeEnt.tsn T.sq ∧ ents (zl (f :: fs)) ++ [] ++ ents (zr (f :: fs)) = ents T.sq := by
        intro T hT
        constructor
        · refine List.Pairwise.sublist ?_ hst
          rw [hT]
          simp only [zl, zr, List.map_nil, List.append_nil]
          have h1 : (zl fs ++ (lsq L ++ x.sq ++ rsq R) ++ zr fs).Sublist (zl fs ++ (lsq f.L ++ rsq f.R) ++ zr fs) :=
            List.Sublist.append_right (List.Sublist.append_left hsub _) _
          simpa only [List.append_assoc] using h1
        · rw [hT, ents_append, ents_append, hents]
          simp [zl, zr]
      by_cases hone : keysOf L R = []
      · have hLR : L = [] ∧ R = [] := by simpa [keysOf] using hone
        obtain ⟨rfl, rfl⟩ := hLR
        refine (modDirty_spec h2 d2 (freeUnlink_some hget (by rw [hkeys]; rfl) (x := x.id) (by rw [hkids]; rfl))).andThen ?_
        rintro _ w3 ⟨rfl, h3, k3, d3⟩
        show Run (do
          let r ← upWith freeRepl (stackOf fs) f.id x.id
          Pure.pure (r, [d, pd])) w3 _
        have h3 : Own w3 A X (x.pg + fpg (frLayout kw ps hps).ops fs f.id + ({(d, frNode [])} +
            {(pd, .freeInternal [] [x.id])} + Q)) := h3.congr (by
          rw [hpg, lpg_nil, rpg_nil]
          show x.pg + fpg freeOps fs f.id + _ = _
          abel)
        refine (upWith_spec (freeRepl_ok (kw := kw) (ps := ps) (hps := hps)) [d, pd] fs w3 _ f.id x hfs' hx h3 (hlo w3 k3)
          (fun _ => ?_)).andThen ?_
        · by_cases he : pd = f.id
          · right; simp [he]
          · left; exact k3.freed _ (k2.freed _ (hfd he))
        rintro res w4 ⟨T, hT, rfl, hTsq, h4, k4, -, hgone⟩
        obtain ⟨hs, hp⟩ := hrest T (by rw [hTsq]; simp)
        refine .pure ⟨T.pg, {(d, frNode [])} + {(pd, .freeInternal [] [x.id])}, .inl ⟨T, hT, rfl, rfl, hp, hs⟩, rfl, ?_,
          h4.congr (by abel), ?_, hgone⟩
        · rw [ids_add, ids_singleton, ids_singleton]; rfl
        · refine (((k1.trans k2).trans k3).sub hside).trans (k4.sub ?_)
          rw [frPg_nil, zero_add, side_cons, hpg, lpg_nil, rpg_nil, zero_add, add_zero]
          exact add_le_add_right (Multiset.le_add_left _ _) _
      · have hfit : (frLayout kw ps hps).fit (keysOf L R) := by
          have hf1 := hf.fit
          show 1 ≤ _ ∧ 21 + 16 * _ ≤ ps
          obtain ⟨_, hf2⟩ := hf1
          refine ⟨List.length_pos_iff.mpr hone, ?_⟩
          have : (keysOf L R).length ≤ (keysOf f.L f.R).length := by
            rw [← hkeys]; exact (List.eraseIdx_sublist _ _).length_le
          omega
        refine (modDirty_spec h2 d2 (freeUnlink_none hget hkeys hkids hone)).andThen ?_
        rintro _ w3 ⟨rfl, h3, k3, d3⟩
        have hTd : Tr (frLayout kw ps hps) (nodeKid freeOps pd L x R) := .nodeAny hL hx hR hfit
        show Run (do
          let r ← upWith freeRepl (stackOf fs) f.id (nodeKid freeOps pd L x R).id
          Pure.pure (r, [d])) w3 _
        have h3 : Own w3 A X ((nodeKid freeOps pd L x R).pg + fpg (frLayout kw ps hps).ops fs f.id +
            ({(d, frNode [])} + Q)) := h3.congr (by
          rw [hpg]
          show ({(pd, .freeInternal (keysOf L R) (kidsOf L x.id R))} : Multiset (Nat × Node)) +
            (lpg L + x.pg + rpg R) + fpg freeOps fs f.id + _ = _
          simp only [add_assoc])
        refine (upWith_spec (freeRepl_ok (kw := kw) (ps := ps) (hps := hps)) [] fs w3 _ f.id _ hfs' hTd h3 (hlo w3 k3)
          (fun he => .inl (k3.freed _ (k2.freed _ (hfd he))))).andThen ?_
        rintro res w4 ⟨T, hT, rfl, hTsq, h4, k4, -, hgone⟩
        obtain ⟨hs, hp⟩ := hrest T hTsq
        refine .pure ⟨T.pg, {(d, frNode [])}, .inl ⟨T, hT, rfl, rfl, hp, hs⟩, rfl, by rw [ids_singleton]; rfl,
          h4.congr (by abel), ?_, fun h => .inl ?_⟩
        · refine (((k1.trans k2).trans k3).sub hside).trans (k4.sub ?_)
          rw [frPg_nil, zero_add, side_cons, hpg]
          refine add_le_add (add_le_add_left ?_ _) (Multiset.le_add_left _ _)
          exact Multiset.le_add_left _ _
        · rcases hgone h with h | h
          · exact h
          · cases h
  · have hne : es.isEmpty = false := by simpa using hem
    rw [hne]
    have ht1 : Tr (frLayout kw ps hps) (frKid d es) := .leaf _ ⟨es, hem, rfl, hes, hsz⟩
    have hw : Own w A X ((frKid d es).pg + fpg (frLayout kw ps hps).ops fs c + Q) := hw.congr (by
      show {(d, frNode es)} + frPg es + fpg freeOps fs c + Q = _
      abel)
    have hgo : Run (do
        let r ← upWith freeRepl (stackOf fs) c (frKid d es).id
        Pure.pure (r, [])) w fun res w' => ∃ P Z, FreeUp kw ps hps A X Q w c fs es res w' P Z := by
      refine (upWith_spec (freeRepl_ok (kw := kw) (ps := ps) (hps := hps)) [] fs w _ c _ hfs ht1 hw hload
        (fun h => .inl (hcd h))).andThen ?_
      rintro res w4 ⟨T, hT, rfl, hTsq, h4, k4, -, hgone⟩
      have hTs : T.sq = zl fs ++ es.map .ent ++ zr fs := hTsq
      refine .pure ⟨T.pg, 0, .inl ⟨T, hT, rfl, rfl, ?_, ?_⟩, rfl, rfl, h4.congr (by abel), k4.sub ?_, hgone⟩
      · rw [hTs]; simp only [ents_append, ents_map]
      · rw [hTs]; exact hst
      · exact add_le_add_left (add_le_add_left (Multiset.le_add_left _ _) _) _
    cases fs with
    | nil => exact hgo
    | cons f fs => exact hgo

/-- A page that is used again is taken out of the list of an old transaction. -/
theorem freeRemove_spec {kw ps : Nat} {hps : 1024 ≤ ps} {Old : Nat → Prop} {P : Multiset (Nat × Node)}
    {F : Multiset (Nat × Nat)} (h : FreeRep kw ps hps Old w P F) {p t : Nat} (hin : (p, t) ∈ F) (hold : Old t)
    (ht : t ≠ w.tsn) (hw : Own w A X (P + Q)) :
    Run (freeRemove t p) w fun _ w' => ∃ P', FreeRep kw ps hps Old w' P' (F.erase (p, t)) ∧ Own w' A X (P' + Q) ∧
      Keep0 Q w { w' with freeRoot := w.freeRoot } := by
  obtain ⟨es0, hT, hgood, rfl⟩ := h
  obtain ⟨o, ho, hot, hpo⟩ := mem_freeSet.mp hin
  simp only at hot hpo
  rcases hT with ⟨K, hK, hroot, rfl, rfl, hst⟩ | ⟨rfl, -⟩
  swap
  · cases ho
  unfold freeRemove
  refine .get ?_
  have hcard : K.pg.card ≤ w.nextPage := by
    have := hw.card_lt; simp only [Multiset.card_add] at this; omega
  rw [hroot]
  refine (descend_spec (Y := frLayout kw ps hps) (pick := fun keys _ => lin keys t)
    (fun keys kids _ => lin_le keys t) hK w.nextPage [] w Q hcard hw).andThen ?_
  rintro _ w1 ⟨fs, k, hF, rfl, h1, k1, hl1, hfl⟩
  simp only [List.append_nil]
  have hF := hF.of_lin (f := FreeEnt.tsn) hst.weak
  obtain ⟨es, hne, hk, hok, hsz⟩ := hF.leaf
  have hkpg : k.pg = {(k.id, frNode es)} + frPg es := by rw [hk]; rfl
  have hksq : k.sq = es.map .ent := by rw [hk]; rfl
  have hKpg : K.pg = k.pg + fpg freeOps fs k.id := by rw [← hF.eq]; exact plug_pg _ _ _
  have hKid : K.id = rootOf fs k.id := by rw [← hF.eq]; exact plug_id _ _ _
  have hKsq : K.sq = zl fs ++ es.map .ent ++ zr fs := by rw [← hF.eq, plug_sq, hksq]
  obtain ⟨hzl, hzr⟩ := zl_zr_strict (f := FreeEnt.tsn) (O := freeOps) (x := t) fs k (by
    show Strict _ (plug (frLayout kw ps hps).ops fs k).sq
    rw [hF.eq]; exact hst) hF.picked
  have hoe : o ∈ es := by
    rw [hKsq, ents_append, ents_append, ents_map, List.mem_append, List.mem_append] at ho
    rcases ho with (h | h) | h
    · rcases hzl (.ent o) (mem_ents.mp h) with h' | h'
      · exact absurd hot (Nat.ne_of_lt h')
      · cases h'
    · exact h
    · exact absurd hot (Nat.ne_of_gt (hzr (.ent o) (mem_ents.mp h)))
  obtain ⟨a, b, rfl⟩ := List.append_of_mem hoe
  have hents : ents K.sq = ents (zl fs) ++ (a ++ o :: b) ++ ents (zr fs) := by
    rw [hKsq]; simp only [ents_append, ents_map]
  have hst2 : Strict FreeEnt.tsn ((a ++ o :: b).map (Item.ent (κ := Nat))) := List.Pairwise.sublist
    (by rw [hKsq]; exact (List.sublist_append_right _ _).trans (List.sublist_append_left _ _)) hst
  have ha : ∀ x ∈ a, x.tsn ≠ o.tsn := by
    intro x hx
    have := strict_keys hst2
    rw [List.map_append, List.pairwise_append] at this
    exact Nat.ne_of_lt (this.2.2 x.tsn (List.mem_map_of_mem hx) o.tsn (by simp))
  have h1 : Own w1 A X ({(k.id, frNode (a ++ o :: b))} + (frPg (a ++ o :: b) + (fpg freeOps fs k.id + Q))) :=
    h1.congr (by rw [hKpg, hkpg]; abel)
  have k1 : Keep ({(k.id, frNode (a ++ o :: b))} + (frPg (a ++ o :: b) + (fpg freeOps fs k.id + Q))) w w1 :=
    k1.sub (le_of_eq (by rw [hKpg, hkpg]; abel))
  refine (getPage_spec (n := frNode (a ++ o :: b)) h1 (by simp)).andThen ?_
  rintro _ w2 ⟨rfl, h2, k12, hl2⟩
  have k2 := k1.trans k12
  subst hot
  refine Run.andThen (Q := fun v w' => v = (a.length, o.root) ∧ w' = w2) (ofExcept_ok (freeIdx_ok ha) ⟨rfl, rfl⟩) ?_
  intro v w2' hv
  rw [hv.1, hv.2]
  have hlo : ∀ q ∈ ids o.pg, Loaded w2 q := fun q hq => k2.loaded q (by
    simp only [ids_add, Multiset.mem_add, frPg_append, frPg_cons]; exact .inr (.inl (.inr (.inl hq))))
    ((hgood o ho).old hold q hq)
  refine (freeTake_spec (hok o (by simp)) hsz hpo hlo hl2 h2).andThen ?_
  rintro ⟨em, d, rem⟩ w3 ⟨m, Z, g⟩
  simp only at g
  have hmt : ∀ x ∈ m, x.tsn = o.tsn := by
    intro x hx
    rcases g.entry with ⟨rfl, _⟩ | ⟨o', rfl, h, _⟩
    · cases hx
    · cases List.mem_singleton.mp hx; exact h
  have hokm : ∀ e ∈ a ++ m ++ b, FreeOk kw ps hps e := by
    intro e he
    rcases List.mem_append.mp he with he | he
    · rcases List.mem_append.mp he with he | he
      · exact hok e (by simp [he])
      · rcases g.entry with ⟨rfl, _⟩ | ⟨o', rfl, _, _, h, _⟩
        · cases he
        · cases List.mem_singleton.mp he; exact h
    · exact hok e (by simp [he])
  have hstm : Strict FreeEnt.tsn (zl fs ++ (a ++ m ++ b).map .ent ++ zr fs) := by
    rw [hKsq] at hst
    rcases g.entry with ⟨rfl, _⟩ | ⟨o', rfl, h, _⟩
    · refine List.Pairwise.sublist ?_ hst
      refine List.Sublist.append_right (List.Sublist.append_left (List.Sublist.map _ ?_) _) _
      rw [List.append_nil]
      exact List.Sublist.append_left (List.sublist_cons_self _ _) _
    · rw [List.append_assoc a, List.singleton_append]
      refine Strict.put (m := [o]) (by simpa using hst) ?_ ?_ ?_ ?_
      · rw [h]; exact hzl
      · rw [h]; exact hzr
      · rw [h]; intro x hx
        have := strict_keys hst2
        rw [List.map_append, List.pairwise_append] at this
        exact this.2.2 x.tsn (List.mem_map_of_mem hx) o.tsn (by simp)
      · rw [h]; intro x hx
        have := strict_keys hst2
        rw [List.map_append, List.pairwise_append, List.map_cons, List.pairwise_cons] at this
        exact this.2.1.1 x.tsn (List.mem_map_of_mem hx)
  have hfl3 : ∀ f ∈ fs, Loaded w3 f.id := by
    intro f hf
    have hm := mem_fpg (O := freeOps) fs k.id hf
    refine g.keep.loaded _ ?_ (k12.loaded _ ?_ (hfl f hf))
    · simp only [ids_add, Multiset.mem_add]; tauto
    · simp only [ids_add, Multiset.mem_add]; tauto
  have h3 : Own w3 A X ({(d, frNode (a ++ m ++ b))} + (frPg (a ++ m ++ b) + (fpg freeOps fs k.id + (Z + Q)))) :=
    g.own.congr (by abel)
  show Run (do
    let up ← freeUp em k.id d (stackOf fs)
    appendFreeds (rem ++ up.2)
    freeRoot up.1.1 up.1.2) w3 _
  rw [g.empty]
  refine (freeUp_spec hokm g.size hF.frames hstm hfl3 h3 g.freed).andThen ?_
  rintro ⟨⟨old, new⟩, rem2⟩ w4 ⟨P', Z2, u⟩
  have h4 : Own w4 A X (Z + Z2 + (P' + Q)) := u.own.congr (by abel)
  refine (appendFreeds_spec (rem ++ rem2) w4 (Z + Z2) (P' + Q) (by
    rw [ids_add, g.rem, show ids Z2 = ↑rem2 from u.rem]; rfl) h4).andThen ?_
  rintro _ w5 ⟨h5, k5, hrem⟩
  -- the entries
  have hset : freeSet (ents (zl fs) ++ (a ++ m ++ b) ++ ents (zr fs)) = (freeSet (ents K.sq)).erase (p, o.tsn) := by
    have h6 : freeSet [o] = (p, o.tsn) ::ₘ freeSet m := by
      rw [freeSet_one]
      rcases g.entry with ⟨rfl, hp⟩ | ⟨o', rfl, h, hp, _⟩
      · rw [Multiset.coe_eq_coe.mpr (hp.map _)]; rfl
      · rw [Multiset.coe_eq_coe.mpr (hp.map _), freeSet_one, h]; rfl
    have h7 : freeSet (ents K.sq) = (p, o.tsn) ::ₘ freeSet (ents (zl fs) ++ (a ++ m ++ b) ++ ents (zr fs)) := by
      rw [hents, show a ++ o :: b = a ++ ([o] ++ b) by simp]
      simp only [freeSet_append]
      rw [h6, ← Multiset.singleton_add, ← Multiset.singleton_add]
      abel
    rw [h7, Multiset.erase_cons_head]
  have hgood4 : ∀ e ∈ ents (zl fs) ++ (a ++ m ++ b) ++ ents (zr fs), FrGood Old w4 e := by
    intro e he
    have hcase : (e ∈ ents (zl fs) ∨ e ∈ ents (zr fs)) ∨ (e ∈ a ∨ e ∈ b) ∨ e ∈ m := by
      simp only [List.mem_append] at he; tauto
    rcases hcase with he | he | he
    · have hs := ent_side (pg := FreeEnt.pg) frLeaf_ent hF.frames e he
      have hg := hgood e (by rw [hents]; simp only [List.mem_append]; tauto)
      have hs2 := hs.trans (side_le freeOps fs k.id)
      refine ((hg.keep0 k2.toKeep0 ?_).keep0 g.keep.toKeep0 ?_).keep0 u.keep.toKeep0 ?_
      · exact hs2.trans (le_of_eq_add ({(k.id, frNode (a ++ o :: b))} + frPg (a ++ o :: b) + Q) (by abel))
      · exact hs2.trans (le_of_eq_add (frPg a + frPg b + Q) (by abel))
      · exact hs.trans (le_of_eq_add (frPg (a ++ m ++ b) + (Z + Q)) (by abel))
    · have hg := hgood e (by rw [hents]; simp only [List.mem_append, List.mem_cons]; tauto)
      have hs : e.pg ≤ frPg a + frPg b := by
        rcases he with he | he
        · exact (mem_frPg he).trans (Multiset.le_add_right _ _)
        · exact (mem_frPg he).trans (Multiset.le_add_left _ _)
      refine ((hg.keep0 k2.toKeep0 ?_).keep0 g.keep.toKeep0 ?_).keep0 u.keep.toKeep0 ?_
      · refine hs.trans (le_of_eq_add ({(k.id, frNode (a ++ o :: b))} + o.pg + (fpg freeOps fs k.id + Q)) ?_)
        rw [frPg_append, frPg_cons]; abel
      · exact hs.trans (Multiset.le_add_right _ _)
      · refine hs.trans (le_of_eq_add (frPg m + side fs + (Z + Q)) ?_)
        rw [frPg_append, frPg_append]; abel
    · refine FrGood.keep0 (w := w3) ⟨fun h6 => ?_, fun _ q hq => ?_⟩ u.keep.toKeep0 ?_
      · exact absurd ((hmt e he).symm.trans (h6.trans (g.keep.step.tsn.trans k2.step.tsn))) ht
      · rcases g.entry with ⟨rfl, _⟩ | ⟨o', rfl, _, _, _, h⟩
        · cases he
        · cases List.mem_singleton.mp he; exact h q hq
      · refine (mem_frPg he).trans (le_of_eq_add (frPg a + frPg b + side fs + (Z + Q)) ?_)
        rw [frPg_append, frPg_append]; abel
  have hgood5 : ∀ e ∈ ents (zl fs) ++ (a ++ m ++ b) ++ ents (zr fs), FrGood Old w5 e := fun e he =>
    (hgood4 e he).keep0 k5 ((u.tree.ent_le e he).trans (Multiset.le_add_right _ _))
  have k6 : Keep0 Q w w5 := by
    refine ((k2.sub ?_).trans (g.keep.sub ?_)).toKeep0.trans ((u.keep.sub ?_).toKeep0.trans (k5.sub (Multiset.le_add_left _ _)))
    · exact le_of_eq_add ({(k.id, frNode (a ++ o :: b))} + frPg (a ++ o :: b) + fpg freeOps fs k.id) (by abel)
    · exact le_of_eq_add (frPg a + frPg b + fpg freeOps fs k.id) (by abel)
    · exact le_of_eq_add (frPg (a ++ m ++ b) + side fs + Z) (by abel)
  have hold2 : old = rootOf fs k.id := u.old
  subst hold2
  unfold freeRoot
  refine .get ?_
  by_cases hsame : rootOf fs k.id = new
  · simp only [if_pos hsame]
    refine .pure ⟨P', ⟨_, ?_, hgood5, hset.symm⟩, h5, ?_⟩
    · have : w5.freeRoot = new := by rw [k6.step.freeRoot, hroot, hKid, hsame]
      rw [this]; exact u.tree
    · exact ⟨⟨k6.step.1, k6.step.2, k6.step.3, k6.step.4, hroot.symm, k6.step.6, k6.step.7, k6.step.8, k6.step.9, k6.step.10,
        k6.step.11⟩, k6.loaded, k6.dirty, k6.freed⟩
  · simp only [if_neg hsame]
    have hr5 : w5.freeRoot = rootOf fs k.id := by rw [k6.step.freeRoot, hroot, hKid]
    rw [if_pos hr5]
    have hfr : rootOf fs k.id ∈ w5.freed := by
      rcases u.gone (fun h => hsame h.symm) with h | h
      · exact k5.freed _ h
      · exact hrem _ (by simp [show rootOf fs k.id ∈ rem2 from h])
    refine Run.andThen (Q := fun _ w' => w' = w5) ⟨(), w5, ?_, rfl⟩ ?_
    · unfold appendFreed; rw [if_pos (by simpa using hfr)]
    intro _ w5' hw5
    rw [hw5]
    refine .modW ⟨P', ⟨_, u.tree, fun e he => ⟨(hgood5 e he).cur, (hgood5 e he).old⟩, hset.symm⟩,
      ⟨h5.1, h5.2, h5.3, h5.4, h5.5, h5.6, h5.7, h5.8, h5.9, h5.10⟩, ?_⟩
    exact ⟨⟨k6.step.1, k6.step.2, k6.step.3, k6.step.4, hroot.symm, k6.step.6, k6.step.7, k6.step.8, k6.step.9, k6.step.10,
      k6.step.11⟩, k6.loaded, k6.dirty, k6.freed⟩

section Examples

/-- Page 2 is internal; leaves 6 (transactions 3 and 4) and 7 (transaction 5, with its pages in the subtree of page 8). -/
def freeDeep : Writer :=
  { freeSample with
    tsn := 9
    base := fun p => [(2, Node.freeInternal [5] [6, 7]), (6, .freeLeaf [3, 4] [⟨[10, 11], 0⟩, ⟨[12], 0⟩]), (7, .freeLeaf [5] [⟨[], 8⟩]),
      (8, .tsnLeaf [13])].lookup p
    deser := fun p => if p = 8 then some (.tsnLeaf [13]) else none }

-- One of several pages: the path is copied.
example : ((freeRemove 3 10) freeDeep).1 = .ok () ∧ ((freeRemove 3 10) freeDeep).2.dirty =
    [(21, .freeInternal [5] [20, 7]), (20, .freeLeaf [3, 4] [⟨[11], 0⟩, ⟨[12], 0⟩])] ∧
    ((freeRemove 3 10) freeDeep).2.freeRoot = 21 ∧ ((freeRemove 3 10) freeDeep).2.freed = [2, 6] := by decide +kernel
-- The last page of a transaction.
example : ((freeRemove 4 12) freeDeep).2.dirty =
    [(21, .freeInternal [5] [20, 7]), (20, .freeLeaf [3] [⟨[10, 11], 0⟩])] := by decide +kernel
-- The last page of a leaf: the other leaf becomes the root, and all copies are freed again.
example : ((freeRemove 5 13) freeDeep).1 = .ok () ∧ ((freeRemove 5 13) freeDeep).2.freeRoot = 6 ∧
    ((freeRemove 5 13) freeDeep).2.dirty = [] ∧ ((freeRemove 5 13) freeDeep).2.freed = [22, 21, 20, 2, 7, 8] := by decide +kernel
example : ((freeRemove 5 14) freeDeep).1 = .error (.databaseCorrupted "page id not found in TSN-subtree") := by decide +kernel
example : ((freeRemove 6 13) freeDeep).1 = .error (.databaseCorrupted "Expected TSN not found in leaf") := by decide +kernel
-- The last page of the only leaf: the leaf stays.
example : ((do freeRemove 3 7; freeRemove 3 8 : W Unit) freeSample).2.dirty = [(20, .freeLeaf [] [])] := by decide +kernel

end Examples

end Uma.Page
