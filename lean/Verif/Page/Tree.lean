import Verif.Page.Store

/-!
# Page trees: descending to a leaf and propagating changes upwards

The events, tags, per-tag, tracking and free-list trees share the same code shape: descend from the root to a leaf while
pushing the visited internal pages on a stack, change the leaf, then pop the stack, copying each parent, replacing the
child id, inserting the promoted key and splitting the parent if it became too large.  The five copies of that code
(events_tree.rs 196-230 and 327-487; tags_tree.rs 32-62 and 447-592; tags_tree.rs 155-325; db.rs 288-315 and 399-479;
mvcc.rs 1384-1440 and 1640-1790) differ in the parameters collected in `Ops`.
-/

namespace Uma.Page
open Uma.Codec

variable {κ E : Type}

/-- What distinguishes the copies of the tree code. -/
structure Ops (κ : Type) where
  /-- The internal node with the given keys and child ids, and the reverse. -/
  inner : List κ → List Nat → Node
  un : Node → Option (List κ × List Nat)
  isLeaf : Node → Bool
  /-- Changes happen at the last child only (`replace_last_child_id`, `append_promoted_key_and_page_id`). -/
  rightmost : Bool
  /-- The size of a parent is also checked when nothing was inserted into it. -/
  always : Bool
  /-- Fewest keys with which an internal node is split. -/
  minKeys : Nat
  /-- Index of the key that moves up when an internal node with that many keys is split. -/
  splitPos : Nat → Nat

/-- Follow child number `pick keys kids` down to a leaf.  Returns the leaf's id and the stack of (parent, child index),
deepest parent first.  `fuel` bounds the depth. -/
def descend (O : Ops κ) (pick : List κ → List Nat → Nat) : Nat → Nat → List (Nat × Nat) → W (Nat × List (Nat × Nat))
  | 0, _, _ => fail (.internal "out of fuel")
  | fuel + 1, id, st => do
    let n ← getPage id
    if O.isLeaf n then pure (id, st)
    else match O.un n with
      | none => fail (.databaseCorrupted "Invalid node type in tree")
      | some (keys, kids) =>
        match kids[pick keys kids]? with
        | none => fail (.databaseCorrupted "Child index out of bounds")
        | some c => descend O pick fuel c ((id, pick keys kids) :: st)

/-- Replacing a child id after its page was copied: `replace_last_child_id` (events_tree_nodes.rs 752-760,
free_lists_tree_nodes.rs 248-257) or at a recorded index (tags_tree.rs 463-479, tracking_tree_nodes.rs
`replace_child_id_at`). -/
def replaceKid (O : Ops κ) (idx : Nat) (r : Option (Nat × Nat)) (kids : List Nat) : Except Err (List Nat) :=
  match r with
  | none => .ok kids
  | some (old, new) =>
    let i := if O.rightmost then kids.length - 1 else idx
    match kids[i]? with
    | none => .error (.panic "index out of bounds")
    | some c => if c = old then .ok (kids.set i new) else .error (.databaseCorrupted "Child ID mismatch")

/-- Inserting a promoted key and child: `append_promoted_key_and_page_id` (events_tree_nodes.rs 762-769) or at a recorded
index (tags_tree.rs 491-497). -/
def insertKid (O : Ops κ) (idx : Nat) (s : Option (κ × Nat)) (keys : List κ) (kids : List Nat) :
    Except Err (List κ × List Nat) :=
  match s with
  | none => .ok (keys, kids)
  | some (k, c) =>
    if O.rightmost then .ok (keys ++ [k], kids ++ [c])
    else if idx ≤ keys.length ∧ idx + 1 ≤ kids.length then .ok (keys.insertIdx idx k, kids.insertIdx (idx + 1) c)
    else .error (.panic "insertion index out of bounds")

/-- `split_off` of an internal node (events_tree_nodes.rs 771-778, tags_tree_nodes.rs 220-242): the promoted key, the
keys and children of the new right node, and the node left. -/
def splitNode (O : Ops κ) (keys : List κ) (kids : List Nat) :
    Except Err (Option (κ × List κ × List Nat) × Node) :=
  if keys.length < O.minKeys ∨ kids.length < O.minKeys + 1 then
    .error (.databaseCorrupted "Cannot split internal node with too few keys/children")
  else
    let m := O.splitPos keys.length
    match keys[m]? with
    | none => .error (.panic "index out of bounds")
    | some k => .ok (some (k, keys.drop (m + 1), kids.drop (m + 1)), O.inner (keys.take m) (kids.take (m + 1)))

/-- What happens to one parent on the way up, events_tree.rs 343-456. -/
def upNode (O : Ops κ) (kw ps idx : Nat) (r : Option (Nat × Nat)) (s : Option (κ × Nat)) (n : Node) :
    Except Err (Option (κ × List κ × List Nat) × Node) :=
  match O.un n with
  | none => .error (.databaseCorrupted "Expected internal node")
  | some (keys, kids) =>
    match replaceKid O idx r kids with
    | .error e => .error e
    | .ok kids =>
      match insertKid O idx s keys kids with
      | .error e => .error e
      | .ok (keys, kids) =>
        if (O.always || s.isSome) && decide (pageSizeOf kw (O.inner keys kids) > ps) then splitNode O keys kids
        else .ok (none, O.inner keys kids)

/-- `(dirty_page_id != page_id).then_some((page_id, dirty_page_id))`. -/
def replInfo (old new : Nat) : Option (Nat × Nat) := if new ≠ old then some (old, new) else none

/-- The loop over the stack, events_tree.rs 329-458. -/
def walkUp (O : Ops κ) : List (Nat × Nat) → Option (Nat × Nat) → Option (κ × Nat) →
    W (Option (Nat × Nat) × Option (κ × Nat))
  | [], r, s => pure (r, s)
  | (pid, idx) :: st, r, s => do
    let d ← getDirty pid
    let w ← getW
    let off ← modDirty d (upNode O w.kw w.pageSize idx r s)
    match off with
    | none => walkUp O st (replInfo pid d) none
    | some (k, keys, kids) => do
      let c ← newPage (O.inner keys kids)
      walkUp O st (replInfo pid d) (some (k, c))

/-- Root replacement and new root, events_tree.rs 460-484.  Returns the root id. -/
def fixRoot (O : Ops κ) (root : Nat) (r : Option (Nat × Nat)) (s : Option (κ × Nat)) : W Nat := do
  let root ← (match r with
    | none => pure root
    | some (old, new) => if root = old then pure new else fail (.rootIdMismatch old new))
  match s with
  | none => pure root
  | some (k, c) => newPage (O.inner [k] [root, c])

/-! ## The shape of a tree -/

/-- In-order content: entries and the separator keys between them. -/
inductive Item (κ E : Type) where
  | ent (e : E)
  | sep (k : κ)

def entOf : Item κ E → Option E
  | .ent e => some e
  | .sep _ => none

def ents (l : List (Item κ E)) : List E := l.filterMap entOf

@[simp] theorem ents_append (a b : List (Item κ E)) : ents (a ++ b) = ents a ++ ents b := List.filterMap_append
@[simp] theorem ents_nil : ents ([] : List (Item κ E)) = [] := rfl
@[simp] theorem ents_ent (e : E) (l : List (Item κ E)) : ents (.ent e :: l) = e :: ents l := rfl
@[simp] theorem ents_sep (k : κ) (l : List (Item κ E)) : ents (.sep k :: l) = ents l := rfl
@[simp] theorem ents_map (l : List E) : ents (l.map (Item.ent (κ := κ))) = l := by
  induction l with
  | nil => rfl
  | cons a l ih => simp [ih]

/-- Summary of a (sub)tree: root page, all pages, content, and how far below the root each leaf page is. -/
structure Kid (κ E : Type) where
  id : Nat
  pg : Multiset (Nat × Node)
  sq : List (Item κ E)
  dep : Multiset Nat := {0}

theorem Kid.ext' {a b : Kid κ E} (h1 : a.id = b.id) (h2 : a.pg = b.pg) (h3 : a.sq = b.sq) (h4 : a.dep = b.dep) :
    a = b := by
  cases a; cases b; cases h1; cases h2; cases h3; cases h4; rfl

abbrev Lefts (κ E : Type) := List (Kid κ E × κ)
abbrev Rights (κ E : Type) := List (κ × Kid κ E)

def lpg (L : Lefts κ E) : Multiset (Nat × Node) := (L.map fun x => x.1.pg).sum
def rpg (R : Rights κ E) : Multiset (Nat × Node) := (R.map fun x => x.2.pg).sum
def ldep (L : Lefts κ E) : Multiset Nat := (L.map fun x => x.1.dep).sum
def rdep (R : Rights κ E) : Multiset Nat := (R.map fun x => x.2.dep).sum
/-- The same leaves seen from `n` pages further up. -/
def deeper (n : Nat) (m : Multiset Nat) : Multiset Nat := m.map (· + n)
def lsq (L : Lefts κ E) : List (Item κ E) := L.flatMap fun x => x.1.sq ++ [.sep x.2]
def rsq (R : Rights κ E) : List (Item κ E) := R.flatMap fun x => .sep x.1 :: x.2.sq
def keysOf (L : Lefts κ E) (R : Rights κ E) : List κ := L.map (·.2) ++ R.map (·.1)
def kidsOf (L : Lefts κ E) (c : Nat) (R : Rights κ E) : List Nat := L.map (·.1.id) ++ c :: R.map (·.2.id)

@[simp] theorem lpg_nil : lpg ([] : Lefts κ E) = 0 := rfl
@[simp] theorem rpg_nil : rpg ([] : Rights κ E) = 0 := rfl
@[simp] theorem ldep_nil : ldep ([] : Lefts κ E) = 0 := rfl
@[simp] theorem rdep_nil : rdep ([] : Rights κ E) = 0 := rfl
@[simp] theorem ldep_append (a b : Lefts κ E) : ldep (a ++ b) = ldep a + ldep b := by simp [ldep]
@[simp] theorem ldep_cons (x : Kid κ E × κ) (a : Lefts κ E) : ldep (x :: a) = x.1.dep + ldep a := by simp [ldep]
@[simp] theorem rdep_append (a b : Rights κ E) : rdep (a ++ b) = rdep a + rdep b := by simp [rdep]
@[simp] theorem rdep_cons (x : κ × Kid κ E) (a : Rights κ E) : rdep (x :: a) = x.2.dep + rdep a := by simp [rdep]
@[simp] theorem deeper_zero (m : Multiset Nat) : deeper 0 m = m := by simp [deeper]
theorem deeper_add (n : Nat) (a b : Multiset Nat) : deeper n (a + b) = deeper n a + deeper n b := by simp [deeper]
theorem deeper_deeper (n k : Nat) (a : Multiset Nat) : deeper n (deeper k a) = deeper (n + k) a := by
  simp only [deeper, Multiset.map_map, Function.comp_def]
  exact Multiset.map_congr rfl fun x _ => by omega
theorem mem_deeper {n x : Nat} {m : Multiset Nat} : x ∈ deeper n m ↔ ∃ y ∈ m, y + n = x := by simp [deeper]
@[simp] theorem lsq_nil : lsq ([] : Lefts κ E) = [] := rfl
@[simp] theorem rsq_nil : rsq ([] : Rights κ E) = [] := rfl
@[simp] theorem lpg_append (a b : Lefts κ E) : lpg (a ++ b) = lpg a + lpg b := by simp [lpg]
@[simp] theorem lpg_cons (x : Kid κ E × κ) (a : Lefts κ E) : lpg (x :: a) = x.1.pg + lpg a := by simp [lpg]
@[simp] theorem rpg_append (a b : Rights κ E) : rpg (a ++ b) = rpg a + rpg b := by simp [rpg]
@[simp] theorem rpg_cons (x : κ × Kid κ E) (a : Rights κ E) : rpg (x :: a) = x.2.pg + rpg a := by simp [rpg]
@[simp] theorem lsq_append (a b : Lefts κ E) : lsq (a ++ b) = lsq a ++ lsq b := by simp [lsq]
@[simp] theorem lsq_cons (x : Kid κ E × κ) (a : Lefts κ E) : lsq (x :: a) = x.1.sq ++ .sep x.2 :: lsq a := by simp [lsq]
@[simp] theorem rsq_append (a b : Rights κ E) : rsq (a ++ b) = rsq a ++ rsq b := by simp [rsq]
@[simp] theorem rsq_cons (x : κ × Kid κ E) (a : Rights κ E) : rsq (x :: a) = .sep x.1 :: (x.2.sq ++ rsq a) := by
  simp [rsq]

theorem kidsOf_length (L : Lefts κ E) (c : Nat) (R : Rights κ E) :
    (kidsOf L c R).length = (keysOf L R).length + 1 := by simp [kidsOf, keysOf]; omega

/-- The tree with an internal root page. -/
def nodeKid (O : Ops κ) (id : Nat) (L : Lefts κ E) (m : Kid κ E) (R : Rights κ E) : Kid κ E where
  id := id
  pg := {(id, O.inner (keysOf L R) (kidsOf L m.id R))} + (lpg L + m.pg + rpg R)
  sq := lsq L ++ m.sq ++ rsq R
  dep := deeper 1 (ldep L + m.dep + rdep R)

/-- What is required of the pages of a particular tree. -/
structure Layout (κ E : Type) where
  ops : Ops κ
  kw : Nat
  ps : Nat
  /-- A leaf page with everything hanging off it. -/
  Leaf : Kid κ E → Prop
  kfit : κ → Prop
  fit : List κ → Prop
  un_inner : ∀ keys kids, ops.un (ops.inner keys kids) = some (keys, kids)
  inner_leaf : ∀ keys kids, ops.isLeaf (ops.inner keys kids) = false
  leaf_page : ∀ k, Leaf k → ∃ n Q, k.pg = {(k.id, n)} + Q ∧ ops.isLeaf n = true
  fit_kfit : ∀ keys, fit keys → ∀ k ∈ keys, kfit k
  fit_one : ∀ k, kfit k → fit [k]
  fit_over : ops.always = true → ∀ keys kids, kids.length = keys.length + 1 → fit keys →
    pageSizeOf kw (ops.inner keys kids) ≤ ps
  fit_ins : ∀ a b k (kids : List Nat), kids.length = (a ++ k :: b).length + 1 → fit (a ++ b) → kfit k →
    pageSizeOf kw (ops.inner (a ++ k :: b) kids) ≤ ps → fit (a ++ k :: b)
  fit_split : ∀ a b k (kids : List Nat), kids.length = (a ++ k :: b).length + 1 → fit (a ++ b) → kfit k →
    ps < pageSizeOf kw (ops.inner (a ++ k :: b) kids) →
    ops.minKeys ≤ (a ++ k :: b).length ∧ ops.splitPos (a ++ k :: b).length < (a ++ k :: b).length ∧
    fit ((a ++ k :: b).take (ops.splitPos (a ++ k :: b).length)) ∧
    fit ((a ++ k :: b).drop (ops.splitPos (a ++ k :: b).length + 1))

/-- A well-formed tree. -/
inductive Tr (Y : Layout κ E) : Kid κ E → Prop where
  | leaf (k : Kid κ E) : Y.Leaf k → Tr Y k
  | node (id : Nat) (m : Kid κ E) (R : Rights κ E) : Tr Y m → (∀ x ∈ R, Tr Y x.2) → Y.fit (R.map (·.1)) →
      Tr Y (nodeKid Y.ops id [] m R)

variable {Y : Layout κ E}

theorem nodeKid_shift (O : Ops κ) (id : Nat) (L : Lefts κ E) (m : Kid κ E) (k : κ) (c : Kid κ E) (R : Rights κ E) :
    nodeKid O id L m ((k, c) :: R) = nodeKid O id (L ++ [(m, k)]) c R := by
  refine Kid.ext' rfl ?_ ?_ ?_
  · simp only [nodeKid, keysOf, kidsOf, List.map_append, List.map_cons, List.map_nil, List.append_assoc,
      List.cons_append, List.nil_append, lpg_append, lpg_cons, lpg_nil, rpg_cons]
    abel
  · simp [nodeKid]
  · simp only [nodeKid, ldep_append, ldep_cons, ldep_nil, rdep_cons]
    congr 1
    abel

/-- Shift the focus `i` children to the right. -/
theorem nodeKid_focus (O : Ops κ) (id : Nat) (Q : Kid κ E → Prop) (i : Nat) :
    ∀ (L : Lefts κ E) (m : Kid κ E) (R : Rights κ E), (∀ x ∈ L, Q x.1) → Q m → (∀ x ∈ R, Q x.2) → i ≤ R.length →
    ∃ L' m' R', nodeKid O id L m R = nodeKid O id L' m' R' ∧ L'.length = L.length + i ∧
      keysOf L' R' = keysOf L R ∧ kidsOf L' m'.id R' = kidsOf L m.id R ∧
      (∀ x ∈ L', Q x.1) ∧ Q m' ∧ (∀ x ∈ R', Q x.2) := by
  induction i with
  | zero => intro L m R h1 h2 h3 _; exact ⟨L, m, R, rfl, rfl, rfl, rfl, h1, h2, h3⟩
  | succ i ih =>
    intro L m R h1 h2 h3 hi
    cases R with
    | nil => simp at hi
    | cons x R =>
      obtain ⟨k, c⟩ := x
      obtain ⟨L', m', R', e, hl, hk, hc, a, b, d⟩ := ih (L ++ [(m, k)]) c R
        (by
          intro x hx
          rcases List.mem_append.mp hx with hx | hx
          · exact h1 x hx
          · cases List.mem_singleton.mp hx; exact h2)
        (h3 (k, c) (by simp)) (fun x hx => h3 x (by simp [hx])) (by simp at hi; omega)
      refine ⟨L', m', R', (nodeKid_shift ..).trans e, by rw [hl]; simp; omega, ?_, ?_, a, b, d⟩
      · rw [hk]; simp [keysOf]
      · rw [hc]; simp [kidsOf]

/-- Shift the focus to the first child. -/
theorem nodeKid_first (O : Ops κ) (id : Nat) (Q : Kid κ E → Prop) (L : Lefts κ E) :
    ∀ (m : Kid κ E) (R : Rights κ E), (∀ x ∈ L, Q x.1) → Q m → (∀ x ∈ R, Q x.2) →
    ∃ m' R', nodeKid O id L m R = nodeKid O id [] m' R' ∧ R'.map (·.1) = keysOf L R ∧
      (m'.id :: R'.map (·.2.id)) = kidsOf L m.id R ∧ Q m' ∧ (∀ x ∈ R', Q x.2) := by
  induction L using List.reverseRecOn with
  | nil => intro m R _ h2 h3; exact ⟨m, R, rfl, by simp [keysOf], by simp [kidsOf], h2, h3⟩
  | append_singleton L x ih =>
    intro m R h1 h2 h3
    obtain ⟨c, k⟩ := x
    obtain ⟨m', R', e, hk, hc, a, b⟩ := ih c ((k, m) :: R) (fun x hx => h1 x (by simp [hx])) (h1 (c, k) (by simp))
      (by
        intro x hx
        rcases List.mem_cons.mp hx with rfl | hx
        · exact h2
        · exact h3 x hx)
    refine ⟨m', R', (nodeKid_shift ..).symm.trans e, ?_, ?_, a, b⟩
    · rw [hk]; simp [keysOf]
    · rw [hc]; simp [kidsOf]

theorem Tr.nodeAny {id : Nat} {L : Lefts κ E} {m : Kid κ E} {R : Rights κ E} (h1 : ∀ x ∈ L, Tr Y x.1) (h2 : Tr Y m)
    (h3 : ∀ x ∈ R, Tr Y x.2) (hf : Y.fit (keysOf L R)) : Tr Y (nodeKid Y.ops id L m R) := by
  obtain ⟨m', R', e, hk, -, a, b⟩ := nodeKid_first Y.ops id (Tr Y) L m R h1 h2 h3
  rw [e]
  exact .node id m' R' a b (hk ▸ hf)

/-! ## Paths -/

/-- One internal page on the way from the root, without the child that was taken. -/
structure Fr (κ E : Type) where
  id : Nat
  L : Lefts κ E
  R : Rights κ E

structure FrOk (Y : Layout κ E) (f : Fr κ E) : Prop where
  left : ∀ x ∈ f.L, Tr Y x.1
  right : ∀ x ∈ f.R, Tr Y x.2
  fit : Y.fit (keysOf f.L f.R)

/-- Put a subtree into a path, deepest page first. -/
def plug (O : Ops κ) : List (Fr κ E) → Kid κ E → Kid κ E
  | [], k => k
  | f :: fs, k => plug O fs (nodeKid O f.id f.L k f.R)

/-- Pages of a path whose hole has page id `c`. -/
def fpg (O : Ops κ) : List (Fr κ E) → Nat → Multiset (Nat × Node)
  | [], _ => 0
  | f :: fs, c => {(f.id, O.inner (keysOf f.L f.R) (kidsOf f.L c f.R))} + (lpg f.L + rpg f.R) + fpg O fs f.id

def zl : List (Fr κ E) → List (Item κ E)
  | [] => []
  | f :: fs => zl fs ++ lsq f.L

def zr : List (Fr κ E) → List (Item κ E)
  | [] => []
  | f :: fs => rsq f.R ++ zr fs

def rootOf : List (Fr κ E) → Nat → Nat
  | [], c => c
  | f :: fs, _ => rootOf fs f.id

def stackOf (fs : List (Fr κ E)) : List (Nat × Nat) := fs.map fun f => (f.id, f.L.length)

theorem plug_pg (O : Ops κ) (fs : List (Fr κ E)) (k : Kid κ E) : (plug O fs k).pg = k.pg + fpg O fs k.id := by
  induction fs generalizing k with
  | nil => simp [plug, fpg]
  | cons f fs ih =>
    rw [plug, ih, fpg]
    show {(f.id, O.inner (keysOf f.L f.R) (kidsOf f.L k.id f.R))} + (lpg f.L + k.pg + rpg f.R) + fpg O fs f.id = _
    abel

theorem plug_sq (O : Ops κ) (fs : List (Fr κ E)) (k : Kid κ E) : (plug O fs k).sq = zl fs ++ k.sq ++ zr fs := by
  induction fs generalizing k with
  | nil => simp [plug, zl, zr]
  | cons f fs ih =>
    rw [plug, ih]
    simp [zl, zr, nodeKid]

/-- Depths of the leaves beside a path, seen from its root. -/
def sdep : List (Fr κ E) → Multiset Nat
  | [] => 0
  | f :: fs => deeper (fs.length + 1) (ldep f.L + rdep f.R) + sdep fs

theorem plug_dep (O : Ops κ) (fs : List (Fr κ E)) (k : Kid κ E) :
    (plug O fs k).dep = deeper fs.length k.dep + sdep fs := by
  induction fs generalizing k with
  | nil => simp [plug, sdep]
  | cons f fs ih =>
    rw [plug, ih, sdep]
    simp only [nodeKid, deeper_deeper, List.length_cons, deeper_add]
    abel

theorem plug_id (O : Ops κ) (fs : List (Fr κ E)) (k : Kid κ E) : (plug O fs k).id = rootOf fs k.id := by
  induction fs generalizing k with
  | nil => rfl
  | cons f fs ih => rw [plug, ih]; rfl

theorem plug_append (O : Ops κ) (a b : List (Fr κ E)) (k : Kid κ E) : plug O (a ++ b) k = plug O b (plug O a k) := by
  induction a generalizing k with
  | nil => rfl
  | cons f a ih => exact ih _

theorem Tr.plug {fs : List (Fr κ E)} {k : Kid κ E} (hf : ∀ f ∈ fs, FrOk Y f) (hk : Tr Y k) :
    Tr Y (plug Y.ops fs k) := by
  induction fs generalizing k with
  | nil => exact hk
  | cons f fs ih =>
    have h := hf f (by simp)
    exact ih (fun f hf' => hf f (by simp [hf'])) (.nodeAny h.left hk h.right h.fit)

theorem Tr.page {k : Kid κ E} (h : Tr Y k) : ∃ n Q, k.pg = {(k.id, n)} + Q := by
  cases h with
  | leaf _ h => obtain ⟨n, Q, e, _⟩ := Y.leaf_page k h; exact ⟨n, Q, e⟩
  | node id m R _ _ _ => exact ⟨_, _, rfl⟩

theorem Tr.card_pos {k : Kid κ E} (h : Tr Y k) : 0 < k.pg.card := by
  obtain ⟨n, Q, e⟩ := h.page
  rw [e]; simp

/-! ## Descending -/

variable {w : Writer} {A : Nat → Prop} {X : Multiset Nat} {P Q : Multiset (Nat × Node)}

/-- `pick` takes an existing child. -/
def PickOk (pick : List κ → List Nat → Nat) : Prop :=
  ∀ keys kids, kids.length = keys.length + 1 → pick keys kids ≤ keys.length

/-- The path follows `pick`. -/
def Picked (pick : List κ → List Nat → Nat) (f : Fr κ E) : Prop :=
  ∃ kids : List Nat, kids.length = (keysOf f.L f.R).length + 1 ∧ f.L.length = pick (keysOf f.L f.R) kids

/-- Outcome of descending in the tree `K`. -/
structure Found (Y : Layout κ E) (pick : List κ → List Nat → Nat) (K : Kid κ E) (fs : List (Fr κ E)) (k : Kid κ E) :
    Prop where
  eq : plug Y.ops fs k = K
  frames : ∀ f ∈ fs, FrOk Y f
  picked : ∀ f ∈ fs, Picked pick f
  leaf : Y.Leaf k

theorem descend_spec {pick : List κ → List Nat → Nat} (hp : PickOk pick) {K : Kid κ E} (hK : Tr Y K) :
    ∀ (fuel : Nat) (st : List (Nat × Nat)) (w : Writer) (Q : Multiset (Nat × Node)), K.pg.card ≤ fuel →
    Own w A X (K.pg + Q) →
    Run (descend Y.ops pick fuel K.id st) w fun res w' => ∃ fs k, Found Y pick K fs k ∧
      res = (k.id, stackOf fs ++ st) ∧ Own w' A X (K.pg + Q) ∧ Keep (K.pg + Q) w w' ∧ Loaded w' k.id ∧
      ∀ f ∈ fs, Loaded w' f.id := by
  induction hK with
  | leaf k hk =>
    intro fuel st w Q hfuel hw
    have hpos := Tr.card_pos (.leaf k hk)
    obtain ⟨fuel, rfl⟩ : ∃ f, fuel = f + 1 := ⟨fuel - 1, by omega⟩
    obtain ⟨n, P, e, hn⟩ := Y.leaf_page k hk
    unfold descend
    refine (getPage_spec (n := n) hw (by rw [e]; simp)).andThen fun m w' ⟨hm, h1, h2, h3⟩ => ?_
    subst hm
    rw [if_pos hn]
    exact .pure ⟨[], k, ⟨rfl, by simp, by simp, hk⟩, rfl, h1, h2, h3, by simp⟩
  | node id m R hm hR hf ihm ihR =>
    intro fuel st w Q hfuel hw
    obtain ⟨fuel, rfl⟩ : ∃ f, fuel = f + 1 := ⟨fuel - 1, by
      have := Tr.card_pos (Tr.node (Y := Y) id m R hm hR hf); omega⟩
    unfold descend
    set keys := keysOf ([] : Lefts κ E) R with hkeys
    set kids := kidsOf ([] : Lefts κ E) m.id R with hkids
    have hlen : kids.length = keys.length + 1 := kidsOf_length _ _ _
    have hi : pick keys kids ≤ R.length := by
      have := hp keys kids hlen
      simpa [hkeys, keysOf] using this
    refine (getPage_spec (n := Y.ops.inner keys kids) hw (by simp [nodeKid, hkeys, hkids])).andThen
      fun n w' ⟨hn, h1, h2, h3⟩ => ?_
    subst hn
    rw [Y.inner_leaf, Y.un_inner]
    simp only [Bool.false_eq_true, if_false]
    -- focus on the chosen child
    let G : Kid κ E → Prop := fun c => Tr Y c ∧
      ∀ (fuel : Nat) (st : List (Nat × Nat)) (w : Writer) (Q : Multiset (Nat × Node)), c.pg.card ≤ fuel →
      Own w A X (c.pg + Q) →
      Run (descend Y.ops pick fuel c.id st) w fun res w' => ∃ fs k, Found Y pick c fs k ∧
        res = (k.id, stackOf fs ++ st) ∧ Own w' A X (c.pg + Q) ∧ Keep (c.pg + Q) w w' ∧ Loaded w' k.id ∧
        ∀ f ∈ fs, Loaded w' f.id
    obtain ⟨L', m', R', e, hl, hk, hc, a, b, d⟩ := nodeKid_focus Y.ops id G (pick keys kids) [] m R (by simp)
      ⟨hm, ihm⟩ (fun x hx => ⟨hR x hx, ihR x hx⟩) hi
    have hl : L'.length = pick keys kids := by simpa using hl
    have hget : kids[pick keys kids]? = some m'.id := by
      rw [← hl, hkids, ← hc]
      simp [kidsOf]
    rw [hget]
    simp only
    have hcard : m'.pg.card ≤ fuel := by
      have := congrArg (fun k => k.pg.card) e
      have h2 : (nodeKid Y.ops id [] m R).pg.card ≤ fuel + 1 := hfuel
      rw [show (nodeKid Y.ops id [] m R).pg.card = _ from this] at h2
      simp [nodeKid] at h2
      omega
    rw [e] at h1 h2 ⊢
    have hpg : (nodeKid Y.ops id L' m' R').pg + Q =
      m'.pg + ({(id, Y.ops.inner (keysOf L' R') (kidsOf L' m'.id R'))} + lpg L' + rpg R' + Q) := by
      simp only [nodeKid]; abel
    rw [hpg] at h1 h2
    refine (b.2 fuel ((id, pick keys kids) :: st) w' _ hcard h1).mono ?_
    rintro res w'' ⟨fs, k, hF, rfl, h4, h5, h6, h7⟩
    have hframe : FrOk Y ⟨id, L', R'⟩ := ⟨fun x hx => (a x hx).1, fun x hx => (d x hx).1, by
      show Y.fit (keysOf L' R'); rw [hk]; simpa [keysOf] using hf⟩
    refine ⟨fs ++ [⟨id, L', R'⟩], k, ⟨?_, ?_, ?_, hF.leaf⟩, ?_, hpg ▸ h4, hpg ▸ h2.trans h5, h6, ?_⟩
    · rw [plug_append, hF.eq]; rfl
    · intro f hf'
      rcases List.mem_append.mp hf' with h | h
      · exact hF.frames f h
      · cases List.mem_singleton.mp h; exact hframe
    · intro f hf'
      rcases List.mem_append.mp hf' with h | h
      · exact hF.picked f h
      · cases List.mem_singleton.mp h
        exact ⟨kids, by rw [hk]; exact hlen, by show L'.length = pick (keysOf L' R') kids; rw [hk]; exact hl⟩
    · simp [stackOf, hl]
    · intro f hf'
      rcases List.mem_append.mp hf' with h | h
      · exact h7 f h
      · cases List.mem_singleton.mp h
        exact h5.loaded id (by simp) h3

/-! ## Going up -/

/-- A promoted key with its new subtree, if any. -/
abbrev Promo (κ E : Type) := Option (κ × Kid κ E)

def Promo.rights : Promo κ E → Rights κ E
  | none => []
  | some x => [x]

def Promo.ref (s : Promo κ E) : Option (κ × Nat) := s.map fun x => (x.1, x.2.id)

structure PromoOk (Y : Layout κ E) (s : Promo κ E) : Prop where
  tree : ∀ x ∈ s.rights, Tr Y x.2
  key : ∀ x ∈ s.rights, Y.kfit x.1

theorem insertIdx_at {α : Type} (a b : List α) (x : α) : (a ++ b).insertIdx a.length x = a ++ x :: b := by
  induction a with
  | nil => simp
  | cons y a ih => simp [ih]

theorem replaceKid_ok (O : Ops κ) (L : Lefts κ E) (R : Rights κ E) (c0 c1 : Nat) (hr : O.rightmost = true → R = []) :
    replaceKid O L.length (replInfo c0 c1) (kidsOf L c0 R) = .ok (kidsOf L c1 R) := by
  unfold replaceKid replInfo
  by_cases h : c1 ≠ c0
  · rw [if_pos h]
    have hi : (if O.rightmost then (kidsOf L c0 R).length - 1 else L.length) = L.length := by
      split
      · next h' => simp [hr h', kidsOf]
      · rfl
    simp only [hi]
    have hg : (kidsOf L c0 R)[L.length]? = some c0 := by simp [kidsOf]
    rw [hg]
    simp [kidsOf]
  · rw [if_neg h, not_not.mp h]

theorem insertKid_ok (O : Ops κ) (L : Lefts κ E) (R : Rights κ E) (c : Nat) (s : Promo κ E)
    (hr : O.rightmost = true → R = []) :
    insertKid O L.length s.ref (keysOf L R) (kidsOf L c R) =
      .ok (keysOf L (s.rights ++ R), kidsOf L c (s.rights ++ R)) := by
  unfold insertKid
  cases s with
  | none => rfl
  | some x =>
    obtain ⟨k, K⟩ := x
    simp only [Promo.ref, Option.map_some, Promo.rights]
    by_cases h : O.rightmost
    · rw [if_pos h]
      simp [hr h, keysOf, kidsOf]
    · rw [if_neg h, if_pos (by simp [keysOf, kidsOf])]
      have h1 : (keysOf L R).insertIdx L.length k = keysOf L ([(k, K)] ++ R) := by
        rw [keysOf, show L.length = (L.map (·.2)).length by simp, insertIdx_at]
        simp [keysOf]
      have h2 : (kidsOf L c R).insertIdx (L.length + 1) K.id = kidsOf L c ([(k, K)] ++ R) := by
        rw [kidsOf, show L.map (·.1.id) ++ c :: R.map (·.2.id) = (L.map (·.1.id) ++ [c]) ++ R.map (·.2.id) by simp,
          show L.length + 1 = (L.map (·.1.id) ++ [c]).length by simp, insertIdx_at]
        simp [kidsOf]
      rw [h1, h2]

/-- The two ways a parent can come out of `upNode`. -/
theorem upNode_ok {f : Fr κ E} (hf : FrOk Y f) (hr : Y.ops.rightmost = true → f.R = []) {t1 : Kid κ E} (ht : Tr Y t1)
    (c0 : Nat) {s : Promo κ E} (hs : PromoOk Y s) :
    (∃ T : Kid κ E, Tr Y T ∧ T.id = f.id ∧ T.sq = lsq f.L ++ t1.sq ++ rsq s.rights ++ rsq f.R ∧
      T.dep = deeper 1 (ldep f.L + t1.dep + rdep s.rights + rdep f.R) ∧ ∃ n Q,
      T.pg = {(f.id, n)} + Q ∧ Q = lpg f.L + t1.pg + rpg s.rights + rpg f.R ∧
      upNode Y.ops Y.kw Y.ps f.L.length (replInfo c0 t1.id) s.ref
        (Y.ops.inner (keysOf f.L f.R) (kidsOf f.L c0 f.R)) = .ok (none, n)) ∨
    (∃ (T : Kid κ E) (k : κ) (keys : List κ) (kids : List Nat) (C : Nat → Kid κ E), Tr Y T ∧ (∀ c, Tr Y (C c)) ∧
      Y.kfit k ∧ T.id = f.id ∧ (∀ c, (C c).id = c) ∧
      (∀ c, T.sq ++ .sep k :: (C c).sq = lsq f.L ++ t1.sq ++ rsq s.rights ++ rsq f.R) ∧
      (∀ c, T.dep + (C c).dep = deeper 1 (ldep f.L + t1.dep + rdep s.rights + rdep f.R)) ∧ ∃ n Q Q',
      T.pg = {(f.id, n)} + Q ∧ (∀ c, (C c).pg = {(c, Y.ops.inner keys kids)} + Q') ∧
      Q + Q' = lpg f.L + t1.pg + rpg s.rights + rpg f.R ∧
      upNode Y.ops Y.kw Y.ps f.L.length (replInfo c0 t1.id) s.ref
        (Y.ops.inner (keysOf f.L f.R) (kidsOf f.L c0 f.R)) = .ok (some (k, keys, kids), n)) := by
  have hup : upNode Y.ops Y.kw Y.ps f.L.length (replInfo c0 t1.id) s.ref
      (Y.ops.inner (keysOf f.L f.R) (kidsOf f.L c0 f.R)) =
      if (Y.ops.always || s.isSome) && decide (pageSizeOf Y.kw (Y.ops.inner (keysOf f.L (s.rights ++ f.R))
        (kidsOf f.L t1.id (s.rights ++ f.R))) > Y.ps) then
        splitNode Y.ops (keysOf f.L (s.rights ++ f.R)) (kidsOf f.L t1.id (s.rights ++ f.R))
      else .ok (none, Y.ops.inner (keysOf f.L (s.rights ++ f.R)) (kidsOf f.L t1.id (s.rights ++ f.R))) := by
    unfold upNode
    rw [Y.un_inner]
    simp only
    rw [replaceKid_ok _ _ _ _ _ hr]
    simp only
    rw [insertKid_ok _ _ _ _ _ hr]
    simp [Promo.ref]
  rw [hup]
  set R' := s.rights ++ f.R with hR'
  have hlen := kidsOf_length f.L t1.id R'
  have hright : ∀ x ∈ R', Tr Y x.2 := by
    intro x hx
    rcases List.mem_append.mp hx with h | h
    · exact hs.tree x h
    · exact hf.right x h
  -- whether a split happens
  by_cases hover : ((Y.ops.always || s.isSome) && decide (pageSizeOf Y.kw (Y.ops.inner (keysOf f.L R')
      (kidsOf f.L t1.id R')) > Y.ps)) = true
  · right
    rw [if_pos hover]
    rw [Bool.and_eq_true] at hover
    have hsz : Y.ps < pageSizeOf Y.kw (Y.ops.inner (keysOf f.L R') (kidsOf f.L t1.id R')) := by simpa using hover.2
    -- something must have been inserted
    cases hsc : s with
    | none =>
      exfalso
      rw [hsc] at hover
      have ha : Y.ops.always = true := by simpa using hover.1
      have hkk : R' = f.R := by rw [hR', hsc]; rfl
      have := Y.fit_over ha _ _ hlen (by rw [hkk]; exact hf.fit)
      omega
    | some x =>
      obtain ⟨k0, K0⟩ := x
      have hkeys : keysOf f.L R' = f.L.map (·.2) ++ k0 :: f.R.map (·.1) := by
        rw [hR', hsc]; simp [keysOf, Promo.rights]
      have hsp := Y.fit_split (f.L.map Prod.snd) (f.R.map Prod.fst) k0 (kidsOf f.L t1.id R') (by rw [← hkeys]; exact hlen)
        hf.fit (hs.key (k0, K0) (by rw [hsc]; simp [Promo.rights])) (by rw [← hkeys]; exact hsz)
      rw [← hkeys] at hsp
      obtain ⟨hmin, hpos, hfl, hfr⟩ := hsp
      have hfit' : ∀ k ∈ keysOf f.L R', Y.kfit k := by
        intro k hk
        rw [hkeys] at hk
        rcases List.mem_append.mp hk with h | h
        · exact Y.fit_kfit _ hf.fit k (by simp only [keysOf]; exact List.mem_append_left _ h)
        · rcases List.mem_cons.mp h with rfl | h
          · exact hs.key (k, K0) (by rw [hsc]; simp [Promo.rights])
          · exact Y.fit_kfit _ hf.fit k (by simp only [keysOf]; exact List.mem_append_right _ h)
      obtain ⟨m', R2, e, hk, hc, a, b⟩ := nodeKid_first Y.ops f.id (Tr Y) f.L t1 R' hf.left ht hright
      set p := Y.ops.splitPos (keysOf f.L R').length with hp
      have hlR : R2.length = (keysOf f.L R').length := by rw [← hk]; simp
      have hpR : p < R2.length := by rw [hlR]; exact hpos
      obtain ⟨r1, ⟨k, t⟩, r2, hsplit, hl1⟩ : ∃ r1 x r2, R2 = r1 ++ x :: r2 ∧ r1.length = p :=
        ⟨R2.take p, R2[p], R2.drop (p + 1), by
          rw [List.getElem_cons_drop, List.take_append_drop], by simp; omega⟩
      subst hsplit
      have hkeys2 : keysOf f.L R' = r1.map (·.1) ++ k :: r2.map (·.1) := by rw [← hk]; simp
      have hkids2 : kidsOf f.L t1.id R' = m'.id :: r1.map (·.2.id) ++ t.id :: r2.map (·.2.id) := by
        rw [← hc]; simp
      have htake : (keysOf f.L R').take p = r1.map (·.1) := by rw [hkeys2, ← hl1]; simp
      have hdrop : (keysOf f.L R').drop (p + 1) = r2.map (·.1) := by
        rw [hkeys2, ← hl1, show r1.length + 1 = (r1.map (·.1)).length + 1 by simp, List.drop_append]; simp
      have hdrop2 : (kidsOf f.L t1.id R').drop (p + 1) = t.id :: r2.map (·.2.id) := by
        rw [hkids2, ← hl1]; simp
      have htake2 : (kidsOf f.L t1.id R').take (p + 1) = m'.id :: r1.map (·.2.id) := by
        rw [hkids2, ← hl1]; simp
      rw [htake] at hfl
      rw [hdrop] at hfr
      refine ⟨nodeKid Y.ops f.id [] m' r1, k, r2.map (·.1), t.id :: r2.map (·.2.id),
        fun c => nodeKid Y.ops c [] t r2, .node _ _ _ a (fun x hx => b x (by simp [hx])) hfl,
        fun c => .node _ _ _ (b (k, t) (by simp)) (fun x hx => b x (by simp [hx])) hfr,
        hfit' k (by rw [hkeys2]; simp), rfl, fun _ => rfl, ?_, ?_,
        Y.ops.inner (keysOf [] r1) (kidsOf [] m'.id r1), m'.pg + rpg r1, t.pg + rpg r2, ?_, ?_, ?_, ?_⟩
      · intro c
        have := congrArg Kid.sq e
        simp only [nodeKid, lsq_nil, List.nil_append, rsq_append, rsq_cons] at this ⊢
        rw [hR', hsc, rsq_append] at this
        simpa using this.symm
      · intro c
        have := congrArg Kid.dep e
        simp only [nodeKid, ldep_nil, zero_add, rdep_append, rdep_cons] at this ⊢
        rw [hR', hsc, rdep_append] at this
        rw [← deeper_add, show m'.dep + rdep r1 + (t.dep + rdep r2) = m'.dep + (rdep r1 + (t.dep + rdep r2)) by abel,
          ← this]
        congr 1
        abel
      · simp only [nodeKid, lpg_nil, zero_add]
      · intro c
        simp only [nodeKid, lpg_nil, zero_add]
        simp [keysOf, kidsOf]
      · have := congrArg Kid.pg e
        simp only [nodeKid, lpg_nil, zero_add, rpg_append, rpg_cons] at this
        rw [show keysOf [] (r1 ++ (k, t) :: r2) = keysOf f.L R' by rw [← hk]; simp [keysOf],
          show kidsOf [] m'.id (r1 ++ (k, t) :: r2) = kidsOf f.L t1.id R' by rw [← hc]; simp [kidsOf]] at this
        have := add_left_cancel this
        rw [hR', hsc, rpg_append] at this
        rw [show m'.pg + rpg r1 + (t.pg + rpg r2) = m'.pg + (rpg r1 + (t.pg + rpg r2)) by abel, ← this]
        abel
      · unfold splitNode
        rw [if_neg (by rw [hlen]; omega)]
        simp only
        rw [← hp]
        have : (keysOf f.L R')[p]? = some k := by rw [hkeys2, ← hl1]; simp
        rw [this]
        simp only [htake, htake2, hdrop, hdrop2]
        simp [keysOf, kidsOf]
  · left
    rw [if_neg hover]
    refine ⟨nodeKid Y.ops f.id f.L t1 R', .nodeAny hf.left ht hright ?_, rfl, ?_, ?_, _, _, rfl, ?_, rfl⟩
    · cases hsc : s with
      | none =>
        have hkk : R' = f.R := by rw [hR', hsc]; rfl
        rw [hkk]; exact hf.fit
      | some x =>
        obtain ⟨k0, K0⟩ := x
        have hkeys : keysOf f.L R' = f.L.map (·.2) ++ k0 :: f.R.map (·.1) := by
          rw [hR', hsc]; simp [keysOf, Promo.rights]
        have hsz : pageSizeOf Y.kw (Y.ops.inner (keysOf f.L R') (kidsOf f.L t1.id R')) ≤ Y.ps := by
          rw [hsc] at hover; simpa using hover
        rw [hkeys]
        refine Y.fit_ins _ _ _ (kidsOf f.L t1.id R') (by rw [← hkeys]; exact hlen) hf.fit
          (hs.key (k0, K0) (by rw [hsc]; simp [Promo.rights])) ?_
        rw [← hkeys]; exact hsz
    · simp [nodeKid, hR']
    · simp only [nodeKid, hR', rdep_append]
      congr 1
      abel
    · rw [hR', rpg_append]; abel

/-- The pages beside a path: those of the children that were not taken. -/
def side (fs : List (Fr κ E)) : Multiset (Nat × Node) := (fs.map fun f => lpg f.L + rpg f.R).sum

@[simp] theorem side_nil : side ([] : List (Fr κ E)) = 0 := rfl
@[simp] theorem side_cons (f : Fr κ E) (fs : List (Fr κ E)) : side (f :: fs) = lpg f.L + rpg f.R + side fs := by
  simp [side]

theorem side_le (O : Ops κ) (fs : List (Fr κ E)) (c : Nat) : side fs ≤ fpg O fs c := by
  induction fs generalizing c with
  | nil => exact le_refl _
  | cons f fs ih =>
    rw [side_cons, fpg]
    exact add_le_add (Multiset.le_add_left _ _) (ih _)

theorem walkUp_spec (fs : List (Fr κ E)) :
    ∀ (w : Writer) (Q : Multiset (Nat × Node)) (c0 : Nat) (t1 : Kid κ E) (s : Promo κ E),
    (∀ f ∈ fs, FrOk Y f) → (∀ f ∈ fs, Y.ops.rightmost = true → f.R = []) → Tr Y t1 → PromoOk Y s →
    w.kw = Y.kw → w.pageSize = Y.ps →
    Own w A X (t1.pg + rpg s.rights + fpg Y.ops fs c0 + Q) → (∀ f ∈ fs, Loaded w f.id) →
    Run (walkUp Y.ops (stackOf fs) (replInfo c0 t1.id) s.ref) w fun res w' => ∃ (T : Kid κ E) (S : Promo κ E),
      Tr Y T ∧ PromoOk Y S ∧ res = (replInfo (rootOf fs c0) T.id, S.ref) ∧
      T.sq ++ rsq S.rights = zl fs ++ t1.sq ++ rsq s.rights ++ zr fs ∧
      Own w' A X (T.pg + rpg S.rights + Q) ∧ Keep (t1.pg + rpg s.rights + side fs + Q) w w' ∧
      t1.pg + rpg s.rights + side fs ≤ T.pg + rpg S.rights ∧
      T.dep + rdep S.rights = deeper fs.length (t1.dep + rdep s.rights) + sdep fs := by
  induction fs with
  | nil =>
    intro w Q c0 t1 s _ _ ht hs _ _ hw _
    exact .pure ⟨t1, s, ht, hs, rfl, by simp [zl, zr], hw.congr (by simp [fpg]), .refl _ _, by simp, by simp [sdep]⟩
  | cons f fs ih =>
    intro w Q c0 t1 s hfs hr ht hs hkw hps hw hload
    have hf := hfs f (by simp)
    show Run (walkUp Y.ops ((f.id, f.L.length) :: stackOf fs) _ _) w _
    unfold walkUp
    set n0 := Y.ops.inner (keysOf f.L f.R) (kidsOf f.L c0 f.R) with hn0
    have hw : Own w A X ({(f.id, n0)} + (lpg f.L + t1.pg + rpg s.rights + rpg f.R + (fpg Y.ops fs f.id + Q))) :=
      hw.congr (by simp only [fpg, ← hn0]; abel)
    have hfid : ∀ g ∈ fs, g.id ∈ ids (fpg Y.ops fs f.id) := by
      intro g hg
      suffices ∀ (fs : List (Fr κ E)) c, g ∈ fs → g.id ∈ ids (fpg Y.ops fs c) from this fs _ hg
      intro fs
      induction fs with
      | nil => simp
      | cons f fs ih =>
        intro c hg
        rcases List.mem_cons.mp hg with rfl | hg
        · simp [fpg]
        · simp [fpg, ih _ hg]
    refine (getDirty_spec hw (hload f (by simp))).andThen fun d w1 ⟨h1, k1, d1⟩ => ?_
    refine .bind (.getW ?_)
    have hkw1 : w1.kw = Y.kw := k1.step.kw.trans hkw
    have hps1 : w1.pageSize = Y.ps := k1.step.pageSize.trans hps
    rw [hkw1, hps1]
    -- the frame under its new page id
    have hf' : FrOk Y ⟨d, f.L, f.R⟩ := ⟨hf.left, hf.right, hf.fit⟩
    rcases upNode_ok hf' (hr f (by simp)) ht c0 hs with
      ⟨T, hT, hid, hsq, hdep, n, Q1, hpg, hQ1, hup⟩ |
      ⟨T, k, keys, kids, C, hT, hC, hk, hid, hCid, hsq, hdep, n, Q1, Q2, hpg, hpgC, hQ, hup⟩
    · refine (modDirty_spec h1 d1 hup).andThen fun off w2 ⟨ho, h2, k2, d2⟩ => ?_
      subst ho
      simp only
      have hid' : T.id = d := hid
      have h2' : Own w2 A X (T.pg + rpg (Promo.rights (none : Promo κ E)) + fpg Y.ops fs f.id + Q) := h2.congr (by
        rw [hpg, hQ1]; simp only [Promo.rights, rpg_nil]; abel)
      have := ih w2 Q f.id T none (fun g hg => hfs g (by simp [hg])) (fun g hg => hr g (by simp [hg])) hT
        ⟨by simp [Promo.rights], by simp [Promo.rights]⟩ (k2.step.kw.trans hkw1) (k2.step.pageSize.trans hps1) h2'
        (fun g hg => k2.loaded _ (by simp [hfid g hg]) (k1.loaded _ (by simp [hfid g hg]) (hload g (by simp [hg]))))
      rw [hid'] at this
      refine this.mono ?_
      rintro res w3 ⟨T', S, hT', hS, hres, hsq', h3, k3, l3, hdep'⟩
      have hle : t1.pg + rpg s.rights + (lpg f.L + rpg f.R + side fs) ≤
          T.pg + rpg (Promo.rights (none : Promo κ E)) + side fs := by
        rw [hpg, hQ1, show t1.pg + rpg s.rights + (lpg f.L + rpg f.R + side fs) =
            lpg f.L + t1.pg + rpg s.rights + rpg f.R + side fs by abel]
        refine add_le_add_left ?_ _
        simp only [Promo.rights, rpg_nil, add_zero]
        exact Multiset.le_add_left _ _
      refine ⟨T', S, hT', hS, hres, ?_, h3, ?_, by rw [side_cons]; exact hle.trans l3, ?_⟩
      · rw [hsq', hsq]; simp [zl, zr, Promo.rights]
      · refine ((k1.trans k2).sub ?_).trans (k3.sub ?_)
        · rw [side_cons, show t1.pg + rpg s.rights + (lpg f.L + rpg f.R + side fs) + Q =
            lpg f.L + t1.pg + rpg s.rights + rpg f.R + (side fs + Q) by abel]
          exact add_le_add_right (add_le_add_left (side_le _ _ _) _) _
        · rw [side_cons]; exact add_le_add_left hle _
      · rw [hdep', hdep]
        simp only [Promo.rights, rdep_nil, add_zero, deeper_deeper, sdep, List.length_cons, deeper_add]
        abel
    · refine (modDirty_spec h1 d1 hup).andThen fun off w2 ⟨ho, h2, k2, d2⟩ => ?_
      subst ho
      simp only
      have hid' : T.id = d := hid
      refine (newPage_spec (Y.ops.inner keys kids) h2).andThen fun c w3 ⟨h3, k3, d3⟩ => ?_
      have h3' : Own w3 A X (T.pg + rpg (Promo.rights (some (k, C c))) + fpg Y.ops fs f.id + Q) := h3.congr (by
        rw [hpg]; simp only [Promo.rights, rpg_nil, rpg_cons, hpgC]
        show _ = {(c, Y.ops.inner keys kids)} + ({(d, n)} +
          (lpg f.L + t1.pg + rpg s.rights + rpg f.R + (fpg Y.ops fs f.id + Q)))
        rw [← hQ]; abel)
      have := ih w3 Q f.id T (some (k, C c)) (fun g hg => hfs g (by simp [hg])) (fun g hg => hr g (by simp [hg])) hT
        ⟨by simp [Promo.rights, hC], by simp [Promo.rights, hk]⟩ (k3.step.kw.trans (k2.step.kw.trans hkw1))
        (k3.step.pageSize.trans (k2.step.pageSize.trans hps1)) h3'
        (fun g hg => k3.loaded _ (by simp [hfid g hg]) (k2.loaded _ (by simp [hfid g hg])
          (k1.loaded _ (by simp [hfid g hg]) (hload g (by simp [hg])))))
      rw [hid'] at this
      rw [show (some (k, c) : Option (κ × Nat)) = Promo.ref (some (k, C c)) by simp [Promo.ref, hCid]]
      refine this.mono ?_
      rintro res w4 ⟨T', S, hT', hS, hres, hsq', h4, k4, l4, hdep'⟩
      have hle : t1.pg + rpg s.rights + (lpg f.L + rpg f.R + side fs) ≤
          T.pg + rpg (Promo.rights (some (k, C c))) + side fs := by
        rw [hpg, show t1.pg + rpg s.rights + (lpg f.L + rpg f.R + side fs) = Q1 + Q2 + side fs by rw [hQ]; abel]
        refine add_le_add_left ?_ _
        simp only [Promo.rights, rpg_cons, rpg_nil, hpgC]
        show Q1 + Q2 ≤ {(d, n)} + Q1 + ({(c, Y.ops.inner keys kids)} + Q2 + 0)
        rw [show {(d, n)} + Q1 + ({(c, Y.ops.inner keys kids)} + Q2 + 0) =
          {(d, n)} + {(c, Y.ops.inner keys kids)} + (Q1 + Q2) by abel]
        exact Multiset.le_add_left _ _
      refine ⟨T', S, hT', hS, hres, ?_, h4, ?_, by rw [side_cons]; exact hle.trans l4, ?_⟩
      · rw [hsq']
        have := hsq c
        rw [show rsq (Promo.rights (some (k, C c))) = .sep k :: (C c).sq by simp [Promo.rights],
          List.append_assoc (zl fs), this]
        simp [zl, zr]
      · refine Keep.trans ((k1.trans k2).trans (k3.sub ?_) |>.sub ?_) (k4.sub ?_)
        · exact Multiset.le_add_left _ _
        · rw [side_cons, show t1.pg + rpg s.rights + (lpg f.L + rpg f.R + side fs) + Q =
            lpg f.L + t1.pg + rpg s.rights + rpg f.R + (side fs + Q) by abel]
          exact add_le_add_right (add_le_add_left (side_le _ _ _) _) _
        · rw [side_cons]; exact add_le_add_left hle _
      · rw [hdep', show rdep (Promo.rights (some (k, C c))) = (C c).dep by simp [Promo.rights], hdep c]
        simp only [deeper_deeper, sdep, List.length_cons, deeper_add]
        abel

theorem fixRoot_spec {T : Kid κ E} {S : Promo κ E} (hT : Tr Y T) (hS : PromoOk Y S) {w : Writer}
    {Q : Multiset (Nat × Node)} (root : Nat) (hw : Own w A X (T.pg + rpg S.rights + Q)) :
    Run (fixRoot Y.ops root (replInfo root T.id) S.ref) w fun id w' => ∃ U : Kid κ E, Tr Y U ∧ U.id = id ∧
      U.sq = T.sq ++ rsq S.rights ∧ Own w' A X (U.pg + Q) ∧ Keep (T.pg + rpg S.rights + Q) w w' ∧
      ∃ n, U.dep = deeper n (T.dep + rdep S.rights) := by
  unfold fixRoot
  refine Run.andThen (Q := fun id w' => id = T.id ∧ w' = w) ?_ ?_
  · unfold replInfo
    by_cases h : T.id ≠ root
    · rw [if_pos h]
      simp only
      exact .pure ⟨rfl, rfl⟩
    · rw [if_neg h]
      exact .pure ⟨(not_not.mp h).symm, rfl⟩
  · rintro id w' ⟨rfl, rfl⟩
    cases S with
    | none => exact .pure ⟨T, hT, rfl, by simp [Promo.rights], hw.congr (by simp [Promo.rights]), .refl _ _, 0,
        by simp [Promo.rights]⟩
    | some x =>
      obtain ⟨k, c⟩ := x
      refine (newPage_spec _ hw).mono ?_
      rintro p w1 ⟨h1, k1, _⟩
      refine ⟨nodeKid Y.ops p [] T [(k, c)], .node p T _ hT (fun x hx => hS.tree x (by simpa [Promo.rights] using hx)) ?_,
        rfl, ?_, h1.congr ?_, k1, 1, by simp [nodeKid, Promo.rights]⟩
      · exact Y.fit_one k (hS.key (k, c) (by simp [Promo.rights]))
      · simp [nodeKid, Promo.rights]
      · simp only [nodeKid, Promo.rights, lpg_nil, rpg_cons, rpg_nil]
        rw [show keysOf [] [(k, c)] = [k] from rfl, show kidsOf [] T.id [(k, c)] = [T.id, c.id] from rfl]
        abel

/-! ## Even trees -/

/-- All leaves are equally far below the root. -/
def Even (k : Kid κ E) : Prop := ∃ n, ∀ x ∈ k.dep, x = n

/-- After every separator comes an entry: no leaf but the first is empty. -/
def Dense : List (Item κ E) → Prop
  | [] => True
  | .ent _ :: sq => Dense sq
  | .sep _ :: sq => (∃ e sq', sq = .ent e :: sq') ∧ Dense sq

theorem dense_ents (es : List E) {sq : List (Item κ E)} (h : Dense sq) : Dense (es.map .ent ++ sq) := by
  induction es with
  | nil => exact h
  | cons e es ih => exact ih

theorem Dense.append : ∀ {a b : List (Item κ E)}, Dense a → Dense b → Dense (a ++ b)
  | [], _, _, hb => hb
  | .ent _ :: a, _, ha, hb => Dense.append (a := a) ha hb
  | .sep _ :: a, b, ⟨⟨e, a', he⟩, ha⟩, hb => ⟨⟨e, a' ++ b, by rw [he]; rfl⟩, Dense.append ha hb⟩

theorem Dense.right : ∀ {a b : List (Item κ E)}, Dense (a ++ b) → Dense b
  | [], _, h => h
  | .ent _ :: a, _, h => Dense.right (a := a) h
  | .sep _ :: _, _, h => Dense.right h.2

/-- Another end that begins with an entry. -/
theorem Dense.change : ∀ {a b b' : List (Item κ E)}, Dense (a ++ b) → (∃ e q, b' = .ent e :: q) → Dense b' → Dense (a ++ b')
  | [], _, _, _, _, h => h
  | .ent _ :: a, _, _, h, h1, h2 => Dense.change (a := a) h h1 h2
  | [.sep _], _, _, _, h1, h2 => ⟨h1, h2⟩
  | .sep _ :: i :: a, b, b', ⟨⟨e, q, he⟩, h⟩, h1, h2 =>
    ⟨⟨e, a ++ b', by
      have he : i :: (a ++ b) = .ent e :: q := he
      cases he; rfl⟩, Dense.change (a := i :: a) h h1 h2⟩

/-- A well-formed tree with all leaves equally far below the root and none empty but the first. -/
structure Bt (Y : Layout κ E) (k : Kid κ E) : Prop where
  tr : Tr Y k
  even : Even k
  full : Dense k.sq

instance {k : Kid κ E} : Coe (Bt Y k) (Tr Y k) := ⟨Bt.tr⟩

theorem Bt.leaf (k : Kid κ E) (h : Y.Leaf k) (hd : k.dep = {0} := by rfl) (hq : ∃ es : List E, k.sq = es.map .ent := by exact ⟨_, rfl⟩) :
    Bt Y k :=
  ⟨.leaf k h, ⟨0, fun x hx => by rw [hd] at hx; simpa using hx⟩, by
    obtain ⟨es, e⟩ := hq
    have := dense_ents (κ := κ) es (sq := []) trivial
    rwa [List.append_nil, ← e] at this⟩

theorem Bt.page {k : Kid κ E} (h : Bt Y k) : ∃ n Q, k.pg = {(k.id, n)} + Q := h.tr.page

/-- Replacing a leaf by one or two leaves and going up keeps the tree even. -/
theorem even_up {fs : List (Fr κ E)} {k t1 T U : Kid κ E} {s S : Promo κ E} (hK : Even (plug Y.ops fs k))
    (hk : k.dep = {0}) (h1 : t1.dep = {0}) (h2 : ∀ x ∈ s.rights, x.2.dep = {0})
    (hT : T.dep + rdep S.rights = deeper fs.length (t1.dep + rdep s.rights) + sdep fs)
    (hU : ∃ n, U.dep = deeper n (T.dep + rdep S.rights)) : Even U := by
  obtain ⟨n, hn⟩ := hK
  rw [plug_dep, hk] at hn
  have hl : fs.length = n := hn _ (Multiset.mem_add.mpr (.inl (mem_deeper.mpr ⟨0, by simp, by omega⟩)))
  obtain ⟨j, hj⟩ := hU
  refine ⟨n + j, fun x hx => ?_⟩
  rw [hj, hT, mem_deeper] at hx
  obtain ⟨y, hy, rfl⟩ := hx
  rcases Multiset.mem_add.mp hy with hy | hy
  · obtain ⟨z, hz, rfl⟩ := mem_deeper.mp hy
    have : z = 0 := by
      rw [h1] at hz
      rcases Multiset.mem_add.mp hz with hz | hz
      · simpa using hz
      · cases s with
        | none => simp [Promo.rights] at hz
        | some x =>
          have := h2 x (by simp [Promo.rights])
          simpa [Promo.rights, this] using hz
    omega
  · rw [hn y (Multiset.mem_add.mpr (.inr hy))]

end Uma.Page
