import Verif.Page.Tsn
import Verif.Page.Tracking
import Verif.Mvcc.Sort

/-!
# The free list: putting pages in (umadb-core/src/mvcc.rs 1371-1790, free_lists_tree_nodes.rs)
-/

namespace Uma.Page
open Uma.Codec

/-- Parameters of the free-list tree. -/
def freeOps : Ops Nat where
  inner := .freeInternal
  un
    | .freeInternal keys kids => some (keys, kids)
    | _ => none
  isLeaf
    | .freeLeaf _ _ => true
    | _ => false
  rightmost := true
  always := true
  minKeys := 3
  splitPos n := n - 2

/-- `FreePageIDInsertStrategy`, mvcc.rs 930-943. -/
inductive FreePlan where
  | pushTsn
  | pushId (i : Nat)
  | subtree
  | move
  | split
  | promote
  deriving DecidableEq, Repr

/-- mvcc.rs 1390-1427.  `size + 26` and `size + 8` are free_lists_tree_nodes.rs 118-141. -/
def freePlan (kw maxNode tsn : Nat) : Node → Except Err FreePlan
  | .freeLeaf keys values =>
    match keys.getLast? with
    | none =>
      if nodeSize kw (.freeLeaf keys values) + 26 ≤ maxNode then .ok .pushTsn
      else .error (.internal "Page size too small")
    | some last =>
      if tsn = last then
        match values[keys.length - 1]? with
        | none => .error (.panic "index out of bounds")
        | some v =>
          if v.root ≠ 0 then .ok .subtree
          else if nodeSize kw (.freeLeaf keys values) + 8 ≤ maxNode then .ok (.pushId (keys.length - 1))
          else if keys.length = 1 then .ok .move
          else .ok .split
      else if last < tsn then
        if nodeSize kw (.freeLeaf keys values) + 26 ≤ maxNode then .ok .pushTsn else .ok .promote
      else .error (.internal "Insertion only supported for last TSN in leaf")
  | _ => .error (.databaseCorrupted "Expected FreeListInternal node")

/-- `push_new_key_and_value`, free_lists_tree_nodes.rs 124-131. -/
def freePush (tsn p : Nat) : Node → Except Err (Unit × Node)
  | .freeLeaf keys values => .ok ((), .freeLeaf (keys ++ [tsn]) (values ++ [⟨[p], 0⟩]))
  | _ => .error (.databaseCorrupted "Expected FreeListLeaf node")

/-- `push_new_page_id`, free_lists_tree_nodes.rs 139-141. -/
def freePushId (i p : Nat) : Node → Except Err (Unit × Node)
  | .freeLeaf keys values =>
    match values[i]? with
    | none => .error (.panic "index out of bounds")
    | some v => .ok ((), .freeLeaf keys (values.set i { v with pageIds := v.pageIds ++ [p] }))
  | _ => .error (.databaseCorrupted "Expected FreeListLeaf node")

/-- `pop_last_key_and_value`, free_lists_tree_nodes.rs 143-153. -/
def freePop : Node → Except Err ((Nat × FreeValue) × Node)
  | .freeLeaf keys values =>
    match keys.getLast?, values.getLast? with
    | some k, some v => .ok ((k, v), .freeLeaf keys.dropLast values.dropLast)
    | _, _ => .error (.panic "FreeListLeafNode should have at least one key")
  | _ => .error (.databaseCorrupted "Expected FreeListLeaf node")

/-- The last entry of a leaf and its index, mvcc.rs 1463-1464 and 1489-1490. -/
def freeLast : Node → Except Err (Nat × FreeValue)
  | .freeLeaf keys values =>
    if keys.length = 0 then .error (.panic "attempt to subtract with overflow")
    else match values[keys.length - 1]? with
      | none => .error (.panic "index out of bounds")
      | some v => .ok (keys.length - 1, v)
  | _ => .error (.databaseCorrupted "Expected FreeListLeaf node")

/-- `values[i].root_id = root`, mvcc.rs 1480. -/
def freeSetRoot (i root : Nat) : Node → Except Err (Unit × Node)
  | .freeLeaf keys values =>
    match values[i]? with
    | none => .error (.panic "index out of bounds")
    | some v => .ok ((), .freeLeaf keys (values.set i { v with root := root }))
  | _ => .error (.databaseCorrupted "Expected FreeListLeaf node")

/-- Clearing the page ids and setting the root, mvcc.rs 1534-1535. -/
def freeSetSub (i root : Nat) : Node → Except Err (Unit × Node)
  | .freeLeaf keys values =>
    match values[i]? with
    | none => .error (.panic "index out of bounds")
    | some _ => .ok ((), .freeLeaf keys (values.set i ⟨[], root⟩))
  | _ => .error (.databaseCorrupted "Expected FreeListLeaf node")

def ofExcept {α} (x : Except Err α) : W α := fun w => (x, w)

/-- mvcc.rs 1465-1482: insert into the subtree at `root` of entry `i`. -/
def freeSubtreeAt (d p i root : Nat) : W Unit :=
  if root = 0 then fail (.databaseCorrupted "Expected TSN-subtree root_id to be set")
  else do
    let r ← tsnInsert root p
    if r ≠ root then modDirty d (freeSetRoot i r) else pure ()

/-- `PushPageIdOntoExistingTsnSubtree`, mvcc.rs 1455-1482. -/
def freeSubtree (d p : Nat) : W Unit := do
  let n ← getPage d
  let v ← ofExcept (freeLast n)
  freeSubtreeAt d p v.1 v.2.root

/-- `Vec::dedup`. -/
def dedup : List Nat → List Nat
  | [] => []
  | [a] => [a]
  | a :: b :: l => if a = b then dedup (b :: l) else a :: dedup (b :: l)

/-- As many ids as fit on one page, mvcc.rs 1499-1513. -/
def tsnFill (kw ps : Nat) (acc : List Nat) : List Nat → List Nat
  | [] => acc
  | x :: l => if pageSizeOf kw (.tsnLeaf (acc ++ [x])) ≤ ps then tsnFill kw ps (acc ++ [x]) l else acc

/-- mvcc.rs 1523-1527. -/
def tsnInsertAll (root : Nat) : List Nat → W Nat
  | [] => pure root
  | x :: l => do
    let r ← tsnInsert root x
    tsnInsertAll r l

/-- mvcc.rs 1514-1540: `first` goes to the first page of the new subtree, the rest of `l` is inserted. -/
def freeMoveAt (d i : Nat) (l first : List Nat) : W Unit :=
  if first.isEmpty then fail (.internal "Page size too small for TSN-subtree leaf with one PageID")
  else do
    let c ← newPage (.tsnLeaf first)
    let r ← tsnInsertAll c (l.filter fun x => !first.contains x)
    modDirty d (freeSetSub i r)

/-- The ids to move, sorted and without duplicates, mvcc.rs 1492-1496. -/
def moveIds (l : List Nat) : List Nat := dedup (Mvcc.sortBy (fun a b => decide (a ≤ b)) l)

/-- `MoveTsnToNewTsnSubtree`, mvcc.rs 1483-1540. -/
def freeMove (d p : Nat) : W Unit := do
  let n ← getPage d
  let v ← ofExcept (freeLast n)
  let w ← getW
  freeMoveAt d v.1 (moveIds (v.2.pageIds ++ [p])) (tsnFill w.kw w.pageSize [] (moveIds (v.2.pageIds ++ [p])))

/-- mvcc.rs 1452-1634.  The result is the promoted key and page. -/
def freeDo (d tsn p : Nat) : FreePlan → W (Option (Nat × Nat))
  | .pushTsn => do
    modDirty d (freePush tsn p)
    pure none
  | .pushId i => do
    modDirty d (freePushId i p)
    pure none
  | .subtree => do
    freeSubtree d p
    pure none
  | .move => do
    freeMove d p
    pure none
  | .split => do
    let x ← modDirty d freePop
    let c ← newPage (.freeLeaf [x.1] [{ x.2 with pageIds := x.2.pageIds ++ [p] }])
    pure (some (tsn, c))
  | .promote => do
    let c ← newPage (.freeLeaf [tsn] [⟨[p], 0⟩])
    pure (some (tsn, c))

/-- `insert_freed_page_id`, mvcc.rs 1371-1790. -/
def freeInsert (tsn p : Nat) : W Unit := do
  let w ← getW
  let leaf ← descend freeOps pickLast w.nextPage w.freeRoot []
  let n ← getPage leaf.1
  let plan ← ofExcept (freePlan w.kw w.maxNode tsn n)
  let d ← getDirty leaf.1
  let s ← freeDo d tsn p plan
  let root ← finish freeOps w.freeRoot leaf.2 leaf.1 d s
  modW fun w => { w with freeRoot := root }

/-! ## The tree -/

/-- An entry of a leaf: key and value, all page ids, and the pages of the subtree. -/
structure FreeEnt where
  tsn : Nat
  root : Nat
  inl : List Nat
  pids : List Nat
  pg : Multiset (Nat × Node)

def FreeEnt.val (e : FreeEnt) : FreeValue := ⟨e.inl, e.root⟩

/-- The page ids are in the leaf or in a subtree. -/
def FreeOk (kw ps : Nat) (hps : 1024 ≤ ps) (e : FreeEnt) : Prop :=
  (e.root = 0 ∧ e.inl = e.pids ∧ e.pg = 0 ∧ e.pids ≠ []) ∨
    (e.root ≠ 0 ∧ e.inl = [] ∧ TsnRep kw ps hps e.root e.pg e.pids)

def frNode (es : List FreeEnt) : Node := .freeLeaf (es.map (·.tsn)) (es.map (·.val))

def frPg (es : List FreeEnt) : Multiset (Nat × Node) := (es.map (·.pg)).sum

@[simp] theorem frPg_append (a b : List FreeEnt) : frPg (a ++ b) = frPg a + frPg b := by simp [frPg]
@[simp] theorem frPg_cons (e : FreeEnt) (b : List FreeEnt) : frPg (e :: b) = e.pg + frPg b := by simp [frPg]
@[simp] theorem frPg_nil : frPg [] = 0 := rfl

theorem mem_frPg {e : FreeEnt} {es : List FreeEnt} (h : e ∈ es) : e.pg ≤ frPg es := by
  obtain ⟨a, b, rfl⟩ := List.append_of_mem h
  rw [frPg_append, frPg_cons]
  exact le_of_eq_add (frPg a + frPg b) (by abel)

def frKid (id : Nat) (es : List FreeEnt) : Kid Nat FreeEnt where
  id := id
  pg := {(id, frNode es)} + frPg es
  sq := es.map .ent

theorem frNode_size (kw : Nat) (es : List FreeEnt) :
    pageSizeOf kw (frNode es) = 11 + (es.map fun e => 18 + 8 * e.inl.length).sum := by
  simp only [pageSizeOf, pageHeaderSize, frNode, nodeSize, List.length_map, List.map_map]
  have : ∀ es : List FreeEnt, es.length * 8 +
      (es.map ((fun v : FreeValue => 2 + v.pageIds.length * 8 + 8) ∘ fun e => e.val)).sum =
      (es.map fun e => 18 + 8 * e.inl.length).sum := by
    intro es
    induction es with
    | nil => rfl
    | cons e es ih =>
      simp only [List.map_cons, List.sum_cons, List.length_cons, Function.comp, FreeEnt.val] at ih ⊢
      omega
  have := this es
  omega

theorem frNode_nodeSize (kw : Nat) (es : List FreeEnt) :
    nodeSize kw (frNode es) = 2 + (es.map fun e => 18 + 8 * e.inl.length).sum := by
  have := frNode_size kw es
  simp only [pageSizeOf, pageHeaderSize] at this
  omega

/-- A leaf that is not empty. -/
def FrLeaf (kw ps : Nat) (hps : 1024 ≤ ps) (k : Kid Nat FreeEnt) : Prop :=
  ∃ es, es ≠ [] ∧ k = frKid k.id es ∧ (∀ e ∈ es, FreeOk kw ps hps e) ∧ pageSizeOf kw (frNode es) ≤ ps

theorem freeInner_size (kw : Nat) (keys kids : List Nat) (h : kids.length = keys.length + 1) :
    pageSizeOf kw (.freeInternal keys kids) = 21 + 16 * keys.length := by
  simp [pageSizeOf, pageHeaderSize, nodeSize, h]; omega

def frLayout (kw ps : Nat) (hps : 1024 ≤ ps) : Layout Nat FreeEnt where
  ops := freeOps
  kw := kw
  ps := ps
  Leaf := FrLeaf kw ps hps
  kfit _ := True
  fit keys := 1 ≤ keys.length ∧ 21 + 16 * keys.length ≤ ps
  un_inner _ _ := rfl
  inner_leaf _ _ := rfl
  leaf_page k h := by
    obtain ⟨es, _, e, _, _⟩ := h
    exact ⟨frNode es, frPg es, by rw [e]; rfl, rfl⟩
  fit_kfit _ _ _ _ := trivial
  fit_one k _ := by simp; omega
  fit_over _ keys kids hl hf := by
    show pageSizeOf kw (.freeInternal keys kids) ≤ ps
    rw [freeInner_size _ _ _ hl]; exact hf.2
  fit_ins a b k kids hl _ _ hs := by
    have hs : pageSizeOf kw (.freeInternal (a ++ k :: b) kids) ≤ ps := hs
    rw [freeInner_size _ _ _ hl] at hs
    exact ⟨by simp; omega, hs⟩
  fit_split a b k kids hl hf _ hs := by
    have hs : ps < pageSizeOf kw (.freeInternal (a ++ k :: b) kids) := hs
    rw [freeInner_size _ _ _ hl] at hs
    simp only [List.length_append, List.length_cons] at hf hs
    show 3 ≤ (a ++ k :: b).length ∧ (a ++ k :: b).length - 2 < (a ++ k :: b).length ∧
      (1 ≤ ((a ++ k :: b).take ((a ++ k :: b).length - 2)).length ∧
        21 + 16 * ((a ++ k :: b).take ((a ++ k :: b).length - 2)).length ≤ ps) ∧
      (1 ≤ ((a ++ k :: b).drop ((a ++ k :: b).length - 2 + 1)).length ∧
        21 + 16 * ((a ++ k :: b).drop ((a ++ k :: b).length - 2 + 1)).length ≤ ps)
    simp only [List.length_take, List.length_drop, List.length_append, List.length_cons]
    omega

theorem frLeaf_ent {kw ps : Nat} {hps : 1024 ≤ ps} (k : Kid Nat FreeEnt) (h : FrLeaf kw ps hps k) :
    ∀ e ∈ ents k.sq, e.pg ≤ k.pg := by
  obtain ⟨es, _, hk, _⟩ := h
  intro e he
  rw [hk] at he ⊢
  simp only [frKid, ents_map] at he ⊢
  exact (mem_frPg he).trans (Multiset.le_add_left _ _)

/-- The root page and the pages `P` hold the entries `es`; only the root may be an empty leaf. -/
def FreeTree (kw ps : Nat) (hps : 1024 ≤ ps) (root : Nat) (P : Multiset (Nat × Node)) (es : List FreeEnt) : Prop :=
  (∃ K, Tr (frLayout kw ps hps) K ∧ root = K.id ∧ P = K.pg ∧ es = ents K.sq ∧ Strict FreeEnt.tsn K.sq) ∨
    (es = [] ∧ P = {(root, frNode [])})

/-- Pairs of a page and the transaction that freed it. -/
def freeSet (es : List FreeEnt) : Multiset (Nat × Nat) := ↑(es.flatMap fun e => e.pids.map fun p => (p, e.tsn))

theorem freeSet_append (a b : List FreeEnt) : freeSet (a ++ b) = freeSet a + freeSet b := by
  simp [freeSet]

theorem freeSet_perm {a b : List FreeEnt} (h : a.Perm b) : freeSet a = freeSet b :=
  Multiset.coe_eq_coe.mpr (h.flatMap_right _)

theorem freeSet_one (e : FreeEnt) : freeSet [e] = ↑(e.pids.map fun p => (p, e.tsn)) := by simp [freeSet]

theorem mem_freeSet {es : List FreeEnt} {x : Nat × Nat} : x ∈ freeSet es ↔ ∃ e ∈ es, e.tsn = x.2 ∧ x.1 ∈ e.pids := by
  obtain ⟨p, t⟩ := x
  simp only [freeSet, Multiset.mem_coe, List.mem_flatMap, List.mem_map, Prod.mk.injEq]
  constructor
  · rintro ⟨e, he, q, hq, rfl, rfl⟩; exact ⟨e, he, rfl, hq⟩
  · rintro ⟨e, he, h1, h2⟩; exact ⟨e, he, p, h2, rfl, h1⟩

/-- The pages of a subtree of this transaction are dirty; those of an old subtree have been read. -/
structure FrGood (Old : Nat → Prop) (w : Writer) (e : FreeEnt) : Prop where
  cur : e.tsn = w.tsn → ∀ p ∈ ids e.pg, IsDirty w p
  old : Old e.tsn → ∀ p ∈ ids e.pg, Loaded w p

theorem FrGood.keep0 {Old : Nat → Prop} {w w' : Writer} {e : FreeEnt} {R : Multiset (Nat × Node)} (h : FrGood Old w e)
    (hk : Keep0 R w w') (hle : e.pg ≤ R) : FrGood Old w' e :=
  ⟨fun ht p hp => hk.dirty p (Multiset.mem_of_le (Multiset.map_le_map hle) hp) (h.cur (ht.trans hk.step.tsn) p hp),
    fun ho p hp => hk.loaded p (Multiset.mem_of_le (Multiset.map_le_map hle) hp) (h.old ho p hp)⟩

/-- The free list of the writer: its pages are `P` and it holds `F`. -/
def FreeRep (kw ps : Nat) (hps : 1024 ≤ ps) (Old : Nat → Prop) (w : Writer) (P : Multiset (Nat × Node))
    (F : Multiset (Nat × Nat)) : Prop :=
  ∃ es, FreeTree kw ps hps w.freeRoot P es ∧ (∀ e ∈ es, FrGood Old w e) ∧ F = freeSet es

variable {w : Writer} {A : Nat → Prop} {X : Multiset Nat} {Q : Multiset (Nat × Node)}

theorem FreeTree.ent_le {kw ps : Nat} {hps : 1024 ≤ ps} {root : Nat} {P : Multiset (Nat × Node)} {es : List FreeEnt}
    (h : FreeTree kw ps hps root P es) : ∀ e ∈ es, e.pg ≤ P := by
  rcases h with ⟨K, hK, rfl, rfl, rfl, _⟩ | ⟨rfl, rfl⟩
  · exact hK.ent_le (pg := FreeEnt.pg) frLeaf_ent
  · simp

/-- Operations that do not touch the free list. -/
theorem FreeRep.keep {kw ps : Nat} {hps : 1024 ≤ ps} {Old : Nat → Prop} {w w' : Writer} {P R : Multiset (Nat × Node)}
    {F : Multiset (Nat × Nat)} (h : FreeRep kw ps hps Old w P F) (hk : Keep0 R w w') (hle : P ≤ R) :
    FreeRep kw ps hps Old w' P F := by
  obtain ⟨es, h1, h2, h3⟩ := h
  exact ⟨es, by rw [hk.step.freeRoot]; exact h1, fun e he => (h2 e he).keep0 hk ((h1.ent_le e he).trans hle), h3⟩

/-! ## Inserting -/

theorem ofExcept_ok {α} {x : Except Err α} {a : α} (h : x = .ok a) {Q : α → Writer → Prop} (hq : Q a w) :
    Run (ofExcept x) w Q := ⟨a, w, by rw [h]; rfl, hq⟩

/-- `dedup` loses no value and invents none. -/
theorem mem_dedup {l : List Nat} {x : Nat} : x ∈ dedup l ↔ x ∈ l := by
  fun_induction dedup l with
  | case1 => simp
  | case2 a => simp
  | case3 a l ih => simp [ih]
  | case4 a b l _ ih => simp [ih]

/-- What `dedup` makes of a sorted list has no value twice. -/
theorem dedup_strict {l : List Nat} (h : l.Pairwise (· ≤ ·)) : (dedup l).Pairwise (· < ·) := by
  fun_induction dedup l with
  | case1 => simp
  | case2 a => simp
  | case3 a l ih => exact ih (List.pairwise_cons.mp h).2
  | case4 a b l hne ih =>
    obtain ⟨h1, h2⟩ := List.pairwise_cons.mp h
    refine List.pairwise_cons.mpr ⟨fun x hx => ?_, ih h2⟩
    have hb := h1 b (by simp)
    rcases List.mem_cons.mp (mem_dedup.mp hx) with rfl | hx
    · omega
    · have := (List.pairwise_cons.mp h2).1 x hx; omega

example : dedup [3, 3, 4, 7, 7, 7] = [3, 4, 7] := by decide

theorem dedup_sorted {l : List Nat} (h : l.Pairwise (· < ·)) : dedup l = l := by
  induction l with
  | nil => rfl
  | cons a l ih =>
    cases l with
    | nil => rfl
    | cons b l =>
      obtain ⟨h1, h2⟩ := List.pairwise_cons.mp h
      have := h1 b (by simp)
      simp only [dedup]
      rw [if_neg (by omega), ih h2]

theorem tsnFill_all (kw ps : Nat) (l : List Nat) : ∀ acc : List Nat, 11 + 8 * (acc ++ l).length ≤ ps →
    tsnFill kw ps acc l = acc ++ l := by
  induction l with
  | nil => intro acc _; simp [tsnFill]
  | cons x l ih =>
    intro acc h
    simp only [tsnFill]
    simp only [List.length_append, List.length_cons] at h
    rw [if_pos (by rw [tsnLeaf_size]; simp; omega), ih _ (by simp; omega)]
    simp

theorem sort_strict {l : List Nat} (h : l.Nodup) :
    (Mvcc.sortBy (fun a b => decide (a ≤ b)) l).Pairwise (· < ·) := by
  have h1 : (Mvcc.sortBy (fun a b => decide (a ≤ b)) l).Pairwise fun x y => decide (x ≤ y) = true :=
    Mvcc.sortBy_sorted (by intro a b c; simp; omega) (by intro a b; simp; omega) l
  have h2 := (Mvcc.sortBy_perm (fun a b => decide (a ≤ b)) l).nodup_iff.mpr h
  have h3 := h1.and h2
  refine h3.imp ?_
  rintro a b ⟨h4, h5⟩
  simp only [decide_eq_true_eq] at h4
  omega

theorem frNode_last (a : List FreeEnt) (o : FreeEnt) :
    freeLast (frNode (a ++ [o])) = .ok (a.length, o.val) := by
  simp [freeLast, frNode]

theorem frNode_set (a : List FreeEnt) (o o' : FreeEnt) (h : o'.tsn = o.tsn) :
    frNode (a ++ [o']) = .freeLeaf ((a ++ [o]).map (·.tsn)) (((a ++ [o]).map (·.val)).set a.length o'.val) := by
  simp [frNode, h]

theorem frNode_get (a : List FreeEnt) (o : FreeEnt) : ((a ++ [o]).map (·.val))[a.length]? = some o.val := by simp

/-- What the change of the leaf `d` amounts to. -/
structure FreePut (kw ps : Nat) (hps : 1024 ≤ ps) (A : Nat → Prop) (X : Multiset Nat) (R : Multiset (Nat × Node))
    (w : Writer) (d tsn p : Nat) (es : List FreeEnt) (sref : Option (Nat × Nat)) (w' : Writer) (t1 : Kid Nat FreeEnt)
    (s : Promo Nat FreeEnt) (a m : List FreeEnt) (e : FreeEnt) (n : Option Nat) : Prop where
  before : es = a ++ m
  below : ∀ x ∈ a, x.tsn < tsn
  old : (m = [] ∧ e.pids = [p]) ∨ ∃ o, m = [o] ∧ o.tsn = tsn ∧ e.pids.Perm (p :: o.pids)
  key : e.tsn = tsn
  sref : sref = s.ref
  id : t1.id = d
  tree : Tr (frLayout kw ps hps) t1
  promo : PromoOk (frLayout kw ps hps) s
  sq : t1.sq ++ rsq s.rights = splitSq FreeEnt.tsn (a ++ [e]) n
  pos : ∀ i ∈ n, 0 < i
  dirty : ∀ q ∈ ids e.pg, IsDirty w' q
  own : Own w' A X (t1.pg + rpg s.rights + R)
  keep : Keep (frPg a + R) w w'

theorem freeDo_spec {kw ps : Nat} {hps : 1024 ≤ ps} {d tsn p : Nat} {es : List FreeEnt} {R : Multiset (Nat × Node)}
    (hkw : w.kw = kw) (hpz : w.pageSize = ps) (hes : ∀ e ∈ es, FreeOk kw ps hps e)
    (hkeys : (es.map (·.tsn)).Pairwise (· < ·)) (hle : ∀ e ∈ es, e.tsn ≤ tsn) (hsz : pageSizeOf kw (frNode es) ≤ ps)
    (hnew : ∀ o ∈ es, o.tsn = tsn → p ∉ o.pids) (hnd : ∀ o ∈ es, o.pids.Nodup)
    (hgood : ∀ o ∈ es, o.tsn = tsn → ∀ q ∈ ids o.pg, IsDirty w q)
    (hw : Own w A X ({(d, frNode es)} + (frPg es + R))) (hd : IsDirty w d) :
    ∃ plan, freePlan kw (ps - pageHeaderSize) tsn (frNode es) = .ok plan ∧
      Run (freeDo d tsn p plan) w fun sref w' => ∃ t1 s a m e n,
        FreePut kw ps hps A X R w d tsn p es sref w' t1 s a m e n := by
  have hh : pageHeaderSize = 9 := rfl
  have hns := frNode_nodeSize kw es
  have hps2 := frNode_size kw es
  rcases List.eq_nil_or_concat es with rfl | ⟨a, o, rfl⟩
  · -- an empty leaf
    refine ⟨.pushTsn, ?_, ?_⟩
    · show (if nodeSize kw (frNode []) + 26 ≤ _ then _ else _) = _
      rw [if_pos (by rw [hns, hh]; simp; omega)]
    · show Run (do modDirty d (freePush tsn p); Pure.pure none) w _
      refine (modDirty_spec (a := ()) (n' := frNode [⟨tsn, 0, [p], [p], 0⟩]) hw hd rfl).andThen ?_
      rintro _ w1 ⟨-, h1, k1, d1⟩
      refine .pure ⟨frKid d [⟨tsn, 0, [p], [p], 0⟩], none, [], [], ⟨tsn, 0, [p], [p], 0⟩, none, rfl, by simp, .inl ⟨rfl, rfl⟩, rfl, rfl, rfl,
        .leaf _ ⟨_, by simp, rfl, ?_, ?_⟩, .none, by simp [frKid, splitSq, Promo.rights], by simp, by simp, h1.congr ?_, k1⟩
      · intro e he; cases List.mem_singleton.mp he; exact .inl ⟨rfl, rfl, rfl, by simp⟩
      · rw [frNode_size]; simp; omega
      · simp [frKid, Promo.rights]
  · simp only [List.concat_eq_append] at *
    have hsum : ((a ++ [o]).map fun e => 18 + 8 * e.inl.length).sum =
        (a.map fun e => 18 + 8 * e.inl.length).sum + (18 + 8 * o.inl.length) := by simp
    rw [hsum] at hns hps2
    have hlast : ((a ++ [o]).map (·.tsn)).getLast? = some o.tsn := by simp
    have hplan : freePlan kw (ps - pageHeaderSize) tsn (frNode (a ++ [o])) =
        if tsn = o.tsn then
          if o.root ≠ 0 then .ok .subtree
          else if nodeSize kw (frNode (a ++ [o])) + 8 ≤ ps - pageHeaderSize then .ok (.pushId a.length)
          else if a = [] then .ok .move
          else .ok .split
        else if o.tsn < tsn then
          if nodeSize kw (frNode (a ++ [o])) + 26 ≤ ps - pageHeaderSize then .ok .pushTsn else .ok .promote
        else .error (.internal "Insertion only supported for last TSN in leaf") := by
      have hlen : ((a ++ [o]).map (·.tsn)).length - 1 = a.length := by simp
      have hone : ((a ++ [o]).map (·.tsn)).length = 1 ↔ a = [] := by simp
      rw [frNode]
      simp only [freePlan, hlast, hlen, frNode_get, hone]
      rfl
    rw [hplan]
    have ho := hes o (by simp)
    have hole := hle o (by simp)
    have hba : ∀ x ∈ a, x.tsn < o.tsn := by
      intro x hx
      rw [List.map_append, List.pairwise_append] at hkeys
      exact hkeys.2.2 x.tsn (List.mem_map_of_mem hx) o.tsn (by simp)
    have hba2 : o.tsn < tsn → ∀ x ∈ a ++ [o], x.tsn < tsn := by
      intro h x hx
      rcases List.mem_append.mp hx with hx | hx
      · have := hba x hx; omega
      · cases List.mem_singleton.mp hx; exact h
    have hea : ∀ e ∈ a, FreeOk kw ps hps e := fun e he => hes e (by simp [he])
    have hpga : frPg (a ++ [o]) = frPg a + o.pg := by simp
    by_cases ht : tsn = o.tsn
    · rw [if_pos ht]
      have hnew' := hnew o (by simp) ht.symm
      have hsame : ∀ e : FreeEnt, e.tsn = o.tsn → FreeOk kw ps hps e → e.inl.length ≤ o.inl.length → e.pids.Perm (p :: o.pids) →
          ∀ w1, Own w1 A X ({(d, frNode (a ++ [e]))} + (frPg (a ++ [e]) + R)) → (∀ q ∈ ids e.pg, IsDirty w1 q) →
          Keep (frPg a + R) w w1 →
          ∃ t1 s a' m e' n, FreePut kw ps hps A X R w d tsn p (a ++ [o]) none w1 t1 s a' m e' n := by
        intro e het heo hei hep w1 h1 hdi k1
        refine ⟨frKid d (a ++ [e]), none, a, [o], e, none, rfl, ht ▸ hba, .inr ⟨o, rfl, ht.symm, hep⟩, het.trans ht.symm, rfl, rfl,
          .leaf _ ⟨_, by simp, rfl, ?_, ?_⟩, .none, by simp [frKid, splitSq, Promo.rights], by simp, hdi, h1.congr ?_, k1⟩
        · intro x hx
          rcases List.mem_append.mp hx with hx | hx
          · exact hea x hx
          · cases List.mem_singleton.mp hx; exact heo
        · rw [frNode_size]
          simp only [List.map_append, List.sum_append, List.map_cons, List.map_nil, List.sum_cons, List.sum_nil]
          omega
        · simp only [frKid, Promo.rights, rpg_nil]; abel
      by_cases hr : o.root ≠ 0
      · -- into the subtree
        rw [if_pos hr]
        refine ⟨.subtree, rfl, ?_⟩
        obtain ⟨hinl, hrep⟩ : o.inl = [] ∧ TsnRep kw ps hps o.root o.pg o.pids := by
          rcases ho with ho | ho
          · exact absurd ho.1 hr
          · exact ho.2
        show Run (do freeSubtree d p; Pure.pure none) w _
        refine Run.andThen (Q := fun _ w' => ∃ t1 s a' m e' n,
          FreePut kw ps hps A X R w d tsn p (a ++ [o]) none w' t1 s a' m e' n) ?_ (fun _ _ h => .pure h)
        unfold freeSubtree
        refine (getPage_spec (n := frNode (a ++ [o])) hw (by simp)).andThen ?_
        rintro _ w1 ⟨rfl, h1, k1, -⟩
        refine Run.andThen (Q := fun v w' => v = (a.length, o.val) ∧ w' = w1) (ofExcept_ok (frNode_last a o) ⟨rfl, rfl⟩) ?_
        intro v w1' hv
        rw [hv.1, hv.2]
        show Run (freeSubtreeAt d p a.length o.root) w1 _
        unfold freeSubtreeAt
        rw [if_neg hr]
        have h1' : Own w1 A X (o.pg + ({(d, frNode (a ++ [o]))} + (frPg a + R))) := h1.congr (by rw [hpga]; abel)
        refine (tsnInsert_spec hrep (by rw [k1.step.kw, hkw]) (by rw [k1.step.pageSize, hpz]) hnew' h1' (fun q hq => k1.dirty q ?_
          (hgood o (by simp) ht.symm q hq))).andThen ?_
        · rw [hpga]; simp [hq]
        rintro r w2 ⟨P', l', hrep', hperm, h2, hdi, k2⟩
        have hd2 : IsDirty w2 d := k2.dirty d (by simp) (k1.dirty d (by simp) hd)
        have hr0 : r ≠ 0 := by
          obtain ⟨K, hK, rfl, rfl, -⟩ := hrep'
          obtain ⟨n, Q', e⟩ := hK.page
          have := h2.lt (p := K.id) (by rw [e]; simp)
          omega
        have hgo : ∀ w3, Own w3 A X ({(d, frNode (a ++ [⟨o.tsn, r, [], l', P'⟩]))} + (P' + (frPg a + R))) →
            Keep (P' + (frPg a + R)) w2 w3 → ∃ t1 s a' m e' n,
              FreePut kw ps hps A X R w d tsn p (a ++ [o]) none w3 t1 s a' m e' n := by
          intro w3 h3 k3
          refine hsame ⟨o.tsn, r, [], l', P'⟩ rfl (.inr ⟨hr0, rfl, hrep'⟩) (by simp) hperm w3
            (h3.congr (by simp only [frPg_append, frPg_cons, frPg_nil]; abel))
            (fun q hq => k3.dirty q (by simp only [ids_add, Multiset.mem_add]; exact .inl hq) (hdi q hq)) ?_
          refine (k1.sub ?_).trans ((k2.sub (Multiset.le_add_left _ _)).trans (k3.sub (Multiset.le_add_left _ _)))
          rw [hpga]
          exact le_of_eq_add ({(d, frNode (a ++ [o]))} + o.pg) (by abel)
        by_cases hre : r ≠ o.root
        · rw [if_pos hre]
          have h2' : Own w2 A X ({(d, frNode (a ++ [o]))} + (P' + (frPg a + R))) := h2.congr (by abel)
          refine (modDirty_spec (a := ()) (n' := frNode (a ++ [⟨o.tsn, r, [], l', P'⟩])) h2' hd2 ?_).mono ?_
          · rw [frNode_set a o _ rfl, frNode]
            simp only [freeSetRoot]
            simp [FreeEnt.val, hinl]
          · rintro _ w3 ⟨-, h3, k3, -⟩
            exact hgo w3 h3 k3
        · rw [if_neg hre]
          have hre : r = o.root := not_not.mp hre
          refine .pure (hgo w2 (h2.congr ?_) (.refl _ _))
          have : frNode (a ++ [⟨o.tsn, r, [], l', P'⟩]) = frNode (a ++ [o]) := by
            simp [frNode, FreeEnt.val, hre, hinl]
          rw [this]; abel
      · rw [if_neg hr]
        have hr := not_not.mp hr
        obtain ⟨hinl, hopg, hne⟩ : o.inl = o.pids ∧ o.pg = 0 ∧ o.pids ≠ [] := by
          rcases ho with ho | ho
          · exact ho.2
          · exact absurd hr ho.1
        rw [hh, hns]
        by_cases hfit : 2 + ((a.map fun e => 18 + 8 * e.inl.length).sum + (18 + 8 * o.inl.length)) + 8 ≤ ps - 9
        · -- into the leaf
          rw [if_pos hfit]
          refine ⟨.pushId a.length, rfl, ?_⟩
          show Run (do modDirty d (freePushId a.length p); Pure.pure none) w _
          refine (modDirty_spec (a := ()) (n' := frNode (a ++ [⟨o.tsn, 0, o.inl ++ [p], o.pids ++ [p], 0⟩])) hw hd ?_).andThen ?_
          · rw [frNode_set a o _ rfl, frNode]
            simp only [freePushId]
            simp [FreeEnt.val, hr]
          · rintro _ w1 ⟨-, h1, k1, d1⟩
            refine .pure ⟨frKid d (a ++ [⟨o.tsn, 0, o.inl ++ [p], o.pids ++ [p], 0⟩]), none, a, [o],
              ⟨o.tsn, 0, o.inl ++ [p], o.pids ++ [p], 0⟩, none, rfl, ht ▸ hba, .inr ⟨o, rfl, ht.symm, List.perm_append_comm⟩, ht.symm, rfl, rfl,
              .leaf _ ⟨_, by simp, rfl, ?_, ?_⟩, .none, by simp [frKid, splitSq, Promo.rights], by simp, by simp,
              h1.congr ?_, k1.sub ?_⟩
            · intro x hx
              rcases List.mem_append.mp hx with hx | hx
              · exact hea x hx
              · cases List.mem_singleton.mp hx; exact .inl ⟨rfl, by simp [hinl], rfl, by simp⟩
            · rw [frNode_size]
              simp only [List.map_append, List.sum_append, List.map_cons, List.map_nil, List.sum_cons, List.sum_nil,
                List.length_append, List.length_cons, List.length_nil]
              omega
            · simp only [frKid, Promo.rights, rpg_nil, frPg_append, frPg_cons, frPg_nil, hopg]; abel
            · rw [hpga, hopg, add_zero]
        · rw [if_neg hfit]
          by_cases ha : a = []
          · -- the only entry moves to a subtree
            rw [if_pos ha]
            refine ⟨.move, rfl, ?_⟩
            subst ha
            show Run (do freeMove d p; Pure.pure none) w _
            refine Run.andThen (Q := fun _ w' => ∃ t1 s a' m e' n,
              FreePut kw ps hps A X R w d tsn p ([] ++ [o]) none w' t1 s a' m e' n) ?_ (fun _ _ h => .pure h)
            unfold freeMove
            refine (getPage_spec (n := frNode ([] ++ [o])) hw (by simp)).andThen ?_
            rintro _ w1 ⟨rfl, h1, k1, -⟩
            refine Run.andThen (Q := fun v w' => v = (0, o.val) ∧ w' = w1) (ofExcept_ok (frNode_last [] o) ⟨rfl, rfl⟩) ?_
            intro v w1' hv
            rw [hv.1, hv.2]
            refine .get ?_
            show Run (freeMoveAt d 0 (moveIds (o.inl ++ [p])) (tsnFill w1.kw w1.pageSize [] (moveIds (o.inl ++ [p])))) w1 _
            have hndp : (o.inl ++ [p]).Nodup := by
              rw [hinl]
              exact List.nodup_append.mpr ⟨hnd o (by simp), by simp, fun x hx y hy => by
                cases List.mem_singleton.mp hy; rintro rfl; exact hnew' hx⟩
            have hl : moveIds (o.inl ++ [p]) = _ := dedup_sorted (sort_strict hndp)
            have hperm := Mvcc.sortBy_perm (fun a b => decide (a ≤ b)) (o.inl ++ [p])
            have hsorted := sort_strict hndp
            rw [hl]
            generalize Mvcc.sortBy (fun a b => decide (a ≤ b)) (o.inl ++ [p]) = l at *
            have hlen : l.length = o.inl.length + 1 := by rw [hperm.length_eq]; simp
            simp only [List.map_nil, List.sum_nil, Nat.zero_add] at hps2
            have hfill : tsnFill w1.kw w1.pageSize [] l = l := by
              rw [tsnFill_all]
              · rfl
              · rw [k1.step.pageSize, hpz]; simp only [List.nil_append]; omega
            rw [hfill]
            unfold freeMoveAt
            have hlne : l ≠ [] := by rintro rfl; simp at hlen
            rw [if_neg (by simpa using hlne)]
            have hfil : (l.filter fun x => !l.contains x) = [] := by
              rw [List.filter_eq_nil_iff]; intro x hx; simp [hx]
            rw [hfil]
            refine (newPage_spec (.tsnLeaf l) h1).andThen ?_
            rintro c w2 ⟨h2, k2, d2⟩
            show Run (do let r ← Pure.pure c; modDirty d (freeSetSub 0 r)) w2 _
            refine Run.andThen (Q := fun r w' => r = c ∧ w' = w2) (.pure ⟨rfl, rfl⟩) ?_
            intro r w2' hv
            rw [hv.1, hv.2]
            have h2' : Own w2 A X ({(d, frNode ([] ++ [o]))} + ({(c, .tsnLeaf l)} + R)) := h2.congr (by
              rw [hpga, hopg, frPg_nil]; abel)
            have hd2 : IsDirty w2 d := k2.dirty d (by simp) (k1.dirty d (by simp) hd)
            have hc0 : c ≠ 0 := by
              have := h2.lt (p := c) (by simp)
              omega
            refine (modDirty_spec (a := ()) (n' := frNode ([] ++ [⟨o.tsn, c, [], l, {(c, .tsnLeaf l)}⟩])) h2' hd2 ?_).mono ?_
            · simp [frNode, freeSetSub, FreeEnt.val]
            · rintro _ w3 ⟨-, h3, k3, -⟩
              refine hsame ⟨o.tsn, c, [], l, {(c, .tsnLeaf l)}⟩ rfl (.inr ⟨hc0, rfl, tsnKid c l, .leaf _ ⟨_, hlne, rfl, by omega⟩,
                rfl, rfl, by simp [tsnKid], ?_⟩) (by simp) ?_ w3 (h3.congr (by simp)) ?_ ?_
              · show Strict id (l.map Item.ent)
                exact List.pairwise_map.mpr (hsorted.imp fun h => .inl h)
              · show l.Perm _
                rw [hinl] at hperm
                exact hperm.trans List.perm_append_comm
              · intro q hq
                rw [show q = c by simpa using hq]
                exact k3.dirty c (by simp) d2
              · rw [frPg_nil, zero_add]
                refine (k1.sub ?_).trans ((k2.sub ?_).trans (k3.sub (Multiset.le_add_left _ _)))
                · rw [← add_assoc]; exact Multiset.le_add_left _ _
                · rw [← add_assoc]; exact Multiset.le_add_left _ _
          · -- the last entry moves to a leaf of its own
            rw [if_neg ha]
            refine ⟨.split, rfl, ?_⟩
            show Run (do
              let x ← modDirty d freePop
              let c ← newPage (.freeLeaf [x.1] [{ x.2 with pageIds := x.2.pageIds ++ [p] }])
              Pure.pure (some (tsn, c))) w _
            refine (modDirty_spec (a := (o.tsn, o.val)) (n' := frNode a) hw hd ?_).andThen ?_
            · simp [frNode, freePop]
            rintro _ w1 ⟨rfl, h1, k1, d1⟩
            have hnode : Node.freeLeaf [o.tsn] [{ o.val with pageIds := o.val.pageIds ++ [p] }] =
                frNode [⟨o.tsn, 0, o.inl ++ [p], o.pids ++ [p], 0⟩] := by simp [frNode, FreeEnt.val, hr]
            show Run (do
              let c ← newPage (.freeLeaf [o.tsn] [{ o.val with pageIds := o.val.pageIds ++ [p] }])
              Pure.pure (some (tsn, c))) w1 _
            rw [hnode]
            refine (newPage_spec _ h1).andThen ?_
            rintro c w2 ⟨h2, k2, d2⟩
            have hsize : 18 ≤ (a.map fun e => 18 + 8 * e.inl.length).sum := by
              obtain ⟨x, a', rfl⟩ := List.exists_cons_of_ne_nil ha
              simp; omega
            refine .pure ⟨frKid d a, some (tsn, frKid c [⟨o.tsn, 0, o.inl ++ [p], o.pids ++ [p], 0⟩]), a, [o],
              ⟨o.tsn, 0, o.inl ++ [p], o.pids ++ [p], 0⟩, some a.length, rfl, ht ▸ hba,
              .inr ⟨o, rfl, ht.symm, List.perm_append_comm⟩, ht.symm, rfl, rfl, .leaf _ ⟨_, ha, rfl, hea, ?_⟩, ⟨?_, ?_⟩,
              ?_, ?_, by simp, h2.congr ?_, ?_⟩
            · rw [frNode_size]; omega
            · intro x hx
              cases List.mem_singleton.mp hx
              refine .leaf _ ⟨_, by simp, rfl, ?_, ?_⟩
              · intro e he; cases List.mem_singleton.mp he; exact .inl ⟨rfl, by simp [hinl], rfl, by simp⟩
              · rw [frNode_size]; simp; omega
            · intro x hx; trivial
            · simp [frKid, splitSq, Promo.rights, ht]
            · intro i hi; cases hi; exact List.length_pos_iff.mpr ha
            · simp only [frKid, Promo.rights, rpg_cons, rpg_nil, frPg_cons, frPg_nil, hpga, hopg]; abel
            · refine (k1.sub ?_).trans (k2.sub ?_)
              · rw [hpga, hopg, add_zero]
              · rw [hpga, hopg, add_zero]; exact Multiset.le_add_left _ _
    · rw [if_neg ht]
      have hlt : o.tsn < tsn := by omega
      rw [if_pos hlt, hh, hns]
      by_cases hfit : 2 + ((a.map fun e => 18 + 8 * e.inl.length).sum + (18 + 8 * o.inl.length)) + 26 ≤ ps - 9
      · -- a new entry in the leaf
        rw [if_pos hfit]
        refine ⟨.pushTsn, rfl, ?_⟩
        show Run (do modDirty d (freePush tsn p); Pure.pure none) w _
        refine (modDirty_spec (a := ()) (n' := frNode ((a ++ [o]) ++ [⟨tsn, 0, [p], [p], 0⟩])) hw hd ?_).andThen ?_
        · simp [frNode, freePush, FreeEnt.val]
        rintro _ w1 ⟨-, h1, k1, d1⟩
        refine .pure ⟨frKid d ((a ++ [o]) ++ [⟨tsn, 0, [p], [p], 0⟩]), none, a ++ [o], [], ⟨tsn, 0, [p], [p], 0⟩, none, by simp, hba2 hlt,
          .inl ⟨rfl, rfl⟩, rfl, rfl, rfl, .leaf _ ⟨_, by simp, rfl, ?_, ?_⟩, .none, by simp [frKid, splitSq, Promo.rights], by simp,
          by simp, h1.congr ?_, k1⟩
        · intro x hx
          rcases List.mem_append.mp hx with hx | hx
          · exact hes x hx
          · cases List.mem_singleton.mp hx; exact .inl ⟨rfl, rfl, rfl, by simp⟩
        · rw [frNode_size]
          simp only [List.map_append, List.sum_append, List.map_cons, List.map_nil, List.sum_cons, List.sum_nil,
            List.length_cons, List.length_nil]
          omega
        · simp only [frKid, Promo.rights, rpg_nil, frPg_append, frPg_cons, frPg_nil]; abel
      · -- a new leaf
        rw [if_neg hfit]
        refine ⟨.promote, rfl, ?_⟩
        have hnode : Node.freeLeaf [tsn] [⟨[p], 0⟩] = frNode [⟨tsn, 0, [p], [p], 0⟩] := rfl
        show Run (do
          let c ← newPage (.freeLeaf [tsn] [⟨[p], 0⟩])
          Pure.pure (some (tsn, c))) w _
        rw [hnode]
        refine (newPage_spec _ hw).andThen ?_
        rintro c w1 ⟨h1, k1, d1⟩
        refine .pure ⟨frKid d (a ++ [o]), some (tsn, frKid c [⟨tsn, 0, [p], [p], 0⟩]), a ++ [o], [], ⟨tsn, 0, [p], [p], 0⟩,
          some (a ++ [o]).length, by simp, hba2 hlt, .inl ⟨rfl, rfl⟩, rfl, rfl, rfl, .leaf _ ⟨_, by simp, rfl, hes, hsz⟩, ⟨?_, ?_⟩,
          ?_, ?_, by simp, h1.congr ?_, k1.sub (Multiset.le_add_left _ _)⟩
        · intro x hx
          cases List.mem_singleton.mp hx
          refine .leaf _ ⟨_, by simp, rfl, ?_, ?_⟩
          · intro e he; cases List.mem_singleton.mp he; exact .inl ⟨rfl, rfl, rfl, by simp⟩
          · rw [frNode_size]; simp; omega
        · intro x hx; trivial
        · generalize a ++ [o] = es
          simp [frKid, splitSq, Promo.rights]
        · intro i hi; cases hi; simp
        · simp only [frKid, Promo.rights, rpg_cons, rpg_nil, frPg_cons, frPg_nil]; abel

theorem TsnRep.ne_nil {kw ps : Nat} {hps : 1024 ≤ ps} {root : Nat} {P : Multiset (Nat × Node)} {l : List Nat}
    (h : TsnRep kw ps hps root P l) : l ≠ [] := by
  obtain ⟨K, hK, -, -, rfl, -⟩ := h
  clear * - hK
  induction hK with
  | leaf k hk =>
    obtain ⟨l, hne, hk, -⟩ := hk
    rw [hk]
    simpa [tsnKid] using hne
  | node id m R hm hR hf ihm ihR => simp [nodeKid, ihm]

/-- The last leaf of the tree, what is left of it, and how to get there. -/
theorem freeLeaf_spec {kw ps : Nat} {hps : 1024 ≤ ps} {P : Multiset (Nat × Node)} {es : List FreeEnt} {root : Nat}
    (h : FreeTree kw ps hps root P es) (hw : Own w A X (P + Q)) (hcard : P.card ≤ w.nextPage) :
    ∃ (fs : List (Fr Nat FreeEnt)) (c : Nat) (l : List FreeEnt), rootOf fs c = root ∧
      P = {(c, frNode l)} + (frPg l + fpg freeOps fs c) ∧ es = ents (zl fs) ++ l ∧ zr fs = [] ∧
      (∀ f ∈ fs, FrOk (frLayout kw ps hps) f) ∧ (∀ f ∈ fs, f.R = []) ∧ Strict FreeEnt.tsn (zl fs ++ l.map .ent) ∧
      (l = [] → fs = []) ∧ (∀ e ∈ l, FreeOk kw ps hps e) ∧ pageSizeOf kw (frNode l) ≤ ps ∧
      Run (descend freeOps pickLast w.nextPage root []) w fun res w' => res = (c, stackOf fs) ∧
        Own w' A X (P + Q) ∧ Keep (P + Q) w w' ∧ Loaded w' c ∧ ∀ f ∈ fs, Loaded w' f.id := by
  rcases h with ⟨K, hK, rfl, rfl, rfl, hst⟩ | ⟨rfl, rfl⟩
  · obtain ⟨⟨c, st⟩, w1, hrun, fs, k, hF, hc, h1, k1, hl1, hfl⟩ := descend_spec (Y := frLayout kw ps hps) (pick := pickLast)
      pickLast_ok hK w.nextPage [] w Q hcard hw
    obtain ⟨l, hlne, hk, hok, hsz⟩ := hF.leaf
    have hfr : ∀ f ∈ fs, f.R = [] := fun f hf => pickLast_right (hF.picked f hf)
    have hzr := zr_rights hfr
    have hksq : k.sq = l.map .ent := by rw [hk]; rfl
    have hkpg : k.pg = {(k.id, frNode l)} + frPg l := by rw [hk]; rfl
    have hKsq : K.sq = zl fs ++ l.map .ent := by rw [← hF.eq, plug_sq, hksq, hzr, List.append_nil]
    have hKpg : K.pg = k.pg + fpg freeOps fs k.id := by rw [← hF.eq]; exact plug_pg _ _ _
    have hKid : K.id = rootOf fs k.id := by rw [← hF.eq]; exact plug_id _ _ _
    refine ⟨fs, k.id, l, hKid.symm, by rw [hKpg, hkpg, add_assoc], by rw [hKsq, ents_append, ents_map], hzr, hF.frames,
      hfr, by rw [← hKsq]; exact hst, fun h => absurd h hlne, hok, hsz, ⟨_, _, hrun, ?_, h1, k1, hl1, hfl⟩⟩
    rw [hc, List.append_nil]
  · refine ⟨[], root, [], rfl, by simp [fpg], by simp [zl], rfl, by simp, by simp, by simp [zl, Strict], by simp, by simp,
      by rw [frNode_size]; simp; omega, ?_⟩
    have hpos : 0 < w.nextPage := by simp at hcard; omega
    obtain ⟨fuel, hf⟩ : ∃ f, w.nextPage = f + 1 := ⟨w.nextPage - 1, by omega⟩
    rw [hf]
    unfold descend
    refine (getPage_spec (n := frNode []) hw (by simp)).andThen ?_
    rintro _ w1 ⟨rfl, h1, k1, hl⟩
    rw [if_pos (show freeOps.isLeaf (frNode []) = true from rfl)]
    exact .pure ⟨rfl, h1, k1, hl, by simp⟩

/-- A freed page is added under the transaction's own number, which is the largest in the list. -/
theorem freeInsert_spec {kw ps : Nat} {hps : 1024 ≤ ps} {Old : Nat → Prop} {P : Multiset (Nat × Node)}
    {F : Multiset (Nat × Nat)} (h : FreeRep kw ps hps Old w P F) (hkw : w.kw = kw) (hpz : w.pageSize = ps) {p : Nat}
    (hnew : (p, w.tsn) ∉ F) (hnd : F.Nodup) (hle : ∀ x ∈ F, x.2 ≤ w.tsn) (hw : Own w A X (P + Q)) :
    Run (freeInsert w.tsn p) w fun _ w' => ∃ P', FreeRep kw ps hps Old w' P' ((p, w.tsn) ::ₘ F) ∧ Own w' A X (P' + Q) ∧
      Keep Q w { w' with freeRoot := w.freeRoot } := by
  obtain ⟨es0, hT, hgood, rfl⟩ := h
  unfold freeInsert
  refine .get ?_
  have hcard : P.card ≤ w.nextPage := by
    have := hw.card_lt; simp only [Multiset.card_add] at this; omega
  obtain ⟨fs, c, es, hroot, rfl, rfl, hzr, hfs, hfr, hst, hlfs, hok, hsz, hdesc⟩ := freeLeaf_spec hT hw hcard
  refine hdesc.andThen ?_
  rintro _ w1 ⟨rfl, h1, k1, hl1, hfl⟩
  have h1 : Own w1 A X ({(c, frNode es)} + (frPg es + (fpg freeOps fs c + Q))) := h1.congr (by abel)
  have k1 : Keep ({(c, frNode es)} + (frPg es + (fpg freeOps fs c + Q))) w w1 := k1.sub (le_of_eq (by abel))
  refine (getPage_spec (n := frNode es) h1 (by simp)).andThen ?_
  rintro _ w2 ⟨rfl, h2, k12, hl2⟩
  have k2 : Keep ({(c, frNode es)} + (frPg es + (fpg freeOps fs c + Q))) w w2 := k1.trans k12
  -- what the specification of the leaf needs
  have hnonempty : ∀ o ∈ es, o.pids.Nodup := by
    intro o ho
    have h3 : freeSet [o] ≤ freeSet (ents (zl fs) ++ es) := by
      obtain ⟨a, b, rfl⟩ := List.append_of_mem ho
      rw [freeSet_append, show a ++ o :: b = a ++ ([o] ++ b) by simp, freeSet_append, freeSet_append]
      exact Multiset.le_iff_exists_add.mpr ⟨freeSet (ents (zl fs)) + freeSet a + freeSet b, by abel⟩
    have h4 := Multiset.nodup_of_le h3 hnd
    rw [freeSet_one, Multiset.coe_nodup] at h4
    exact h4.of_map _
  have hpid : ∀ e, FreeOk kw ps hps e → e.pids ≠ [] := by
    rintro e (h | ⟨_, _, h⟩)
    · exact h.2.2.2
    · exact h.ne_nil
  have hle' : ∀ e ∈ es, e.tsn ≤ w.tsn := by
    intro e he
    obtain ⟨q, l, hql⟩ := List.exists_cons_of_ne_nil (hpid e (hok e he))
    exact hle (q, e.tsn) (mem_freeSet.mpr ⟨e, by simp [he], rfl, by simp [hql]⟩)
  have hnew' : ∀ o ∈ es, o.tsn = w.tsn → p ∉ o.pids := fun o ho ht hp =>
    hnew (mem_freeSet.mpr ⟨o, by simp [ho], ht, hp⟩)
  have hst2 : Strict FreeEnt.tsn (es.map (Item.ent (κ := Nat))) := List.Pairwise.sublist (List.sublist_append_right _ _) hst
  have hkeys := strict_keys hst2
  have hents : ∀ e ∈ es, e.pg ≤ frPg es := fun e he => mem_frPg he
  -- the leaf becomes dirty
  obtain ⟨d, w3, hrun3, h3, k3, hd3⟩ := getDirty_spec h2 hl2
  have k3' : Keep (frPg es + (fpg freeOps fs c + Q)) w w3 := (k2.sub (Multiset.le_add_left _ _)).trans k3
  have hgood3 : ∀ e ∈ ents (zl fs) ++ es, FrGood Old w3 e := by
    intro e he
    refine (hgood e he).keep0 k3'.toKeep0 ?_
    rcases List.mem_append.mp he with he | he
    · refine (ent_side (pg := FreeEnt.pg) frLeaf_ent hfs e (.inl he)).trans ((side_le freeOps fs c).trans ?_)
      exact le_of_eq_add (frPg es + Q) (by abel)
    · exact (hents e he).trans (Multiset.le_add_right _ _)
  obtain ⟨plan, hplan, hdo⟩ := freeDo_spec (p := p) (by rw [k3'.step.kw, hkw]) (by rw [k3'.step.pageSize, hpz]) hok hkeys hle' hsz hnew' hnonempty
    (fun o ho ht q hq => (hgood3 o (by simp [ho])).cur (ht.trans k3'.step.tsn.symm) q hq) h3 hd3
  refine Run.andThen (Q := fun v w' => v = plan ∧ w' = w2) (ofExcept_ok (by rw [hkw]; unfold Writer.maxNode; rw [hpz]; exact hplan)
    ⟨rfl, rfl⟩) ?_
  intro v w2' hv
  rw [hv.1, hv.2]
  refine Run.andThen (Q := fun d' w' => d' = d ∧ w' = w3) ⟨d, w3, hrun3, rfl, rfl⟩ ?_
  intro v w3' hv
  rw [hv.1, hv.2]
  refine hdo.andThen ?_
  rintro sref w4 ⟨t1, s, a, m, e, n, g⟩
  obtain ⟨hbef, hbelow, hold, hkey, rfl, rfl, htr, hpromo, hsq, hpos, hdirty, h4, k4⟩ := g
  subst hbef
  have k4' : Keep (frPg a + (fpg freeOps fs c + Q)) w w4 := (k3'.sub (by
    rw [frPg_append]; exact le_of_eq_add (frPg m) (by abel))).trans k4
  have h4 : Own w4 A X (t1.pg + rpg s.rights + fpg freeOps fs c + Q) := h4.congr (by abel)
  rw [← hroot]
  have hup : ∀ f ∈ fs, Loaded w4 f.id := fun f hf => by
    have hm := mem_fpg (O := freeOps) fs c hf
    have hm1 : ∀ R1 : Multiset (Nat × Node), f.id ∈ ids (R1 + (fpg freeOps fs c + Q)) := fun R1 => by
      simp only [ids_add, Multiset.mem_add]; exact .inr (.inl hm)
    refine k4.loaded f.id (hm1 _) (k3.loaded f.id (hm1 _) (k12.loaded f.id ?_ (hfl f hf)))
    simp only [ids_add, Multiset.mem_add]; exact .inr (.inr (.inl hm))
  refine (finish_spec (Y := frLayout kw ps hps) hfs (fun f hf _ => hfr f hf) htr hpromo (k4'.step.kw.trans hkw)
    (k4'.step.pageSize.trans hpz) h4 hup).andThen ?_
  rintro root w5 ⟨U, hU, rfl, hUsq, h5, k5, k5', -⟩
  rw [hsq, hzr, List.append_nil] at hUsq
  have hstU : Strict FreeEnt.tsn U.sq := by
    rw [hUsq]
    have h6 : Strict FreeEnt.tsn (zl fs ++ (a ++ e :: []).map Item.ent ++ []) := by
      refine Strict.put (m := m) (B := []) (by simpa using hst) ?_ (by simp) (by rw [hkey]; exact hbelow) (by simp)
      intro i hi
      cases hes : a ++ m with
      | nil => rw [hlfs hes] at hi; cases hi
      | cons x l =>
        rw [hes] at hst hle'
        have h7 := (List.pairwise_append.mp hst).2.2 i hi (.ent x) (by simp)
        have h8 := hle' x (by simp)
        rw [hkey]
        rcases h7 with h7 | ⟨h7, h9, -⟩
        · exact .inl (lt_of_lt_of_le h7 h8)
        · rcases Nat.lt_or_eq_of_le h8 with h8 | h8
          · exact .inl (by rw [h7]; exact h8)
          · cases i with
            | ent _ => cases h9
            | sep k => right; rw [show k = x.tsn from h7, h8]
    simpa using Strict.splitSq h6 n hpos
  have hUents : ents U.sq = ents (zl fs) ++ (a ++ [e]) := by rw [hUsq, ents_append, ents_splitSq]
  have hset : freeSet (ents (zl fs) ++ (a ++ [e])) = (p, w.tsn) ::ₘ freeSet (ents (zl fs) ++ (a ++ m)) := by
    rw [freeSet_append, freeSet_append, freeSet_append, freeSet_append]
    have : freeSet [e] = (p, w.tsn) ::ₘ freeSet m := by
      rw [freeSet_one, hkey]
      rcases hold with ⟨rfl, hpid⟩ | ⟨o, rfl, ho, hpid⟩
      · rw [hpid]; rfl
      · rw [freeSet_one, ho, Multiset.cons_coe, Multiset.coe_eq_coe]
        exact hpid.map _
    rw [this, ← Multiset.singleton_add, ← Multiset.singleton_add]
    abel
  have hle5 : ∀ x ∈ a ++ [e], x.pg ≤ t1.pg + rpg s.rights := by
    intro x hx
    have h7 : x ∈ ents (t1.sq ++ rsq s.rights) := by rw [hsq, ents_splitSq]; exact hx
    rw [ents_append, List.mem_append] at h7
    rcases h7 with h7 | h7
    · exact (htr.ent_le (pg := FreeEnt.pg) frLeaf_ent x h7).trans (Multiset.le_add_right _ _)
    · exact (ent_rsq (pg := FreeEnt.pg) frLeaf_ent hpromo.1 x h7).trans (Multiset.le_add_left _ _)
  have hgood5 : ∀ x ∈ ents (zl fs) ++ (a ++ [e]), FrGood Old w5 x := by
    intro x hx
    rcases List.mem_append.mp hx with hx | hx
    · have h7 := ent_side (pg := FreeEnt.pg) frLeaf_ent hfs x (.inl hx)
      refine ((hgood3 x (by simp [hx])).keep0 k4.toKeep0 (h7.trans ((side_le freeOps fs c).trans ?_))).keep0 k5'.toKeep0
        (h7.trans ?_)
      · exact le_of_eq_add (frPg a + Q) (by abel)
      · exact le_of_eq_add (t1.pg + rpg s.rights + Q) (by abel)
    · have h7 : x.pg ≤ t1.pg + rpg s.rights + side fs + Q := (hle5 x hx).trans (by
        rw [add_assoc _ (side fs)]; exact Multiset.le_add_right _ _)
      rcases List.mem_append.mp hx with hx | hx
      · exact ((hgood3 x (by simp [hx])).keep0 k4.toKeep0 ((mem_frPg hx).trans (Multiset.le_add_right _ _))).keep0
          k5'.toKeep0 h7
      · cases List.mem_singleton.mp hx
        exact FrGood.keep0 ⟨fun _ => hdirty, fun _ q hq => .inl (hdirty q hq)⟩ k5'.toKeep0 h7
  have k6 : Keep Q w w5 := (k4'.sub (by rw [← add_assoc]; exact Multiset.le_add_left _ _)).trans k5
  refine .modW ⟨U.pg, ⟨ents U.sq, .inl ⟨U, hU, rfl, rfl, rfl, hstU⟩, ?_, by rw [hUents, hset]⟩, ?_, ?_⟩
  · rw [hUents]
    exact fun x hx => ⟨(hgood5 x hx).cur, (hgood5 x hx).old⟩
  · exact ⟨h5.1, h5.2, h5.3, h5.4, h5.5, h5.6, h5.7, h5.8, h5.9, h5.10⟩
  · exact ⟨⟨⟨k6.step.1, k6.step.2, k6.step.3, k6.step.4, hroot, k6.step.6, k6.step.7, k6.step.8, k6.step.9, k6.step.10,
      k6.step.11⟩, k6.loaded, k6.dirty, k6.freed⟩, k6.tight⟩

section Examples

/-- A free list on page 2: transaction 3 freed pages 7 and 8; this is transaction 4. -/
def freeSample : Writer where
  base p := [(2, Node.freeLeaf [3] [⟨[7, 8], 0⟩])].lookup p
  kw := 8
  pageSize := 1024
  tsn := 4
  nextPage := 20
  freeRoot := 2
  eventsRoot := 3
  tagsRoot := 4
  trackRoot := 5
  nextPos := 1
  reusable := []
  reused := []
  freed := []
  deser _ := none
  dirty := []

example : ((freeInsert 4 9) freeSample).1 = .ok () ∧ ((freeInsert 4 9) freeSample).2.freeRoot = 20 ∧
    ((freeInsert 4 9) freeSample).2.dirty = [(20, .freeLeaf [3, 4] [⟨[7, 8], 0⟩, ⟨[9], 0⟩])] ∧
    ((freeInsert 4 9) freeSample).2.freed = [2] := by decide +kernel
example : (do freeInsert 4 9; freeInsert 4 10 : W Unit) freeSample |>.2.dirty =
    [(20, .freeLeaf [3, 4] [⟨[7, 8], 0⟩, ⟨[9, 10], 0⟩])] := by decide +kernel
example : ((freeInsert 2 9) freeSample).1 = .error (.internal "Insertion only supported for last TSN in leaf") := by
  decide +kernel
-- The only entry of a full leaf moves to a subtree; the last of several moves to a new leaf.
example : freePlan 8 40 3 (.freeLeaf [3] [⟨[7, 8], 0⟩]) = .ok .move := by decide +kernel
example : freePlan 8 60 4 (.freeLeaf [3, 4] [⟨[7, 8], 0⟩, ⟨[5], 0⟩]) = .ok .split := by decide +kernel
example : freePlan 8 60 5 (.freeLeaf [3, 4] [⟨[7, 8], 0⟩, ⟨[5], 0⟩]) = .ok .promote := by decide +kernel
example : freePlan 8 60 3 (.freeLeaf [3] [⟨[], 9⟩]) = .ok .subtree := by decide +kernel
example : tsnFill 8 35 [] [1, 2, 3, 4] = [1, 2, 3] := by decide +kernel

/-- Page 2 is a full leaf of transaction 4: 124 pages. -/
def freeFull : Writer :=
  { freeSample with
    base := fun _ => none
    dirty := [(2, .freeLeaf [4] [⟨(List.range 124).map (· + 100), 0⟩])] }

example : ((freeInsert 4 9) freeFull).1 = .ok () ∧ ((freeInsert 4 9) freeFull).2.dirty =
    [(2, .freeLeaf [4] [⟨[], 20⟩]), (20, .tsnLeaf (9 :: (List.range 124).map (· + 100)))] := by decide +kernel

end Examples

end Uma.Page
