import Verif.Page.Tag
import Verif.Page.Tracking

/-!
# The tags tree (umadb-core/src/tags_tree.rs, tags_tree_nodes.rs 6-242)
-/

namespace Uma.Page
open Uma.Codec Uma.Spec

/-- Parameters of the tags tree. -/
def tagsOps : Ops Nat where
  inner := .tagsInternal
  un
    | .tagsInternal keys kids => some (keys, kids)
    | _ => none
  isLeaf
    | .tagsLeaf _ _ => true
    | _ => false
  rightmost := false
  always := true
  minKeys := 3
  splitPos n := (n + 1) / 2 - 1

/-- What remains to be done after the leaf was looked at. -/
inductive TagsAct where
  /-- the position was pushed to the positions in the leaf at this index; their number -/
  | inline (i len : Nat)
  /-- the positions of the tag are in the per-tag tree with this root -/
  | subtree (root : Nat)
  /-- a new key was inserted -/
  | inserted
  deriving DecidableEq, Repr

/-- tags_tree.rs 81-120. -/
def tagsFind (tag pos : Nat) : Node → Except Err (TagsAct × Node)
  | .tagsLeaf keys values =>
    match searchIdx keys tag with
    | .ok i =>
      match values[i]? with
      | none => .error (.panic "index out of bounds")
      | some v =>
        if v.root = 0 then
          .ok (.inline i (v.positions ++ [pos]).length,
            .tagsLeaf keys (values.set i { v with positions := v.positions ++ [pos] }))
        else .ok (.subtree v.root, .tagsLeaf keys values)
    | .error i =>
      if values.length < i then .error (.panic "index out of bounds")
      else .ok (.inserted, .tagsLeaf (keys.insertIdx i tag) (values.insertIdx i ⟨0, [pos]⟩))
  | _ => .error (.databaseCorrupted "Expected TagsLeaf node")

/-- `leaf.values[idx].root_id = tag_root_id`, tags_tree.rs 316-330. -/
def tagsSetRoot (tag root : Nat) : Node → Except Err (Unit × Node)
  | .tagsLeaf keys values =>
    match searchIdx keys tag with
    | .ok i =>
      match values[i]? with
      | none => .error (.panic "index out of bounds")
      | some v => .ok ((), .tagsLeaf keys (values.set i { v with root := root }))
    | .error _ => .error (.databaseCorrupted "Tag key not found after per-tag insert")
  | _ => .error (.databaseCorrupted "Expected TagsLeaf node")

/-- `std::mem::take(&mut leaf.values[i].positions)`, tags_tree.rs 346-355. -/
def tagsTake (i : Nat) : Node → Except Err (List Nat × Node)
  | .tagsLeaf keys values =>
    match values[i]? with
    | none => .error (.panic "index out of bounds")
    | some v => .ok (v.positions, .tagsLeaf keys (values.set i { v with positions := [] }))
  | _ => .error (.databaseCorrupted "Expected TagsLeaf node")

/-- `leaf.values[i].root_id = new_root_id`, tags_tree.rs 416-423. -/
def tagsPutRoot (i root : Nat) : Node → Except Err (Unit × Node)
  | .tagsLeaf keys values =>
    match values[i]? with
    | none => .error (.panic "index out of bounds")
    | some v => .ok ((), .tagsLeaf keys (values.set i { v with root := root }))
  | _ => .error (.databaseCorrupted "Expected TagsLeaf node")

/-- A per-tag tree for the positions taken out of a leaf, tags_tree.rs 357-414. -/
def perNew (l : List Nat) : W Nat := do
  let w ← getW
  if pageSizeOf w.kw (.tagLeaf l) ≤ w.pageSize then newPage (.tagLeaf l)
  else
    match l.getLast? with
    | none => fail (.databaseCorrupted "No positions to split")
    | some p =>
      if pageSizeOf w.kw (.tagLeaf l.dropLast) > w.pageSize then
        fail (.databaseCorrupted "Recursive per-tag split not implemented")
      else do
        let a ← newPage (.tagLeaf l.dropLast)
        let b ← newPage (.tagLeaf [p])
        newPage (.tagInternal [p] [a, b])

/-- tags_tree.rs 344-424. -/
def tagsMove (d i : Nat) : W Unit := do
  let l ← modDirty d (tagsTake i)
  let root ← perNew l
  modDirty d (tagsPutRoot i root)

/-- tags_tree.rs 334-425. -/
def tagsMigrate (d i len : Nat) : W Unit := do
  let n ← getPage d
  let w ← getW
  if pageSizeOf w.kw n > w.pageSize ∧ len * 8 * 2 > w.pageSize then tagsMove d i else pure ()

/-- tags_tree.rs 123-425. -/
def tagsRest (bs : List Nat → Nat → Nat) (d tag pos : Nat) : TagsAct → W Unit
  | .inline i len => tagsMigrate d i len
  | .subtree root => do
    let r ← perAppend bs root pos
    modDirty d (tagsSetRoot tag r)
  | .inserted => pure ()

/-- tags_tree.rs 74-425. -/
def tagsChange (bs : List Nat → Nat → Nat) (d tag pos : Nat) : W Unit := do
  let a ← modDirty d (tagsFind tag pos)
  tagsRest bs d tag pos a

/-- Splitting an overfull leaf, tags_tree.rs 431-447. -/
def tagsCut (kw ps : Nat) : Node → Except Err (Option (Nat × List Nat × List TagsValue) × Node)
  | .tagsLeaf keys values =>
    if pageSizeOf kw (.tagsLeaf keys values) > ps then
      match keys.drop (keys.length / 2) with
      | [] => .error (.panic "index out of bounds")
      | k :: right => .ok (some (k, k :: right, values.drop (keys.length / 2)),
          .tagsLeaf (keys.take (keys.length / 2)) (values.take (keys.length / 2)))
    else .ok (none, .tagsLeaf keys values)
  | n => .ok (none, n)

/-- tags_tree.rs 427-467. -/
def tagsSplit (d : Nat) : W (Option (Nat × Nat)) := do
  let w ← getW
  let off ← modDirty d (tagsCut w.kw w.pageSize)
  match off with
  | none => pure none
  | some (k, keys, values) => do
    let c ← newPage (.tagsLeaf keys values)
    pure (some (k, c))

/-- `tags_tree_insert`, tags_tree.rs 20-595. -/
def tagsInsert (bs : List Nat → Nat → Nat) (tag pos : Nat) : W Unit := do
  let w ← getW
  let leaf ← descend tagsOps (fun keys _ => ub keys tag) w.nextPage w.tagsRoot []
  let d ← getDirty leaf.1
  tagsChange bs d tag pos
  let s ← tagsSplit d
  let root ← finish tagsOps w.tagsRoot leaf.2 leaf.1 d s
  modW fun w => { w with tagsRoot := root }

/-- The positions `TagsTreeIterator` yields, tags_tree.rs 646-884.  Errors end the iteration silently; so does the panic
of `leaf.values[i]`, which needs a page with more keys than values. -/
def tagScan (bs : List Nat → Nat → Nat) (v : Nat → Option Node) (fuel root tag : Nat) (start : Option Nat)
    (back : Bool) : List Nat :=
  match findLeaf tagsOps (fun keys _ => ub keys tag) v fuel root with
  | .ok (.tagsLeaf keys values) =>
    match searchIdx keys tag with
    | .error _ => []
    | .ok i =>
      match values[i]? with
      | none => []
      | some val =>
        if val.root = 0 then clip start back val.positions
        else ((perWalk bs start back).run v fuel [(val.root, none)]).1
  | _ => []

/-! ## The tree -/

/-- An entry of a leaf: the key and value, all positions, and the pages of the per-tag tree. -/
structure TagEnt where
  key : Nat
  root : Nat
  inl : List Nat
  poss : List Nat
  pg : Multiset (Nat × Node)

def TagEnt.val (e : TagEnt) : TagsValue := ⟨e.root, e.inl⟩

/-- The positions are in the leaf or in a per-tag tree. -/
def TagOk (kw ps : Nat) (hps : 1024 ≤ ps) (e : TagEnt) : Prop :=
  NormalizedTo kw e.key ∧
  ((e.root = 0 ∧ e.inl = e.poss ∧ e.pg = 0 ∧ e.poss ≠ [] ∧ 8 * e.poss.length + 19 ≤ ps ∧ e.poss.Pairwise (· ≤ ·)) ∨
    (e.inl = [] ∧ PerRep kw ps hps e.root e.pg e.poss))

def tgNode (es : List TagEnt) : Node := .tagsLeaf (es.map (·.key)) (es.map (·.val))

def tgPg (es : List TagEnt) : Multiset (Nat × Node) := (es.map (·.pg)).sum

theorem tgPg_append (a b : List TagEnt) : tgPg (a ++ b) = tgPg a + tgPg b := by simp [tgPg]
theorem tgPg_cons (e : TagEnt) (b : List TagEnt) : tgPg (e :: b) = e.pg + tgPg b := by simp [tgPg]
theorem tgPg_nil : tgPg [] = 0 := rfl

def tgKid (id : Nat) (es : List TagEnt) : Kid Nat TagEnt where
  id := id
  pg := {(id, tgNode es)} + tgPg es
  sq := es.map .ent

/-- The leaf fits the page, or it has two tags, both with their positions in the leaf, and is at most one position too large;
see finding 11 in DESIGN.md. -/
def TgFit (kw ps : Nat) (es : List TagEnt) : Prop :=
  pageSizeOf kw (tgNode es) ≤ ps ∨
    es.length = 2 ∧ (∀ e ∈ es, e.inl ≠ []) ∧ pageSizeOf kw (tgNode es) ≤ ps + 8

/-- A leaf. -/
def TgLeaf (kw ps : Nat) (hps : 1024 ≤ ps) (k : Kid Nat TagEnt) : Prop :=
  ∃ es, k = tgKid k.id es ∧ (∀ e ∈ es, TagOk kw ps hps e) ∧ TgFit kw ps es

theorem tagsInner_size (kw : Nat) (keys kids : List Nat) (h : kids.length = keys.length + 1) :
    pageSizeOf kw (.tagsInternal keys kids) = 19 + (kw + 8) * keys.length := by
  simp only [pageSizeOf, pageHeaderSize, nodeSize, h, Nat.add_mul]
  rw [Nat.mul_comm kw]
  omega

theorem tgNode_size (kw : Nat) (es : List TagEnt) :
    pageSizeOf kw (tgNode es) = 11 + kw * es.length + (es.map fun e => 10 + 8 * e.inl.length).sum := by
  simp only [pageSizeOf, pageHeaderSize, tgNode, nodeSize, List.length_map, List.map_map]
  have : (fun v : TagsValue => 8 + 2 + v.positions.length * 8) ∘ TagEnt.val = fun e => 10 + 8 * e.inl.length := by
    funext e; simp only [Function.comp, TagEnt.val]; omega
  rw [this, Nat.mul_comm kw]
  omega

theorem tgNode_room (kw : Nat) (es : List TagEnt) :
    pageSizeOf kw (tgNode es) = 11 + (es.map fun e => kw + 10 + 8 * e.inl.length).sum := by
  rw [tgNode_size]
  induction es with
  | nil => rfl
  | cons e l ih => simp only [List.map_cons, List.sum_cons, List.length_cons, Nat.mul_add, Nat.mul_one] at ih ⊢; omega

theorem tgRoom_ge (kw : Nat) (b : Nat) : ∀ es : List TagEnt, b ≤ es.length →
    (kw + 10) * b ≤ (es.map fun e => kw + 10 + 8 * e.inl.length).sum := by
  induction b with
  | zero => simp
  | succ b ih =>
    rintro (_ | ⟨e, l⟩) h
    · simp at h
    · have := ih l (by simpa using h)
      simp only [List.map_cons, List.sum_cons, Nat.mul_add, Nat.mul_one] at *
      omega

/-- How the entry of the tag changed: it is new, the positions are elsewhere, or grew by one, or moved to a per-tag tree. -/
def TgGrown (m : List TagEnt) (e : TagEnt) : Prop :=
  (m = [] ∧ e.inl.length = 1) ∨ ∃ o, m = [o] ∧ (e.inl.length = o.inl.length ∨
    (o.inl ≠ [] ∧ e.inl.length = o.inl.length + 1) ∨ (e.inl = [] ∧ 1 ≤ o.inl.length))

/-- The halves of a leaf that became too large. -/
theorem tgFit_halves {kw ps : Nat} (hps : 1024 ≤ ps) (hkw : kw ≤ 16) {a m b : List TagEnt} {e : TagEnt} (hf : TgFit kw ps (a ++ m ++ b)) (hg : TgGrown m e)
    (hlong : 8 * e.inl.length + 37 ≤ ps) (hover : pageSizeOf kw (tgNode (a ++ e :: b)) > ps) :
    TgFit kw ps ((a ++ e :: b).take ((a ++ e :: b).length / 2)) ∧ TgFit kw ps ((a ++ e :: b).drop ((a ++ e :: b).length / 2)) := by
  have hsplit : ((a ++ e :: b).map fun e => kw + 10 + 8 * e.inl.length).sum =
      (((a ++ e :: b).take ((a ++ e :: b).length / 2)).map fun e => kw + 10 + 8 * e.inl.length).sum +
      (((a ++ e :: b).drop ((a ++ e :: b).length / 2)).map fun e => kw + 10 + 8 * e.inl.length).sum := by
    rw [← List.sum_append, ← List.map_append, List.take_append_drop]
  unfold TgFit at hf ⊢
  simp only [tgNode_room] at hf hover ⊢
  by_cases h4 : 4 ≤ (a ++ e :: b).length
  · have h1 := tgRoom_ge kw 2 ((a ++ e :: b).take ((a ++ e :: b).length / 2)) (by rw [List.length_take]; omega)
    have h2 := tgRoom_ge kw 2 ((a ++ e :: b).drop ((a ++ e :: b).length / 2)) (by rw [List.length_drop]; omega)
    generalize (((a ++ e :: b).take ((a ++ e :: b).length / 2)).map fun e => kw + 10 + 8 * e.inl.length).sum = x at *
    generalize (((a ++ e :: b).drop ((a ++ e :: b).length / 2)).map fun e => kw + 10 + 8 * e.inl.length).sum = y at *
    have hlen : (a ++ e :: b).length = a.length + b.length + 1 := by simp; omega
    have : 11 + ((a ++ e :: b).map fun e => kw + 10 + 8 * e.inl.length).sum ≤ ps + kw + 18 := by
      rcases hg with ⟨rfl, h⟩ | ⟨o, rfl, h⟩ <;>
        simp only [List.append_nil, List.map_append, List.map_cons, List.map_nil, List.sum_append, List.sum_cons, List.sum_nil,
          List.length_append, List.length_cons, List.length_nil] at hf hlen h4 ⊢
      · rcases hf with hf | ⟨hf, -⟩ <;> omega
      · rcases hf with hf | ⟨hf, -⟩
        · rcases h with h | ⟨-, h⟩ | ⟨h, -⟩
          · omega
          · omega
          · rw [h, List.length_nil]; omega
        · omega
    exact ⟨.inl (by omega), .inl (by omega)⟩
  · have hlen : (a ++ e :: b).length = a.length + b.length + 1 := by simp; omega
    have hab : a.length + b.length ≤ 2 := by omega
    rcases hg with ⟨rfl, hg⟩ | ⟨o, rfl, hg⟩ <;> rcases a with _ | ⟨x, _ | ⟨y, _ | ⟨z, t⟩⟩⟩ <;>
      rcases b with _ | ⟨u, _ | ⟨v, _ | ⟨w, t'⟩⟩⟩ <;>
      simp only [List.length_cons, List.length_nil] at hab <;> first | omega | skip
    all_goals
      simp [← List.length_eq_zero_iff] at hf hg hover ⊢
      omega

/-- The tags tree. -/
def tgLayout (kw ps : Nat) (hps : 1024 ≤ ps) (hkw : kw ≤ 16) : Layout Nat TagEnt where
  ops := tagsOps
  kw := kw
  ps := ps
  Leaf := TgLeaf kw ps hps
  kfit := NormalizedTo kw
  fit keys := 1 ≤ keys.length ∧ (∀ k ∈ keys, NormalizedTo kw k) ∧ 19 + (kw + 8) * keys.length ≤ ps
  un_inner _ _ := rfl
  inner_leaf _ _ := rfl
  leaf_page k h := by
    obtain ⟨es, e, _⟩ := h
    exact ⟨tgNode es, tgPg es, by rw [e]; simp [tgKid], rfl⟩
  fit_kfit _ h := h.2.1
  fit_one k h := by
    refine ⟨by simp, by simpa using h, ?_⟩
    simp only [List.length_cons, List.length_nil]
    have : (kw + 8) * (0 + 1) ≤ (16 + 8) * (0 + 1) := Nat.mul_le_mul_right _ (by omega)
    omega
  fit_over _ keys kids hl hf := by
    show pageSizeOf kw (.tagsInternal keys kids) ≤ ps
    rw [tagsInner_size _ _ _ hl]; exact hf.2.2
  fit_ins a b k kids hl hf hk hs := by
    have hs : pageSizeOf kw (.tagsInternal (a ++ k :: b) kids) ≤ ps := hs
    rw [tagsInner_size _ _ _ hl] at hs
    refine ⟨by simp; omega, ?_, hs⟩
    intro x hx
    simp only [List.mem_append, List.mem_cons] at hx
    rcases hx with hx | rfl | hx
    · exact hf.2.1 x (by simp [hx])
    · exact hk
    · exact hf.2.1 x (by simp [hx])
  fit_split a b k kids hl hf hk hs := by
    have hs : ps < pageSizeOf kw (.tagsInternal (a ++ k :: b) kids) := hs
    rw [tagsInner_size _ _ _ hl] at hs
    have hall : ∀ x ∈ a ++ k :: b, NormalizedTo kw x := by
      intro x hx
      simp only [List.mem_append, List.mem_cons] at hx
      rcases hx with hx | rfl | hx
      · exact hf.2.1 x (by simp [hx])
      · exact hk
      · exact hf.2.1 x (by simp [hx])
    obtain ⟨h1, _, h3⟩ := hf
    simp only [List.length_append] at h1 h3
    have hlen : (a ++ k :: b).length = a.length + b.length + 1 := by simp; omega
    generalize a ++ k :: b = keys at *
    rw [hlen] at hs
    generalize a.length + b.length = n at *
    have hn3 : 3 ≤ n + 1 := by
      by_contra hc
      have h4 : (kw + 8) * (n + 1) ≤ (16 + 8) * 2 := Nat.mul_le_mul (by omega) (by omega)
      omega
    have hle : ∀ m, m ≤ n → 19 + (kw + 8) * m ≤ ps := fun m hm => by
      have : (kw + 8) * m ≤ (kw + 8) * n := Nat.mul_le_mul_left _ hm
      omega
    show 3 ≤ keys.length ∧ (keys.length + 1) / 2 - 1 < keys.length ∧
      (1 ≤ (keys.take ((keys.length + 1) / 2 - 1)).length ∧ _ ∧
        19 + (kw + 8) * (keys.take ((keys.length + 1) / 2 - 1)).length ≤ ps) ∧
      (1 ≤ (keys.drop ((keys.length + 1) / 2 - 1 + 1)).length ∧ _ ∧
        19 + (kw + 8) * (keys.drop ((keys.length + 1) / 2 - 1 + 1)).length ≤ ps)
    refine ⟨by omega, by omega, ⟨by simp; omega, fun x hx => hall x (List.mem_of_mem_take hx), hle _ (by simp; omega)⟩,
      ⟨by simp; omega, fun x hx => hall x (List.mem_of_mem_drop hx), hle _ (by simp; omega)⟩⟩

/-- `root` and the pages `P` hold the positions `idx h` for every tag hash `h`. -/
def TagsRep (kw ps : Nat) (hps : 1024 ≤ ps) (hkw : kw ≤ 16) (root : Nat) (P : Multiset (Nat × Node))
    (idx : Nat → List Nat) : Prop :=
  ∃ K, Bt (tgLayout kw ps hps hkw) K ∧ root = K.id ∧ P = K.pg ∧ Strict TagEnt.key K.sq ∧
    ∀ h, (∃ e ∈ ents K.sq, e.key = h ∧ idx h = e.poss) ∨ (∀ e ∈ ents K.sq, e.key ≠ h) ∧ idx h = []

/-- The leaf found is the only place for `tag`. -/
theorem tags_found_only {kw ps : Nat} {hps : 1024 ≤ ps} {hkw : kw ≤ 16} {K : Kid Nat TagEnt} {tag : Nat}
    {fs : List (Fr Nat TagEnt)} {k : Kid Nat TagEnt}
    (hF : Found (tgLayout kw ps hps hkw) (fun keys _ => ub keys tag) K fs k) (hK : Strict TagEnt.key K.sq) :
    ∃ es, k = tgKid k.id es ∧ (∀ e ∈ es, TagOk kw ps hps e) ∧ TgFit kw ps es ∧ K.sq = zl fs ++ es.map .ent ++ zr fs ∧
      (es.map (·.key)).Pairwise (· < ·) ∧ (∀ i ∈ zl fs, i.key TagEnt.key < tag ∨ i = .sep tag) ∧
      (∀ i ∈ zr fs, tag < i.key TagEnt.key) ∧ ∀ e ∈ ents K.sq, e.key = tag → e ∈ es := by
  obtain ⟨es, hk, hes, hfit⟩ := hF.leaf
  have hKsq : K.sq = zl fs ++ es.map .ent ++ zr fs := by
    rw [← hF.eq, plug_sq, hk]; rfl
  obtain ⟨hl, hr⟩ := zl_zr_strict (f := TagEnt.key) (O := tagsOps) (x := tag) fs k (by
    show Strict _ (plug (tgLayout kw ps hps hkw).ops fs k).sq
    rw [hF.eq]; exact hK) hF.picked
  have hst : Strict TagEnt.key (es.map (Item.ent (κ := Nat))) := List.Pairwise.sublist
    (by rw [hKsq]; exact (List.sublist_append_right _ _).trans (List.sublist_append_left _ _)) hK
  refine ⟨es, hk, hes, hfit, hKsq, strict_keys hst, hl, hr, fun e he hek => ?_⟩
  rw [hKsq, ents_append, ents_append, ents_map] at he
  simp only [List.mem_append] at he
  rcases he with (h | h) | h
  · rcases hl (.ent e) (mem_ents.mp h) with h' | h'
    · simp only [Item.key] at h'; omega
    · cases h'
  · exact h
  · have := hr (.ent e) (mem_ents.mp h)
    simp only [Item.key] at this; omega

variable {w : Writer} {A : Nat → Prop} {X : Multiset Nat} {Q : Multiset (Nat × Node)}

/-! ## Changing the leaf -/

theorem tg_get (a b : List TagEnt) (o : TagEnt) :
    ((a ++ o :: b).map (·.val))[a.length]? = some o.val := by simp

theorem tg_set (a b : List TagEnt) (o o' : TagEnt) :
    ((a ++ o :: b).map (·.val)).set a.length o'.val = (a ++ o' :: b).map (·.val) := by
  rw [← List.map_set]
  simp

theorem tg_keys (a b : List TagEnt) {o o' : TagEnt} (h : o'.key = o.key) :
    (a ++ o :: b).map (·.key) = (a ++ o' :: b).map (·.key) := by simp [h]

theorem tagsFind_new (tag pos : Nat) (a b : List TagEnt)
    (hs : searchIdx ((a ++ b).map (·.key)) tag = .error a.length) :
    tagsFind tag pos (tgNode (a ++ b)) = .ok (.inserted, tgNode (a ++ ⟨tag, 0, [pos], [pos], 0⟩ :: b)) := by
  unfold tagsFind tgNode
  simp only [hs]
  rw [if_neg (by simp)]
  have h1 := insertIdx_at (a.map (·.key)) (b.map (·.key)) tag
  have h2 := insertIdx_at (a.map (·.val)) (b.map (·.val)) ⟨0, [pos]⟩
  rw [List.length_map] at h1 h2
  rw [List.map_append, List.map_append, h1, h2]
  simp [TagEnt.val]

theorem tagsFind_old (pos : Nat) (a b : List TagEnt) (o : TagEnt)
    (hs : searchIdx ((a ++ o :: b).map (·.key)) o.key = .ok a.length) :
    tagsFind o.key pos (tgNode (a ++ o :: b)) =
      if o.root = 0 then .ok (.inline a.length (o.inl ++ [pos]).length,
          tgNode (a ++ { o with inl := o.inl ++ [pos], poss := o.poss ++ [pos] } :: b))
      else .ok (.subtree o.root, tgNode (a ++ o :: b)) := by
  unfold tagsFind tgNode
  simp only [hs, tg_get]
  have h1 := tg_set a b o { o with inl := o.inl ++ [pos], poss := o.poss ++ [pos] }
  have h2 := tg_keys a b (o := o) (o' := { o with inl := o.inl ++ [pos], poss := o.poss ++ [pos] }) rfl
  change (if o.root = 0 then _ else _) = _
  split
  · rw [← h1, ← h2]; rfl
  · rfl

/-- The new per-tag tree holds the positions, also if they need one page more. -/
theorem perNew_spec {kw ps : Nat} {hps : 1024 ≤ ps} {l : List Nat} (hpz : w.pageSize = ps) (hne : l ≠ [])
    (hlen : 11 + 8 * (l.length - 1) ≤ ps) (hsort : l.Pairwise (· ≤ ·)) (hw : Own w A X Q) :
    Run (perNew l) w fun c w' => ∃ P, PerRep kw ps hps c P l ∧ Own w' A X (P + Q) ∧ Keep Q w w' := by
  by_cases hfit : pageSizeOf w.kw (.tagLeaf l) ≤ w.pageSize
  · refine Run.of_eq (m := newPage (.tagLeaf l)) ?_ ((newPage_spec _ hw).mono fun c w' h => ⟨{(c, .tagLeaf l)}, ?_, h.1, h.2.1⟩)
    · unfold perNew
      simp only [getW, bind]
      rw [if_pos hfit]
    · rw [tagLeaf_size, hpz] at hfit
      refine ⟨perKid c l, .leaf _ ⟨_, hne, rfl, hfit⟩, rfl, rfl, by simp [perKid], List.pairwise_map.mpr hsort, ?_⟩
      intro x k y hx
      have : Item.sep k ∈ (perKid c l).sq := by rw [hx]; simp
      simp [perKid] at this
  · obtain ⟨l', p, rfl⟩ : ∃ l' p, l = l' ++ [p] := ⟨l.dropLast, l.getLast hne, (List.dropLast_append_getLast hne).symm⟩
    simp only [List.length_append, List.length_cons, List.length_nil, Nat.zero_add, Nat.add_sub_cancel] at hlen
    have hl' : l' ≠ [] := by
      rintro rfl
      rw [tagLeaf_size, hpz] at hfit
      simp at hfit
      omega
    refine Run.of_eq (m := do
      let a ← newPage (.tagLeaf l')
      let b ← newPage (.tagLeaf [p])
      newPage (.tagInternal [p] [a, b])) ?_ ?_
    · unfold perNew
      simp only [getW, bind]
      rw [if_neg hfit, List.getLast?_concat, List.dropLast_concat]
      simp only
      exact congrFun (if_neg (by rw [tagLeaf_size, hpz]; omega)) w
    · refine (newPage_spec _ hw).andThen ?_
      rintro x w1 ⟨hw1, k1, -⟩
      refine (newPage_spec _ hw1).andThen ?_
      rintro y w2 ⟨hw2, k2, -⟩
      refine (newPage_spec _ hw2).mono ?_
      rintro z w3 ⟨hw3, k3, -⟩
      obtain ⟨hs1, -, hs2⟩ := List.pairwise_append.mp hsort
      refine ⟨_, ⟨nodeKid perOps z [] (perKid x l') [(p, perKid y [p])], ⟨.node z _ _ (.leaf _ ⟨_, hl', rfl, by omega⟩) ?_ ⟨by simp, by simp; omega⟩,
          ⟨1, by simp [nodeKid, perKid, deeper]⟩, by
            simp only [nodeKid, perKid, lsq_nil, List.nil_append, rsq_cons, rsq_nil, List.append_nil]
            exact dense_ents l' ⟨⟨_, _, rfl⟩, trivial⟩⟩,
        rfl, rfl, ?_, ?_, ?_⟩, hw3.congr ?_, k1.trans ((k2.sub (Multiset.le_add_left _ _)).trans (k3.sub ?_))⟩
      · intro r hr
        simp only [List.mem_singleton] at hr
        subst hr
        exact .leaf _ ⟨[p], by simp, rfl, by simp; omega⟩
      · simp [nodeKid, perKid, ents, List.filterMap_map, entOf, Function.comp_def]; rfl
      · show (_ ++ _ ++ _ : List (Item Nat Nat)).Pairwise _
        simp only [lsq_nil, rsq_cons, rsq_nil, perKid, List.nil_append, List.append_nil, List.map_cons, List.map_nil]
        refine List.pairwise_append.mpr ⟨List.pairwise_map.mpr hs1, by simp [Item.key], ?_⟩
        intro u hu v hv
        obtain ⟨i, hi, rfl⟩ := List.mem_map.mp hu
        have := hs2 i hi p (by simp)
        rcases List.mem_cons.mp hv with rfl | hv
        · exact this
        · rw [List.mem_singleton.mp hv]; exact this
      · intro u k v hu
        have hu : l'.map Item.ent ++ [.sep p, .ent p] = u ++ Item.sep k :: v := by
          rw [← hu]; simp [nodeKid, perKid]
        rcases List.append_eq_append_iff.mp hu with ⟨r, rfl, hr⟩ | ⟨r, hr, hr2⟩
        · cases r with
          | nil => simp only [List.nil_append, List.cons.injEq] at hr; exact ⟨p, [], hr.2.symm, by cases hr.1; rfl⟩
          | cons z r =>
            simp only [List.cons_append, List.cons.injEq] at hr
            cases r with
            | nil => simp at hr
            | cons z' r => simp at hr
        · cases r with
          | nil =>
            simp only [List.nil_append, List.cons.injEq] at hr2
            exact ⟨p, [], hr2.2, by cases hr2.1; rfl⟩
          | cons z' r =>
            simp only [List.cons_append, List.cons.injEq] at hr2
            have : Item.sep k ∈ l'.map (Item.ent : Nat → Item Nat Nat) := by
              rw [hr, hr2.1]; simp
            simp at this
      · simp only [nodeKid, lpg_nil, rpg_cons, rpg_nil, perKid, keysOf, kidsOf, List.map_nil, List.map_cons, List.nil_append, perOps]; abel
      · exact le_of_eq_add ({(y, .tagLeaf [p])} + {(x, .tagLeaf l')}) (by abel)

/-- Moving the positions into a page of their own. -/
theorem tagsMove_spec {kw ps : Nat} {hps : 1024 ≤ ps} {d : Nat} {a b : List TagEnt} {o : TagEnt}
    (hpz : w.pageSize = ps) (ho : NormalizedTo kw o.key) (hinl : o.inl = o.poss) (hpg : o.pg = 0)
    (hne : o.poss ≠ []) (hlen : 11 + 8 * o.poss.length ≤ ps) (hsort : o.poss.Pairwise (· ≤ ·))
    (hw : Own w A X ({(d, tgNode (a ++ o :: b))} + (tgPg (a ++ o :: b) + Q))) (hd : IsDirty w d) :
    Run (tagsMove d a.length) w fun _ w' => ∃ e : TagEnt, TagOk kw ps hps e ∧ e.key = o.key ∧ e.poss = o.poss ∧
      e.inl = [] ∧ Own w' A X ({(d, tgNode (a ++ e :: b))} + (tgPg (a ++ e :: b) + Q)) ∧ Keep Q w w' ∧ IsDirty w' d := by
  unfold tagsMove
  have h1 : tagsTake a.length (tgNode (a ++ o :: b)) = .ok (o.poss, tgNode (a ++ { o with inl := [] } :: b)) := by
    unfold tagsTake tgNode
    simp only [tg_get]
    rw [← tg_keys a b (o := o) (o' := { o with inl := [] }) rfl, ← tg_set a b o { o with inl := [] }, ← hinl]
    rfl
  refine (modDirty_spec hw hd h1).andThen ?_
  rintro l w1 ⟨rfl, hw1, k1, hd1⟩
  refine (perNew_spec (kw := kw) (hps := hps) (k1.step.pageSize.trans hpz) hne (by omega) hsort hw1).andThen ?_
  rintro c w2 ⟨P, hP, hw2, k2⟩
  have hd2 : IsDirty w2 d := k2.dirty _ (by simp) hd1
  have hw2 : Own w2 A X ({(d, tgNode (a ++ { o with inl := [] } :: b))} + (P + (tgPg (a ++ o :: b) + Q))) := hw2.congr (by abel)
  refine (modDirty_spec (a := ()) (n' := tgNode (a ++ ⟨o.key, c, [], o.poss, P⟩ :: b)) hw2 hd2 ?_).mono ?_
  · unfold tagsPutRoot tgNode
    simp only [tg_get]
    rw [← tg_keys a b (o := { o with inl := [] }) (o' := ⟨o.key, c, [], o.poss, P⟩) rfl,
      ← tg_set a b { o with inl := [] } ⟨o.key, c, [], o.poss, P⟩]
    rfl
  · rintro _ w3 ⟨-, hw3, k3, hd3⟩
    refine ⟨⟨o.key, c, [], o.poss, P⟩, ⟨ho, .inr ⟨rfl, hP⟩⟩, rfl, rfl, rfl, hw3.congr ?_, ?_, hd3⟩
    · simp only [tgPg_append, tgPg_cons, hpg]; abel
    · exact k1.sub (Multiset.le_add_left _ _) |>.trans ((k2.sub (le_of_eq_add
        ({(d, tgNode (a ++ { o with inl := [] } :: b))} + tgPg (a ++ o :: b)) (by abel))).trans
        (k3.sub (le_of_eq_add (P + tgPg (a ++ o :: b)) (by abel))))

/-- The position is recorded in the leaf or in the per-tag tree. -/
theorem tagsChange_spec {bs : List Nat → Nat → Nat} (hbs : Bs bs) {kw ps : Nat} {hps : 1024 ≤ ps} {d tag pos : Nat}
    {es : List TagEnt} (hkw : w.kw = kw) (hpz : w.pageSize = ps) (htag : NormalizedTo kw tag)
    (hes : ∀ e ∈ es, TagOk kw ps hps e) (hkeys : (es.map (·.key)).Pairwise (· < ·))
    (hmax : ∀ e ∈ es, e.key = tag → ∀ q ∈ e.poss, q ≤ pos)
    (hw : Own w A X ({(d, tgNode es)} + (tgPg es + Q))) (hd : IsDirty w d) :
    Run (tagsChange bs d tag pos) w fun _ w' => ∃ a m b e, es = a ++ m ++ b ∧
      ((m = [] ∧ e.poss = [pos]) ∨ ∃ o, m = [o] ∧ o.key = tag ∧ e.poss = o.poss ++ [pos]) ∧
      (∀ x ∈ a, x.key < tag) ∧ (∀ x ∈ b, tag < x.key) ∧ TagOk kw ps hps e ∧ e.key = tag ∧
      (pageSizeOf kw (tgNode (a ++ e :: b)) > ps → 8 * e.inl.length + 37 ≤ ps) ∧ TgGrown m e ∧
      Own w' A X ({(d, tgNode (a ++ e :: b))} + (tgPg (a ++ e :: b) + Q)) ∧ Keep Q w w' ∧ IsDirty w' d := by
  obtain ⟨a, m, b, rfl, -, hm, ha, hb, hs⟩ := putEnt_split hkeys (⟨tag, 0, [], [], 0⟩ : TagEnt)
  change ∀ x ∈ a, x.key < tag at ha
  change ∀ x ∈ b, tag < x.key at hb
  have hsub : Q ≤ tgPg (a ++ m ++ b) + Q := Multiset.le_add_left _ _
  unfold tagsChange
  rcases hm with rfl | ⟨o, rfl, ho⟩
  · simp only [List.append_nil] at *
    have hs' : searchIdx ((a ++ b).map (·.key)) tag = .error a.length := by
      generalize hr : searchIdx ((a ++ b).map (·.key)) tag = r
      change (match searchIdx ((a ++ b).map (·.key)) tag with | .ok i => _ | .error i => _) at hs
      rw [hr] at hs
      cases r with
      | ok i => exact absurd rfl hs.2
      | error i => rw [hs.1]
    refine (modDirty_spec hw hd (tagsFind_new tag pos a b hs')).andThen ?_
    rintro act w1 ⟨rfl, h1, k1, hd1⟩
    refine .pure ⟨a, [], b, ⟨tag, 0, [pos], [pos], 0⟩, by simp, .inl ⟨rfl, rfl⟩, ha, hb,
      ⟨htag, .inl ⟨rfl, rfl, rfl, by simp, by simp; omega, by simp⟩⟩, rfl, fun _ => by simp; omega, .inl ⟨rfl, rfl⟩,
      h1.congr ?_, k1.sub hsub, hd1⟩
    simp only [tgPg_append, tgPg_cons]; abel
  · have ho : o.key = tag := ho
    subst ho
    have hab : a ++ [o] ++ b = a ++ o :: b := by simp
    rw [hab] at hes hkeys hw hsub hmax hs
    have hs' : searchIdx ((a ++ o :: b).map (·.key)) o.key = .ok a.length := by
      generalize hr : searchIdx ((a ++ o :: b).map (·.key)) o.key = r
      change (match searchIdx ((a ++ o :: b).map (·.key)) o.key with | .ok i => _ | .error i => _) at hs
      rw [hr] at hs
      cases r with
      | ok i => rw [hs.1]
      | error i => exact absurd hs.2 (by simp)
    have hf := tagsFind_old pos a b o hs'
    have hmax' := hmax o (by simp) rfl
    rcases (hes o (by simp)).2 with ⟨h0, hinl, hpg, hne, hlen, hsort⟩ | ⟨hinl, hrep⟩
    · rw [if_pos h0] at hf
      refine (modDirty_spec hw hd hf).andThen ?_
      rintro act w1 ⟨rfl, h1, k1, hd1⟩
      simp only [tagsRest]
      unfold tagsMigrate
      refine (getPage_spec h1 (p := d)
        (n := tgNode (a ++ { o with inl := o.inl ++ [pos], poss := o.poss ++ [pos] } :: b)) (by simp)).andThen ?_
      rintro n w2 ⟨rfl, h2, k2, -⟩
      refine .get ?_
      have hd2 : IsDirty w2 d := k2.dirty _ (by simp) hd1
      have hkw2 : w2.kw = kw := by rw [k2.step.kw, k1.step.kw, hkw]
      have hpz2 : w2.pageSize = ps := by rw [k2.step.pageSize, k1.step.pageSize, hpz]
      rw [hkw2, hpz2]
      have hsort' : (o.poss ++ [pos]).Pairwise (· ≤ ·) :=
        List.pairwise_append.mpr ⟨hsort, by simp, fun x hx y hy => by
          cases List.mem_singleton.mp hy; exact hmax' x hx⟩
      have hkk : Keep Q w w2 := (k1.sub hsub).trans
        (k2.sub (le_of_eq_add ({(d, tgNode (a ++ { o with inl := o.inl ++ [pos], poss := o.poss ++ [pos] } :: b))} +
          tgPg (a ++ o :: b)) (by abel)))
      have hpgeq : tgPg (a ++ { o with inl := o.inl ++ [pos], poss := o.poss ++ [pos] } :: b) = tgPg (a ++ o :: b) := by
        simp only [tgPg_append, tgPg_cons]
      by_cases hc : pageSizeOf kw (tgNode (a ++ { o with inl := o.inl ++ [pos], poss := o.poss ++ [pos] } :: b)) > ps ∧
          (o.inl ++ [pos]).length * 8 * 2 > ps
      · rw [if_pos hc]
        refine (tagsMove_spec (kw := kw) (ps := ps) (hps := hps) (o := { o with inl := o.inl ++ [pos], poss := o.poss ++ [pos] })
          (Q := Q) hpz2 htag (by rw [hinl]) hpg (by simp) (by simp; omega) hsort' (h2.congr (by rw [hpgeq])) hd2).mono ?_
        rintro _ w3 ⟨e, he, hek, hep, hei, h3, k3, hd3⟩
        exact ⟨a, [o], b, e, rfl, .inr ⟨o, rfl, rfl, hep⟩, ha, hb, he, hek, fun _ => by rw [hei]; simp; omega,
          .inr ⟨o, rfl, .inr (.inr ⟨hei, by rw [hinl]; exact List.length_pos_of_ne_nil hne⟩)⟩, h3, hkk.trans k3, hd3⟩
      · rw [if_neg hc]
        have hsz := tgNode_size kw (a ++ { o with inl := o.inl ++ [pos], poss := o.poss ++ [pos] } :: b)
        have hlen2 : (o.inl ++ [pos]).length = o.poss.length + 1 := by simp [hinl]
        simp only [List.map_append, List.map_cons, List.sum_append, List.sum_cons, hlen2] at hsz
        rw [hlen2] at hc
        refine .pure ⟨a, [o], b, { o with inl := o.inl ++ [pos], poss := o.poss ++ [pos] }, rfl, .inr ⟨o, rfl, rfl, rfl⟩,
          ha, hb, ⟨htag, .inl ⟨h0, by simp [hinl], hpg, by simp, ?_, hsort'⟩⟩, rfl, ?_,
          .inr ⟨o, rfl, .inr (.inl ⟨by rw [hinl]; exact hne, by simp⟩)⟩, h2.congr (by rw [hpgeq]), hkk, hd2⟩
        · simp only [List.length_append, List.length_cons, List.length_nil]
          by_contra hcc
          exact hc ⟨by omega, by omega⟩
        · intro hover
          simp only [hlen2]
          by_contra hcc
          exact hc ⟨hover, by omega⟩
    · obtain ⟨K, hK, hrid, hKpg, hKe, hKw, hKs⟩ := hrep
      have hne0 : o.root ≠ 0 := by
        obtain ⟨n, R, hp⟩ := hK.page
        have := (hw.lt (p := K.id) (by rw [tgPg_append, tgPg_cons, hKpg, hp]; simp)).1
        omega
      rw [if_neg hne0] at hf
      refine (modDirty_spec hw hd hf).andThen ?_
      rintro act w1 ⟨rfl, h1, k1, hd1⟩
      simp only [tagsRest]
      have hkw1 : w1.kw = kw := by rw [k1.step.kw, hkw]
      have hpz1 : w1.pageSize = ps := by rw [k1.step.pageSize, hpz]
      have h1 : Own w1 A X (o.pg + ({(d, tgNode (a ++ o :: b))} + (tgPg a + tgPg b + Q))) :=
        h1.congr (by simp only [tgPg_append, tgPg_cons]; abel)
      refine (perAppend_spec (hps := hps) hbs ⟨K, hK, hrid, hKpg, hKe, hKw, hKs⟩ hkw1 hpz1 pos hmax' h1).andThen ?_
      rintro r w2 ⟨P', hrep', h2, k2⟩
      have hd2 : IsDirty w2 d := k2.dirty _ (by simp) hd1
      have h2 : Own w2 A X ({(d, tgNode (a ++ o :: b))} + (P' + (tgPg a + tgPg b + Q))) := h2.congr (by abel)
      refine (modDirty_spec (a := ()) (n' := tgNode (a ++ { o with root := r, poss := o.poss ++ [pos], pg := P' } :: b))
        h2 hd2 ?_).mono ?_
      · unfold tagsSetRoot tgNode
        simp only [hs', tg_get]
        rw [← tg_keys a b (o := o) (o' := { o with root := r, poss := o.poss ++ [pos], pg := P' }) rfl,
          ← tg_set a b o { o with root := r, poss := o.poss ++ [pos], pg := P' }]
        rfl
      · rintro _ w3 ⟨-, h3, k3, hd3⟩
        refine ⟨a, [o], b, { o with root := r, poss := o.poss ++ [pos], pg := P' }, rfl, .inr ⟨o, rfl, rfl, rfl⟩,
          ha, hb, ⟨htag, .inr ⟨hinl, hrep'⟩⟩, rfl, fun _ => by simp only [hinl]; simp; omega,
          .inr ⟨o, rfl, .inl rfl⟩, h3.congr ?_, ?_, hd3⟩
        · simp only [tgPg_append, tgPg_cons]; abel
        · exact (k1.sub hsub).trans ((k2.sub (le_of_eq_add ({(d, tgNode (a ++ o :: b))} + (tgPg a + tgPg b)) (by abel))).trans
            (k3.sub (le_of_eq_add (P' + (tgPg a + tgPg b)) (by abel))))

/-- Splitting the leaf. -/
theorem tagsSplit_spec {kw ps : Nat} {hps : 1024 ≤ ps} {hkw16 : kw ≤ 16} {d : Nat} {es : List TagEnt}
    (hkw : w.kw = kw) (hpz : w.pageSize = ps) (hall : ∀ e ∈ es, TagOk kw ps hps e)
    (hlong : pageSizeOf kw (tgNode es) > ps → 2 ≤ es.length)
    (hhalf : pageSizeOf kw (tgNode es) > ps → TgFit kw ps (es.take (es.length / 2)) ∧ TgFit kw ps (es.drop (es.length / 2)))
    (hw : Own w A X ({(d, tgNode es)} + (tgPg es + Q))) (hd : IsDirty w d) :
    Run (tagsSplit d) w fun s w' => ∃ (t1 : Kid Nat TagEnt) (p : Promo Nat TagEnt),
      s = p.ref ∧ t1.id = d ∧ Tr (tgLayout kw ps hps hkw16) t1 ∧ PromoOk (tgLayout kw ps hps hkw16) p ∧
      (∃ n, (∀ i ∈ n, 0 < i) ∧ t1.sq ++ rsq p.rights = splitSq TagEnt.key es n) ∧
      Own w' A X (t1.pg + rpg p.rights + Q) ∧ Keep Q w w' ∧ t1.dep = {0} ∧ ∀ x ∈ p.rights, x.2.dep = {0} := by
  unfold tagsSplit
  refine .get ?_
  rw [hkw, hpz]
  have hsub : Q ≤ tgPg es + Q := Multiset.le_add_left _ _
  by_cases hs : pageSizeOf kw (tgNode es) > ps
  · have h2 := hlong hs
    have hlt : es.length / 2 < es.length := by omega
    have hcut : tagsCut kw ps (tgNode es) = .ok (some (es[es.length / 2].key, (es.drop (es.length / 2)).map (·.key),
        (es.drop (es.length / 2)).map (·.val)), tgNode (es.take (es.length / 2))) := by
      unfold tagsCut
      rw [tgNode]
      change (if pageSizeOf kw (tgNode es) > ps then _ else _) = _
      rw [if_pos hs]
      simp only [List.length_map]
      rw [← List.map_drop, List.drop_eq_getElem_cons hlt]
      simp only [List.map_cons, ← List.map_take, ← List.map_drop]
      rw [List.drop_eq_getElem_cons hlt]
      rfl
    refine (modDirty_spec hw hd hcut).andThen ?_
    rintro off w1 ⟨rfl, h1, k1, -⟩
    simp only
    refine (newPage_spec _ h1).andThen ?_
    rintro c w2 ⟨h2', k2, -⟩
    refine .pure ⟨tgKid d (es.take (es.length / 2)), some (es[es.length / 2].key, tgKid c (es.drop (es.length / 2))),
      rfl, rfl, .leaf _ ⟨_, rfl, fun e he => hall e (List.mem_of_mem_take he), (hhalf hs).1⟩, ⟨?_, ?_⟩,
      ⟨some (es.length / 2), fun i hi => by cases hi; omega, ?_⟩, h2'.congr ?_,
      (k1.sub hsub).trans (k2.sub (hsub.trans (Multiset.le_add_left _ _))), rfl, by simp [Promo.rights, tgKid]⟩
    · intro x hx
      cases List.mem_singleton.mp hx
      exact .leaf _ ⟨_, rfl, fun e he => hall e (List.mem_of_mem_drop he), (hhalf hs).2⟩
    · intro x hx
      cases List.mem_singleton.mp hx
      exact (hall _ (List.getElem_mem hlt)).1
    · simp [Promo.rights, splitSq, tgKid, List.getElem?_eq_getElem hlt]
    · have : tgPg es = tgPg (es.take (es.length / 2)) + tgPg (es.drop (es.length / 2)) := by
        rw [← tgPg_append, List.take_append_drop]
      simp only [Promo.rights, rpg_cons, rpg_nil, tgKid, tgNode, this]; abel
  · have hcut : tagsCut kw ps (tgNode es) = .ok (none, tgNode es) := by
      unfold tagsCut
      rw [tgNode]
      change (if pageSizeOf kw (tgNode es) > ps then _ else _) = _
      rw [if_neg hs]
    refine (modDirty_spec hw hd hcut).andThen ?_
    rintro off w1 ⟨rfl, h1, k1, -⟩
    exact .pure ⟨tgKid d es, none, rfl, rfl, .leaf _ ⟨es, rfl, hall, .inl (by omega)⟩, .none, ⟨none, by simp, by simp [Promo.rights, splitSq, tgKid]⟩,
      h1.congr (by simp [Promo.rights, tgKid]), k1.sub hsub, rfl, by simp [Promo.rights]⟩

/-- `tags_tree_insert` appends the position to the positions of the tag. -/
theorem tagsInsert_spec {bs : List Nat → Nat → Nat} (hbs : Bs bs) {kw ps : Nat} {hps : 1024 ≤ ps} {hkw16 : kw ≤ 16}
    {P : Multiset (Nat × Node)} {idx : Nat → List Nat} (ht : TagsRep kw ps hps hkw16 w.tagsRoot P idx)
    (hkw : w.kw = kw) (hpz : w.pageSize = ps) {tag pos : Nat} (htag : NormalizedTo kw tag)
    (hmax : ∀ q ∈ idx tag, q ≤ pos) (hw : Own w A X (P + Q)) :
    Run (tagsInsert bs tag pos) w fun _ w' => ∃ P', TagsRep kw ps hps hkw16 w'.tagsRoot P'
        (fun h => if h = tag then idx tag ++ [pos] else idx h) ∧
        Own w' A X (P' + Q) ∧ Keep Q w { w' with tagsRoot := w.tagsRoot } := by
  obtain ⟨K, hK, hroot, rfl, hst, hidx⟩ := ht
  have hcard : K.pg.card ≤ w.nextPage := by
    have := hw.card_lt; simp only [Multiset.card_add] at this; omega
  unfold tagsInsert
  refine .get ?_
  rw [hroot]
  refine (descend_spec (Y := tgLayout kw ps hps hkw16)
    (pick := fun keys _ => ub keys tag) (fun keys kids _ => ub_le keys tag) hK w.nextPage [] w Q hcard hw).andThen ?_
  rintro leaf w1 ⟨fs, k, hF, rfl, h1, k1, hl1, hfl⟩
  simp only [List.append_nil]
  obtain ⟨es, hk, hes, hfit, hKsq, hkeys, hzl, hzr, honly⟩ := tags_found_only hF hst
  have hkpg : k.pg = {(k.id, tgNode es)} + tgPg es := by rw [hk]; rfl
  have hKpg : K.pg = k.pg + fpg tagsOps fs k.id := by rw [← hF.eq]; exact plug_pg _ _ _
  have hKid : K.id = rootOf fs k.id := by rw [← hF.eq]; exact plug_id _ _ _
  have hnd : ∀ {x y : TagEnt}, x ∈ ents K.sq → y ∈ ents K.sq → x.key = y.key → x = y := by
    intro x y hx hy hxy
    have hs : (ents K.sq).Pairwise fun a b => a.key < b.key := by
      unfold ents
      rw [List.pairwise_filterMap]
      refine hst.imp ?_
      intro a b hab x hx y hy
      cases a <;> cases b <;> cases hx <;> cases hy
      rcases hab with h | ⟨_, h, _⟩
      · exact h
      · cases h
    have : ((ents K.sq).map TagEnt.key).Nodup := (List.pairwise_map.mpr hs).imp ne_of_lt
    exact List.inj_on_of_nodup_map this hx hy hxy
  have hesin : ∀ e ∈ es, e ∈ ents K.sq := fun e he => by rw [hKsq]; simp [he]
  have hval : ∀ e ∈ ents K.sq, idx e.key = e.poss := by
    intro e he
    rcases hidx e.key with ⟨e', he', h1, h2⟩ | ⟨h1, _⟩
    · rw [h2, hnd he' he h1]
    · exact absurd rfl (h1 e he)
  rw [hKpg, hkpg] at h1
  have h1 : Own w1 A X ({(k.id, tgNode es)} + (tgPg es + (fpg tagsOps fs k.id + Q))) := h1.congr (by abel)
  refine (getDirty_spec h1 hl1).andThen ?_
  rintro d w2 ⟨h2, k2, hd2⟩
  have hkw2 : w2.kw = kw := by rw [k2.step.kw, k1.step.kw, hkw]
  have hps2 : w2.pageSize = ps := by rw [k2.step.pageSize, k1.step.pageSize, hpz]
  refine (tagsChange_spec (hps := hps) hbs hkw2 hps2 htag hes hkeys (fun e he hek q hq => hmax q (by
    rw [← hek, hval e (hesin e he)]; exact hq)) h2 hd2).andThen ?_
  rintro _ w3 ⟨a, m, b, e, hab, hm, ha, hb, he, hek, hlong, hgrown, h3, k3, hd3⟩
  have hkw3 : w3.kw = kw := by rw [k3.step.kw, hkw2]
  have hps3 : w3.pageSize = ps := by rw [k3.step.pageSize, hps2]
  have hall : ∀ x ∈ a ++ e :: b, TagOk kw ps hps x := by
    intro x hx
    simp only [List.mem_append, List.mem_cons] at hx
    rcases hx with hx | rfl | hx
    · exact hes x (by rw [hab]; simp [hx])
    · exact he
    · exact hes x (by rw [hab]; simp [hx])
  refine (tagsSplit_spec (hps := hps) (hkw16 := hkw16) hkw3 hps3 hall ?_
    (fun hs => tgFit_halves hps hkw16 (hab ▸ hfit) hgrown (hlong hs) hs) h3 hd3).andThen ?_
  · intro hs
    have h4 := hlong hs
    by_contra hc
    have hlen : (a ++ e :: b).length = a.length + b.length + 1 := by simp; omega
    have ha0 : a = [] := List.length_eq_zero_iff.mp (by omega)
    have hb0 : b = [] := List.length_eq_zero_iff.mp (by omega)
    subst ha0; subst hb0
    rw [tgNode_size] at hs
    simp at hs
    omega
  rintro s w4 ⟨t1, p, rfl, rfl, ht1, hp, ⟨n, hn0, hn⟩, h4, k4, e1, e2⟩
  rw [hKid]
  have hsubR : ∀ {R : Multiset (Nat × Node)}, fpg tagsOps fs k.id + Q ≤ R + (fpg tagsOps fs k.id + Q) :=
    Multiset.le_add_left _ _
  refine (finish_spec (Y := tgLayout kw ps hps hkw16) hF.frames (fun f _ h => by cases h) ht1 hp
    (by rw [k4.step.kw, hkw3]; rfl) (by rw [k4.step.pageSize, hps3]; rfl)
    (h4.congr (by show t1.pg + rpg p.rights + fpg tagsOps fs k.id + Q = _; abel))
    (fun f hf => ?_)).andThen ?_
  · have hm := mem_fpg (O := tagsOps) fs k.id hf
    exact k4.loaded _ (by simp [hm]) (k3.loaded _ (by simp [hm]) (k2.loaded _ (by simp [hm]) (hfl f hf)))
  rintro root w5 ⟨U, hU, rfl, hUsq, h5, k5, -, hev⟩
  have hsplit : Strict TagEnt.key U.sq := by
    rw [hUsq, hn]
    refine Strict.splitSq (Strict.put (m := m) ?_ ?_ ?_ ?_ ?_) n hn0
    · rw [← hab, ← hKsq]; exact hst
    · rw [hek]; exact hzl
    · rw [hek]; exact hzr
    · rw [hek]; exact ha
    · rw [hek]; exact hb
  have hUe : ents U.sq = ents (zl fs) ++ (a ++ e :: b) ++ ents (zr fs) := by
    rw [hUsq, hn, ents_append, ents_append, ents_splitSq]
  have hKe : ents K.sq = ents (zl fs) ++ (a ++ m ++ b) ++ ents (zr fs) := by
    rw [hKsq, ents_append, ents_append, ents_map, hab]
  have hkk : Keep Q w w5 := (k1.sub (Multiset.le_add_left _ _)).trans ((k2.sub ((Multiset.le_add_left _ _).trans hsubR)).trans
    ((k3.sub (Multiset.le_add_left _ _)).trans ((k4.sub (Multiset.le_add_left _ _)).trans k5)))
  refine .modW ⟨U.pg, ⟨U, ⟨hU, hev k (by rw [hk]; rfl) (hF.eq.symm ▸ hK.even) e1 e2, by
      rw [hUsq, hn]; exact Dense.splitSq (hKsq ▸ hK.full) (by simp) n hn0⟩, rfl, rfl, hsplit, ?_⟩, h5.setRoots _ _ _, ?_⟩
  · intro h
    by_cases hh : h = tag
    · subst hh
      left
      refine ⟨e, by rw [hUe]; simp, hek, ?_⟩
      show (if h = h then idx h ++ [pos] else idx h) = _
      rw [if_pos rfl]
      rcases hm with ⟨rfl, hm⟩ | ⟨o, rfl, ho, hm⟩
      · rcases hidx h with ⟨e', he', h6, h7⟩ | ⟨_, h7⟩
        · have h8 := honly e' he' h6
          rw [hab] at h8
          simp only [List.append_nil, List.mem_append] at h8
          rcases h8 with h8 | h8
          · have := ha _ h8; omega
          · have := hb _ h8; omega
        · rw [h7, hm]; rfl
      · rw [hm, ← hval o (by rw [hKe]; simp), ho]
    · show (∃ x ∈ ents U.sq, x.key = h ∧ (if h = tag then idx tag ++ [pos] else idx h) = x.poss) ∨
        (∀ x ∈ ents U.sq, x.key ≠ h) ∧ (if h = tag then idx tag ++ [pos] else idx h) = []
      rw [if_neg hh]
      have hiff : ∀ x : TagEnt, x.key ≠ tag → (x ∈ ents U.sq ↔ x ∈ ents K.sq) := by
        intro x hx
        rw [hUe, hKe]
        have hxe : x ≠ e := by rintro rfl; exact hx hek
        have hxm : x ∉ m := by
          rcases hm with ⟨rfl, _⟩ | ⟨o, rfl, ho, _⟩
          · simp
          · intro h; cases List.mem_singleton.mp h; exact hx ho
        simp [hxe, hxm]
      rcases hidx h with ⟨e', he', h6, h7⟩ | ⟨h6, h7⟩
      · left
        exact ⟨e', (hiff e' (by omega)).mpr he', h6, h7⟩
      · right
        refine ⟨fun x hx hxk => ?_, h7⟩
        exact h6 x ((hiff x (by omega)).mp hx) hxk
  · exact ⟨⟨⟨hkk.step.1, hkk.step.2, hkk.step.3, hkk.step.4, hkk.step.5, hkk.step.6, (hroot.trans hKid).symm, hkk.step.8, hkk.step.9, hkk.step.10,
      hkk.step.11⟩, hkk.loaded, hkk.dirty, hkk.freed⟩, hkk.tight⟩

/-! ## Reading -/

/-- The iterator yields the positions of the tag in range, in order; of equal positions some may be left out. -/
theorem tagScan_spec {bs : List Nat → Nat → Nat} (hbs : Bs bs) {v : Nat → Option Node} {kw ps : Nat} {hps : 1024 ≤ ps}
    {hkw16 : kw ≤ 16} {root : Nat} {P : Multiset (Nat × Node)} {idx : Nat → List Nat}
    (h : TagsRep kw ps hps hkw16 root P idx) (hs : Sees v P) (hid : ∀ p ∈ ids P, p ≠ 0) {fuel : Nat} (tag : Nat)
    (hf : (idx tag).length + 2 * P.card ≤ fuel) (start : Option Nat) (back : Bool) :
    (tagScan bs v fuel root tag start back).Sublist (if back then (idx tag).reverse else idx tag) ∧
      (idx tag).Pairwise (· ≤ ·) ∧
      ∀ p, p ∈ tagScan bs v fuel root tag start back ↔ p ∈ idx tag ∧ InRange start back p := by
  obtain ⟨K, hK, rfl, rfl, hst, hidx⟩ := h
  obtain ⟨fs, k, n, hF, h1, h2, h3, h4⟩ := findLeaf_spec (Y := tgLayout kw ps hps hkw16) (v := v)
    (pick := fun keys _ => ub keys tag) (fun keys kids _ => ub_le keys tag) hK fuel (by omega) hs
  obtain ⟨es, hk, hes, hfit, hKsq, hkeys, _, _, honly⟩ := tags_found_only hF hst
  have hKpg : K.pg = {(k.id, tgNode es)} + tgPg es + fpg tagsOps fs k.id := by
    rw [← hF.eq]
    show (plug tagsOps fs k).pg = _
    rw [plug_pg, hk]; rfl
  have hn : n = tgNode es := by
    have := hs k.id (tgNode es) (by rw [hKpg]; simp)
    rw [this] at h3
    exact (Option.some.inj h3).symm
  unfold tagScan
  rw [show findLeaf tagsOps (fun keys _ => ub keys tag) v fuel K.id = .ok n from h1, hn]
  simp only [tgNode]
  cases hsr : searchIdx (es.map (·.key)) tag with
  | error i =>
    have hno := (searchIdx_error (hkeys.imp le_of_lt) hsr).2
    have hempty : idx tag = [] := by
      rcases hidx tag with ⟨e, he, h6, h7⟩ | ⟨_, h7⟩
      · exact absurd (List.mem_map.mpr ⟨e, honly e he h6, h6⟩) hno
      · exact h7
    simp [hempty]
  | ok i =>
    obtain ⟨h5, _⟩ := searchIdx_ok hsr
    rw [List.getElem?_map] at h5
    obtain ⟨e, h6, h7⟩ := Option.map_eq_some_iff.mp h5
    have hmem : e ∈ es := List.mem_of_getElem? h6
    have hpos : idx tag = e.poss := by
      rcases hidx tag with ⟨e', he', h8, h9⟩ | ⟨h8, _⟩
      · have hnd : (es.map (·.key)).Nodup := hkeys.imp ne_of_lt
        rw [h9, List.inj_on_of_nodup_map hnd (honly e' he' h8) hmem (h8.trans h7.symm)]
      · exact absurd h7 (h8 e (by rw [hKsq]; simp [hmem]))
    simp only [List.getElem?_map, h6, Option.map_some, TagEnt.val]
    rw [hpos]
    rw [hpos] at hf
    rcases (hes e hmem).2 with ⟨h0, hinl, _, _, _, hsort⟩ | ⟨_, hrep⟩
    · rw [if_pos h0, hinl, clip_eq start back hsort]
      refine ⟨?_, hsort, fun p => ?_⟩
      · cases back
        · simp
        · simp only [if_true]; exact List.filter_sublist.reverse
      · cases back <;> simp
    · have hle : e.pg ≤ K.pg := by
        obtain ⟨x, y, rfl⟩ := List.append_of_mem hmem
        rw [hKpg, tgPg_append, tgPg_cons]
        exact le_of_eq_add ({(k.id, tgNode (x ++ e :: y))} + tgPg x + tgPg y + fpg tagsOps fs k.id) (by abel)
      have hne : e.root ≠ 0 := by
        obtain ⟨L, hL, hr, hp, _⟩ := hrep
        obtain ⟨m, R, hp'⟩ := hL.page
        rw [hr]
        refine hid _ (Multiset.mem_map.mpr ⟨(L.id, m), Multiset.mem_of_le hle ?_, rfl⟩)
        rw [hp, hp']; simp
      rw [if_neg hne]
      have hcard := Multiset.card_le_card hle
      obtain ⟨out, hrun, ho1, ho2⟩ := perWalk_spec (bs := bs) (fuel := fuel) hbs hrep
        (fun p m hm => hs p m (Multiset.mem_of_le hle hm)) (by omega) start back
      rw [hrun]
      exact ⟨ho1, hrep.sorted, ho2⟩

/-! ## Examples -/

section Examples

private def pages : Nat → Option Node
  | 3 => some (.tagsInternal [40] [4, 5])
  | 4 => some (.tagsLeaf [10, 20] [⟨0, [1, 2, 2]⟩, ⟨6, []⟩])
  | 5 => some (.tagsLeaf [40] [⟨0, [5]⟩])
  | 6 => some (.tagLeaf [3, 7])
  | _ => none

example : tagScan ub pages 9 3 10 (some 2) true = [2, 2, 1] := by decide +kernel
example : tagScan ub pages 9 3 20 (some 4) false = [7] := by decide +kernel
example : tagScan ub pages 9 3 40 none false = [5] := by decide +kernel
example : tagScan ub pages 9 3 30 none false = [] := by decide +kernel
example : tagsFind 20 9 (.tagsLeaf [10, 20] [⟨0, [1]⟩, ⟨0, [2]⟩]) =
    .ok (.inline 1 2, .tagsLeaf [10, 20] [⟨0, [1]⟩, ⟨0, [2, 9]⟩]) := by decide +kernel
example : tagsCut 8 30 (.tagsLeaf [10, 20] [⟨0, [1]⟩, ⟨0, [2]⟩]) =
    .ok (some (20, [20], [⟨0, [2]⟩]), .tagsLeaf [10] [⟨0, [1]⟩]) := by decide +kernel

end Examples

end Uma.Page
