import Mathlib.Data.String.Basic
import Verif.Page.Upsert

/-!
# The tracking tree (umadb-core/src/db.rs 43-78 and 246-480, tracking_tree_nodes.rs)

Sources are compared as Rust compares `str`, by bytes; for UTF-8 that is the order of Lean's `String`.
-/

namespace Uma.Page
open Uma.Codec

/-- Parameters of the tracking tree; `split_off` is tracking_tree_nodes.rs 204-218. -/
def trOps : Ops String where
  inner := .trackInternal
  un
    | .trackInternal keys kids => some (keys, kids)
    | _ => none
  isLeaf
    | .trackLeaf _ _ => true
    | _ => false
  rightmost := false
  always := false
  minKeys := 3
  splitPos n := n / 2

/-- `TrackingLeafNode::get`, tracking_tree_nodes.rs 124-129. -/
def trackGet (src : String) : Node → Except Err (Option Nat)
  | .trackLeaf keys values =>
    match searchIdx keys src with
    | .error _ => .ok none
    | .ok i =>
      match values[i]? with
      | none => .error (.panic "index out of bounds")
      | some p => .ok (some p)
  | _ => .error (.databaseCorrupted "Expected TrackingLeaf")

/-- `UmaDb::get_tracking_info`, db.rs 45-77; `v` and `root` belong to the reader. -/
def trackLookup (v : Nat → Option Node) (fuel root : Nat) (src : String) : Except Err (Option Nat) :=
  if root = 0 then .ok none
  else match findLeaf trOps (fun keys _ => ub keys src) v fuel root with
    | .error e => .error e
    | .ok n => trackGet src n

/-- Insertion or update in a leaf, db.rs 347-360. -/
def trackSet (src : String) (pos : Nat) (keys : List String) (values : List Nat) :
    Except Err (List String × List Nat) :=
  match searchIdx keys src with
  | .ok i => if i < values.length then .ok (keys, values.set i pos) else .error (.panic "index out of bounds")
  | .error i =>
    if i ≤ values.length then .ok (keys.insertIdx i src, values.insertIdx i pos)
    else .error (.panic "insertion index out of bounds")

/-- The changed leaf and, if it had to be split, the key and content of the right part, db.rs 340-399. -/
def trackPut (src : String) (pos kw ps : Nat) : Node → Except Err (Option (String × List String × List Nat) × Node)
  | .trackLeaf keys values =>
    match trackSet src pos keys values with
    | .error e => .error e
    | .ok (keys, values) =>
      if pageSizeOf kw (.trackLeaf keys values) > ps then
        if keys.length < 2 then .error (.databaseCorrupted "Cannot split tracking leaf with too few keys")
        else
          match keys.drop (keys.length / 2) with
          | [] => .error (.databaseCorrupted "empty right split")
          | k :: right => .ok (some (k, k :: right, values.drop (keys.length / 2)),
              .trackLeaf (keys.take (keys.length / 2)) (values.take (keys.length / 2)))
      else .ok (none, .trackLeaf keys values)
  | _ => .error (.databaseCorrupted "Dirty tracking page not a leaf")

/-- db.rs 335-399. -/
def trackLeafPut (d : Nat) (src : String) (pos : Nat) : W (Option (String × Nat)) := do
  let w ← getW
  let off ← modDirty d (trackPut src pos w.kw w.pageSize)
  match off with
  | none => pure none
  | some (k, keys, values) => do
    let c ← newPage (.trackLeaf keys values)
    pure (some (k, c))

/-- The monotonicity check, db.rs 316-330. -/
def trackCheck (src : String) (pos : Nat) (n : Node) : W Unit :=
  match trackGet src n with
  | .error e => fail e
  | .ok none => pure ()
  | .ok (some old) =>
    if pos ≤ old then fail (.integrity "non-increasing tracking position for source") else pure ()

/-- `tracking_upsert` with a root page, db.rs 286-478. -/
def trackInto (src : String) (pos : Nat) : W Unit := do
  let w ← getW
  let leaf ← descend trOps (fun keys _ => ub keys src) w.nextPage w.trackRoot []
  let n ← getPage leaf.1
  trackCheck src pos n
  let d ← getDirty leaf.1
  let s ← trackLeafPut d src pos
  let root ← finish trOps w.trackRoot leaf.2 leaf.1 d s
  modW fun w => { w with trackRoot := root }

/-- `tracking_upsert` without a root page, db.rs 270-283. -/
def trackNew (src : String) (pos : Nat) : W Unit := do
  let root ← newPage (.trackLeaf [src] [pos])
  modW fun w => { w with trackRoot := root }

/-- `tracking_upsert`, db.rs 246-480. -/
def trackUpsert (src : String) (pos : Nat) : W Unit := fun w =>
  if 255 < src.utf8ByteSize then (.error (.invalidArgument "tracking source too long"), w)
  else if w.trackRoot = 0 then trackNew src pos w
  else trackInto src pos w

/-! ## The tree -/

def trNode (es : List (String × Nat)) : Node := .trackLeaf (es.map (·.1)) (es.map (·.2))

def trKid (id : Nat) (es : List (String × Nat)) : Kid String (String × Nat) where
  id := id
  pg := {(id, trNode es)}
  sq := es.map .ent

/-- A leaf; its size is not bounded, see finding 6 in DESIGN.md. -/
def TrLeaf (k : Kid String (String × Nat)) : Prop :=
  ∃ es, k = trKid k.id es ∧ ∀ e ∈ es, e.1.utf8ByteSize ≤ 255

theorem sum_le_mul {α : Type} (f : α → Nat) (b : Nat) : ∀ l : List α, (∀ x ∈ l, f x ≤ b) →
    (l.map f).sum ≤ b * l.length
  | [], _ => by simp
  | x :: l, h => by
    have h1 := h x (by simp)
    have h2 := sum_le_mul f b l fun y hy => h y (by simp [hy])
    simp only [List.map_cons, List.sum_cons, List.length_cons, Nat.mul_add, Nat.mul_one]
    omega

/-- The tracking tree. -/
def trLayout (kw ps : Nat) (hps : 1024 ≤ ps) : Layout String (String × Nat) where
  ops := trOps
  kw := kw
  ps := ps
  Leaf := TrLeaf
  kfit s := s.utf8ByteSize ≤ 255
  fit keys := 1 ≤ keys.length ∧ ∀ k ∈ keys, k.utf8ByteSize ≤ 255
  un_inner _ _ := rfl
  inner_leaf _ _ := rfl
  leaf_page k h := by
    obtain ⟨es, e, _⟩ := h
    exact ⟨trNode es, 0, by rw [e]; simp [trKid], rfl⟩
  fit_kfit _ h := h.2
  fit_one k h := ⟨by simp, by simpa using h⟩
  fit_over h := by cases h
  fit_ins a b k kids hl hf hk hs := by
    refine ⟨by simp; omega, ?_⟩
    intro x hx
    simp only [List.mem_append, List.mem_cons] at hx
    rcases hx with hx | rfl | hx
    · exact hf.2 x (by simp [hx])
    · exact hk
    · exact hf.2 x (by simp [hx])
  fit_split a b k kids hl hf hk hs := by
    have hall : ∀ x ∈ a ++ k :: b, x.utf8ByteSize ≤ 255 := by
      intro x hx
      simp only [List.mem_append, List.mem_cons] at hx
      rcases hx with hx | rfl | hx
      · exact hf.2 x (by simp [hx])
      · exact hk
      · exact hf.2 x (by simp [hx])
    generalize a ++ k :: b = keys at *
    have hs : ps < pageSizeOf kw (.trackInternal keys kids) := hs
    have hsum := sum_le_mul (fun s : String => 1 + s.utf8ByteSize) 256 keys (fun x hx => by have := hall x hx; omega)
    simp only [pageSizeOf, nodeSize] at hs
    have hh : pageHeaderSize = 9 := rfl
    rw [hh] at hs
    have hk3 : 3 ≤ keys.length := by omega
    show 3 ≤ keys.length ∧ keys.length / 2 < keys.length ∧
      (1 ≤ (keys.take (keys.length / 2)).length ∧ _) ∧ (1 ≤ (keys.drop (keys.length / 2 + 1)).length ∧ _)
    refine ⟨hk3, by omega, ⟨by simp; omega, fun x hx => hall x (List.mem_of_mem_take hx)⟩,
      ⟨by simp; omega, fun x hx => hall x (List.mem_of_mem_drop hx)⟩⟩

/-- `root` and the pages `P` hold the tracking table `t`. -/
def TrackRep (kw ps : Nat) (hps : 1024 ≤ ps) (root : Nat) (P : Multiset (Nat × Node)) (t : String → Option Nat) : Prop :=
  (root = 0 ∧ P = 0 ∧ ∀ s, t s = none) ∨
  ∃ K, Bt (trLayout kw ps hps) K ∧ root = K.id ∧ P = K.pg ∧ Strict Prod.fst K.sq ∧
    ∀ s p, t s = some p ↔ (s, p) ∈ ents K.sq

theorem trackGet_spec {es : List (String × Nat)} (h : (es.map (·.1)).Pairwise (· < ·)) (src : String) :
    ∃ o, trackGet src (trNode es) = .ok o ∧ ∀ p, o = some p ↔ (src, p) ∈ es := by
  unfold trackGet trNode
  simp only
  cases hs : searchIdx (es.map (·.1)) src with
  | error i =>
    refine ⟨none, rfl, fun p => ?_⟩
    have := (searchIdx_error (h.imp le_of_lt) hs).2
    constructor
    · intro h; cases h
    · intro hm; exact absurd (List.mem_map.mpr ⟨_, hm, rfl⟩) this
  | ok i =>
    obtain ⟨h1, _⟩ := searchIdx_ok hs
    rw [List.getElem?_map] at h1
    obtain ⟨e, h2, h3⟩ := Option.map_eq_some_iff.mp h1
    refine ⟨some e.2, by simp [h2], fun p => ?_⟩
    have hm : e ∈ es := List.mem_of_getElem? h2
    constructor
    · intro h; cases h; rw [← h3]; exact hm
    · intro hp
      have hnd : (es.map (·.1)).Nodup := h.imp ne_of_lt
      have : e = (src, p) := List.inj_on_of_nodup_map hnd hm hp h3
      rw [this]

/-- The leaf found is the only place for `src`. -/
theorem found_only {kw ps : Nat} {hps : 1024 ≤ ps} {K : Kid String (String × Nat)} {src : String}
    {fs : List (Fr String (String × Nat))} {k : Kid String (String × Nat)}
    (hF : Found (trLayout kw ps hps) (fun keys _ => ub keys src) K fs k) (hK : Strict Prod.fst K.sq) :
    ∃ es, k = trKid k.id es ∧ (∀ e ∈ es, e.1.utf8ByteSize ≤ 255) ∧ K.sq = zl fs ++ es.map .ent ++ zr fs ∧
      (es.map (·.1)).Pairwise (· < ·) ∧ (∀ i ∈ zl fs, i.key Prod.fst < src ∨ i = .sep src) ∧
      (∀ i ∈ zr fs, src < i.key Prod.fst) ∧ ∀ p, (src, p) ∈ ents K.sq ↔ (src, p) ∈ es := by
  obtain ⟨es, hk, hes⟩ := hF.leaf
  have hKsq : K.sq = zl fs ++ es.map .ent ++ zr fs := by
    rw [← hF.eq, plug_sq, hk]; rfl
  obtain ⟨hl, hr⟩ := zl_zr_strict (f := Prod.fst) (O := trOps) (x := src) fs k (by
    show Strict _ (plug (trLayout kw ps hps).ops fs k).sq
    rw [hF.eq]; exact hK) hF.picked
  have hst : Strict Prod.fst (es.map (Item.ent (κ := String))) := List.Pairwise.sublist
    (by rw [hKsq]; exact (List.sublist_append_right _ _).trans (List.sublist_append_left _ _)) hK
  refine ⟨es, hk, hes, hKsq, strict_keys hst, hl, hr, fun p => ?_⟩
  rw [hKsq, ents_append, ents_append, ents_map]
  simp only [List.mem_append]
  constructor
  · rintro ((h | h) | h)
    · rcases hl (.ent (src, p)) (mem_ents.mp h) with h' | h'
      · exact absurd h' (lt_irrefl src)
      · cases h'
    · exact h
    · exact absurd (hr (.ent (src, p)) (mem_ents.mp h)) (lt_irrefl src)
  · intro h; exact .inl (.inr h)

/-- Reading the tracking table. -/
theorem trackLookup_spec {kw ps : Nat} {hps : 1024 ≤ ps} {root : Nat} {P : Multiset (Nat × Node)}
    {t : String → Option Nat} (h : TrackRep kw ps hps root P t) {v : Nat → Option Node} (hs : Sees v P)
    (hid : ∀ p ∈ ids P, p ≠ 0) {fuel : Nat} (hf : P.card ≤ fuel) (src : String) :
    trackLookup v fuel root src = .ok (t src) := by
  rcases h with ⟨rfl, rfl, h⟩ | ⟨K, hK, rfl, rfl, hst, ht⟩
  · rw [h]; rfl
  · obtain ⟨m, R, hpg⟩ := hK.page
    unfold trackLookup
    rw [if_neg (hid _ (by rw [hpg]; simp))]
    obtain ⟨fs, k, n, hF, h1, h2, h3, h4⟩ := findLeaf_spec (Y := trLayout kw ps hps) (v := v)
      (pick := fun keys _ => ub keys src) (fun keys kids _ => ub_le keys src) hK fuel hf hs
    obtain ⟨es, hk, hes, _, hkeys, _, _, honly⟩ := found_only hF hst
    have hn : n = trNode es := by
      rw [hk] at h2
      simpa [trKid] using h2
    rw [show findLeaf trOps (fun keys _ => ub keys src) v fuel K.id = .ok n from h1, hn]
    obtain ⟨o, h5, h6⟩ := trackGet_spec hkeys src
    simp only [h5, Except.ok.injEq]
    refine Option.ext fun p => ?_
    rw [ht, honly]
    exact h6 p

theorem trackSet_eq {es : List (String × Nat)} (h : (es.map (·.1)).Pairwise (· < ·)) (src : String) (pos : Nat) :
    trackSet src pos (es.map (·.1)) (es.map (·.2)) =
      .ok ((putEnt Prod.fst (src, pos) es).map (·.1), (putEnt Prod.fst (src, pos) es).map (·.2)) := by
  unfold trackSet putEnt
  simp only
  cases hs : searchIdx (es.map (·.1)) src with
  | ok i =>
    obtain ⟨h1, _⟩ := searchIdx_ok hs
    have hlt := (List.getElem?_eq_some_iff.mp h1).1
    simp only [List.length_map] at hlt ⊢
    rw [if_pos hlt]
    simp only [List.map_set, Except.ok.injEq, Prod.mk.injEq, and_true]
    refine (List.ext_getElem? fun j => ?_)
    rw [List.getElem?_set]
    split
    · next hj => subst hj; rw [h1]; simp [hlt]
    · rfl
  | error i =>
    obtain ⟨h1, _⟩ := searchIdx_error (h.imp le_of_lt) hs
    have hle := ub_le (es.map (·.1)) src
    simp only [List.length_map] at hle ⊢
    rw [if_pos (by omega)]
    have := insertIdx_at (es.take i) (es.drop i) (src, pos)
    rw [List.take_append_drop, List.length_take, Nat.min_eq_left (by omega)] at this
    rw [this]
    have h2 := insertIdx_at ((es.map (·.1)).take i) ((es.map (·.1)).drop i) src
    rw [List.take_append_drop, List.length_take, Nat.min_eq_left (by simp; omega)] at h2
    have h3 := insertIdx_at ((es.map (·.2)).take i) ((es.map (·.2)).drop i) pos
    rw [List.take_append_drop, List.length_take, Nat.min_eq_left (by simp; omega)] at h3
    rw [h2, h3]
    simp [List.map_take, List.map_drop]

/-- Where the leaf is split. -/
def trCut (kw ps : Nat) (es : List (String × Nat)) : Option Nat :=
  if pageSizeOf kw (trNode es) > ps then some (es.length / 2) else none

theorem trackPut_eq {es : List (String × Nat)} (h : (es.map (·.1)).Pairwise (· < ·)) (src : String) (pos kw ps : Nat)
    (h2 : pageSizeOf kw (trNode (putEnt Prod.fst (src, pos) es)) > ps → 2 ≤ (putEnt Prod.fst (src, pos) es).length) :
    trackPut src pos kw ps (trNode es) = .ok
      (match trCut kw ps (putEnt Prod.fst (src, pos) es) with
      | none => (none, trNode (putEnt Prod.fst (src, pos) es))
      | some m => match (putEnt Prod.fst (src, pos) es)[m]? with
        | none => (none, trNode (putEnt Prod.fst (src, pos) es))
        | some e => (some (e.1, ((putEnt Prod.fst (src, pos) es).drop m).map (·.1),
            ((putEnt Prod.fst (src, pos) es).drop m).map (·.2)), trNode ((putEnt Prod.fst (src, pos) es).take m))) := by
  unfold trackPut
  rw [trNode]
  simp only [trackSet_eq h]
  generalize putEnt Prod.fst (src, pos) es = l at *
  unfold trCut
  change (if pageSizeOf kw (trNode l) > ps then _ else _) = _
  by_cases hs : pageSizeOf kw (trNode l) > ps
  · have := h2 hs
    rw [if_pos hs, if_pos hs, if_neg (by simp; omega)]
    have hlt : l.length / 2 < l.length := by omega
    simp only [List.length_map, List.getElem?_eq_getElem hlt]
    rw [← List.map_drop, List.drop_eq_getElem_cons hlt]
    simp only [List.map_cons, ← List.map_take, ← List.map_drop]
    rw [List.drop_eq_getElem_cons hlt]
    rfl
  · rw [if_neg hs, if_neg hs]; rfl

variable {w : Writer} {A : Nat → Prop} {X : Multiset Nat} {Q : Multiset (Nat × Node)}

/-- Changing the leaf. -/
theorem trackLeafPut_spec {kw ps : Nat} {hps : 1024 ≤ ps} {es : List (String × Nat)} {d : Nat} {src : String}
    (hes : ∀ e ∈ es, e.1.utf8ByteSize ≤ 255) (hsrc : src.utf8ByteSize ≤ 255) (hkeys : (es.map (·.1)).Pairwise (· < ·))
    (pos : Nat) (hkw : w.kw = kw) (hpz : w.pageSize = ps) (hw : Own w A X ({(d, trNode es)} + Q)) (hd : IsDirty w d) :
    Run (trackLeafPut d src pos) w fun s w' => ∃ (t1 : Kid String (String × Nat)) (p : Promo String (String × Nat)),
      s = p.ref ∧ t1.id = d ∧ Tr (trLayout kw ps hps) t1 ∧ PromoOk (trLayout kw ps hps) p ∧
      (∃ n, (∀ i ∈ n, 0 < i) ∧ t1.sq ++ rsq p.rights = splitSq Prod.fst (putEnt Prod.fst (src, pos) es) n) ∧
      Own w' A X (t1.pg + rpg p.rights + Q) ∧ Keep Q w w' ∧ t1.dep = {0} ∧ ∀ x ∈ p.rights, x.2.dep = {0} := by
  obtain ⟨B1, m, B2, he1, he2, hm, _, _, _⟩ := putEnt_split hkeys (src, pos)
  have hall : ∀ e ∈ putEnt Prod.fst (src, pos) es, e.1.utf8ByteSize ≤ 255 := by
    intro e he
    rw [he2] at he
    simp only [List.mem_append, List.mem_cons] at he
    rcases he with he | rfl | he
    · exact hes e (by rw [he1]; simp [he])
    · exact hsrc
    · exact hes e (by rw [he1]; simp [he])
  have hlong : pageSizeOf kw (trNode (putEnt Prod.fst (src, pos) es)) > ps →
      2 ≤ (putEnt Prod.fst (src, pos) es).length := by
    intro hs
    generalize putEnt Prod.fst (src, pos) es = l at *
    have hsum := sum_le_mul (fun s : String => 1 + s.utf8ByteSize) 256 (l.map (·.1)) (fun x hx => by
      obtain ⟨e, he, rfl⟩ := List.mem_map.mp hx
      have := hall e he; omega)
    simp only [trNode, pageSizeOf, nodeSize, List.length_map] at hs hsum
    have hh : pageHeaderSize = 9 := rfl
    rw [hh] at hs
    omega
  unfold trackLeafPut
  refine .get ?_
  rw [hkw, hpz]
  refine (modDirty_spec hw hd (trackPut_eq hkeys src pos kw ps hlong)).andThen ?_
  generalize hl : putEnt Prod.fst (src, pos) es = l at *
  have hno : ∀ w', Own w' A X ({(d, trNode l)} + Q) → Keep Q w w' →
      ∃ (t1 : Kid String (String × Nat)) (p : Promo String (String × Nat)),
      (none : Option (String × Nat)) = p.ref ∧ t1.id = d ∧ Tr (trLayout kw ps hps) t1 ∧ PromoOk (trLayout kw ps hps) p ∧
      (∃ n, (∀ i ∈ n, 0 < i) ∧ t1.sq ++ rsq p.rights = splitSq Prod.fst l n) ∧
      Own w' A X (t1.pg + rpg p.rights + Q) ∧ Keep Q w w' ∧ t1.dep = {0} ∧ ∀ x ∈ p.rights, x.2.dep = {0} := by
    intro w' h k
    exact ⟨trKid d l, none, rfl, rfl, .leaf _ ⟨l, rfl, hall⟩, .none, ⟨none, by simp, by simp [Promo.rights, splitSq, trKid]⟩,
      h.congr (by simp [Promo.rights, trKid]), k, rfl, by simp [Promo.rights]⟩
  cases hc : trCut kw ps l with
  | none =>
    rintro off w1 ⟨rfl, h1, k1, -⟩
    exact .pure (hno w1 h1 k1)
  | some c =>
    cases hg : l[c]? with
    | none =>
      simp only [hg]
      rintro off w1 ⟨rfl, h1, k1, -⟩
      exact .pure (hno w1 h1 k1)
    | some e =>
      simp only [hg]
      rintro off w1 ⟨rfl, h1, k1, -⟩
      have hc0 : 0 < c := by
        unfold trCut at hc
        split at hc
        · next hs => have := hlong hs; cases hc; omega
        · cases hc
      simp only
      refine (newPage_spec _ h1).andThen ?_
      rintro c' w2 ⟨h2, k2, -⟩
      refine .pure ⟨trKid d (l.take c), some (e.1, trKid c' (l.drop c)), rfl, rfl,
        .leaf _ ⟨l.take c, rfl, fun e he => hall e (List.mem_of_mem_take he)⟩, ⟨?_, ?_⟩,
        ⟨some c, by simpa using hc0, ?_⟩, h2.congr ?_, k1.trans (k2.sub (Multiset.le_add_left _ _)),
        rfl, by simp [Promo.rights, trKid]⟩
      · intro x hx
        cases List.mem_singleton.mp hx
        exact .leaf _ ⟨l.drop c, rfl, fun e he => hall e (List.mem_of_mem_drop he)⟩
      · intro x hx
        cases List.mem_singleton.mp hx
        exact hall e (List.mem_of_getElem? hg)
      · simp [Promo.rights, splitSq, trKid, hg]
      · simp only [Promo.rights, rpg_cons, rpg_nil, trKid, trNode]; abel

theorem Run.of_eq {α} {m m' : W α} {w : Writer} {Q : α → Writer → Prop} (h : m' w = m w) (hr : Run m w Q) : Run m' w Q := by
  obtain ⟨a, w', h1, h2⟩ := hr
  exact ⟨a, w', h.trans h1, h2⟩

/-- `tracking_upsert` records the position unless it is not above the recorded one. -/
theorem trackUpsert_spec {kw ps : Nat} {hps : 1024 ≤ ps} {P : Multiset (Nat × Node)} {t : String → Option Nat}
    (ht : TrackRep kw ps hps w.trackRoot P t) (hkw : w.kw = kw) (hpz : w.pageSize = ps) (src : String) (pos : Nat)
    (hsrc : src.utf8ByteSize ≤ 255) (hw : Own w A X (P + Q)) :
    (∃ w', Own w' A X (P + Q) ∧ Keep (P + Q) w w' ∧ (∃ p, t src = some p ∧ pos ≤ p) ∧
      ∃ m, trackUpsert src pos w = (.error (.integrity m), w')) ∨
    ((∀ p, t src = some p → p < pos) ∧
      Run (trackUpsert src pos) w fun _ w' => ∃ P', TrackRep kw ps hps w'.trackRoot P'
        (fun s => if s = src then some pos else t s) ∧
        Own w' A X (P' + Q) ∧ Keep Q w { w' with trackRoot := w.trackRoot }) := by
  rcases ht with ⟨h0, rfl, hnone⟩ | ⟨K, hK, hroot, rfl, hst, ht⟩
  · right
    refine ⟨fun p hp => (by rw [hnone] at hp; cases hp), ?_⟩
    refine Run.of_eq (m := trackNew src pos) (by unfold trackUpsert; rw [if_neg (by omega), if_pos h0]) ?_
    unfold trackNew
    refine (newPage_spec (trNode [(src, pos)]) hw).andThen ?_
    rintro c w1 ⟨h1, k1, -⟩
    refine .modW ⟨{(c, trNode [(src, pos)])}, .inr ⟨trKid c [(src, pos)], .leaf _ ⟨_, rfl, by simpa using hsrc⟩, rfl, rfl,
      by simp [Strict, trKid], ?_⟩, (h1.congr (by simp)).setRoots _ _ _, ?_⟩
    · intro s p
      simp only [trKid, ents_map, List.mem_singleton, Prod.mk.injEq]
      split
      · next h => subst h; simp [eq_comm]
      · next h => rw [hnone]; simp [h]
    · have kk := k1.sub (S := Q) (by simp)
      exact ⟨⟨⟨kk.step.1, kk.step.2, kk.step.3, kk.step.4, kk.step.5, kk.step.6, kk.step.7, rfl, kk.step.9, kk.step.10,
        kk.step.11⟩, kk.loaded, kk.dirty, kk.freed⟩, kk.tight⟩
  · have hne : w.trackRoot ≠ 0 := by
      obtain ⟨m, R, hpg⟩ := hK.page
      have := (hw.lt (p := K.id) (by rw [hpg]; simp)).1
      omega
    have hdef : trackUpsert src pos w = trackInto src pos w := by
      unfold trackUpsert; rw [if_neg (by omega), if_neg hne]
    have hcard : K.pg.card ≤ w.nextPage := by
      have := hw.card_lt; simp only [Multiset.card_add] at this; omega
    obtain ⟨leaf, w1, hrun1, fs, k, hF, hleaf, h1, k1, hl1, hfl⟩ := descend_spec (Y := trLayout kw ps hps)
      (pick := fun keys _ => ub keys src) (fun keys kids _ => ub_le keys src) hK w.nextPage [] w Q hcard hw
    obtain ⟨es, hk, hes, hKsq, hkeys, hzl, hzr, honly⟩ := found_only hF hst
    have hkpg : k.pg = {(k.id, trNode es)} := by rw [hk]; rfl
    have hKpg : K.pg = k.pg + fpg trOps fs k.id := by rw [← hF.eq]; exact plug_pg _ _ _
    have hKid : K.id = rootOf fs k.id := by rw [← hF.eq]; exact plug_id _ _ _
    have hmem : (k.id, trNode es) ∈ K.pg + Q := by rw [hKpg, hkpg]; simp
    obtain ⟨n, w2, hrun2, hn, h2, k2, hl2⟩ := getPage_spec h1 hmem
    obtain ⟨o, hget, ho⟩ := trackGet_spec hkeys src
    have hto : t src = o := by
      refine Option.ext fun p => ?_
      rw [ht, honly]; exact (ho p).symm
    by_cases hbad : ∃ p, t src = some p ∧ pos ≤ p
    · left
      obtain ⟨p, hp, hle⟩ := hbad
      refine ⟨w2, h2, k1.trans k2, ⟨p, hp, hle⟩, ?_⟩
      refine ⟨"non-increasing tracking position for source", ?_⟩
      rw [hdef]
      unfold trackInto
      simp only [getW, hroot, bind]
      rw [show descend trOps (fun keys _ => ub keys src) w.nextPage K.id [] w = _ from hrun1, hleaf]
      simp only [hrun2, hn, trackCheck, hget, ← hto, hp, if_pos hle, fail]
    · right
      have hgood : ∀ p, t src = some p → p < pos := by
        intro p hp
        by_contra hc
        exact hbad ⟨p, hp, by omega⟩
      refine ⟨hgood, ?_⟩
      refine Run.of_eq hdef ?_
      unfold trackInto
      refine .get ?_
      rw [hroot]
      refine Run.bind ⟨leaf, w1, hrun1, ?_⟩
      rw [hleaf]
      refine Run.bind ⟨n, w2, hrun2, ?_⟩
      refine Run.andThen (Q := fun _ w' => w2 = w') ?_ ?_
      · unfold trackCheck
        rw [hn, hget]
        cases ho' : o with
        | none => exact .pure rfl
        | some p =>
          simp only
          rw [if_neg (by have := hgood p (by rw [hto, ho']); omega)]
          exact .pure rfl
      rintro _ _ rfl
      simp only [List.append_nil]
      rw [hKpg, hkpg] at h2
      have h2 : Own w2 A X ({(k.id, trNode es)} + (fpg trOps fs k.id + Q)) := h2.congr (by abel)
      refine (getDirty_spec h2 hl2).andThen ?_
      rintro d w3 ⟨h3, k3, hd3⟩
      have hkw3 : w3.kw = kw := by rw [k3.step.kw, k2.step.kw, k1.step.kw, hkw]
      have hps3 : w3.pageSize = ps := by rw [k3.step.pageSize, k2.step.pageSize, k1.step.pageSize, hpz]
      refine (trackLeafPut_spec (hps := hps) hes hsrc hkeys pos hkw3 hps3 h3 hd3).andThen ?_
      rintro s w4 ⟨t1, p, rfl, rfl, ht1, hp, ⟨cut, hcut, hsq⟩, h4, k4, e1, e2⟩
      rw [hKid]
      refine (finish_spec (Y := trLayout kw ps hps) hF.frames (fun f _ h => by cases h) ht1 hp
        (by rw [k4.step.kw, hkw3]; rfl) (by rw [k4.step.pageSize, hps3]; rfl)
        (h4.congr (by show t1.pg + rpg p.rights + fpg trOps fs k.id + Q = _; abel))
        (fun f hf => ?_)).andThen ?_
      · have hm := mem_fpg (O := trOps) fs k.id hf
        exact k4.loaded _ (by simp [hm]) (k3.loaded _ (by simp [hm]) (k2.loaded _ (by
          rw [hKpg]; simp [hm]) (hfl f hf)))
      rintro root w5 ⟨U, hU, rfl, hUsq, h5, k5, -, hev⟩
      rw [hsq] at hUsq
      obtain ⟨B1, m, B2, he1, he2, hm, hB1, hB2, _⟩ := putEnt_split hkeys (src, pos)
      refine .modW ⟨U.pg, .inr ⟨U, ⟨hU, hev k (by rw [hk]; rfl) (hF.eq.symm ▸ hK.even) e1 e2, by
        rw [hUsq]; exact Dense.splitSq (hKsq ▸ hK.full) (by rw [he2]; simp) cut hcut⟩, rfl, rfl, ?_, ?_⟩, h5.setRoots _ _ _, ?_⟩
      · rw [hUsq]
        refine Strict.splitSq ?_ cut hcut
        rw [he2]
        refine Strict.put (m := m) ?_ hzl hzr hB1 hB2
        rw [← he1, ← hKsq]; exact hst
      · intro s q
        have hU' : ents U.sq = ents (zl fs) ++ (B1 ++ (src, pos) :: B2) ++ ents (zr fs) := by
          rw [hUsq, ents_append, ents_append, ents_splitSq, he2]
        have hK' : ents K.sq = ents (zl fs) ++ (B1 ++ m ++ B2) ++ ents (zr fs) := by
          rw [hKsq, ents_append, ents_append, ents_map, ← he1]
        rw [hU']
        show (if s = src then some pos else t s) = some q ↔ _
        split
        · next hs =>
          subst hs
          have hcl : ∀ q, (s, q) ∉ ents (zl fs) := fun q hq => by
            rcases hzl (.ent (s, q)) (mem_ents.mp hq) with h' | h'
            · exact lt_irrefl s h'
            · cases h'
          have hcr : ∀ q, (s, q) ∉ ents (zr fs) := fun q hq => lt_irrefl s (hzr (.ent (s, q)) (mem_ents.mp hq))
          have hc1 : ∀ q, (s, q) ∉ B1 := fun q hq => lt_irrefl s (hB1 _ hq)
          have hc2 : ∀ q, (s, q) ∉ B2 := fun q hq => lt_irrefl s (hB2 _ hq)
          simp [hcl, hcr, hc1, hc2, eq_comm]
        · next hs =>
          rw [ht, hK']
          have hmm : (s, q) ∉ m := by
            rcases hm with rfl | ⟨o', rfl, ho'⟩
            · simp
            · intro h
              have := List.mem_singleton.mp h
              rw [← this] at ho'
              exact hs ho'
          simp [hs, hmm]
      · have kk : Keep Q w w5 := by
          refine (k1.sub (Multiset.le_add_left _ _)).trans ((k2.sub (Multiset.le_add_left _ _)).trans
            ((k3.sub (Multiset.le_add_left _ _)).trans ((k4.sub (Multiset.le_add_left _ _)).trans k5)))
        exact ⟨⟨⟨kk.step.1, kk.step.2, kk.step.3, kk.step.4, kk.step.5, kk.step.6, kk.step.7, (hroot.trans hKid).symm,
          kk.step.9, kk.step.10, kk.step.11⟩, kk.loaded, kk.dirty, kk.freed⟩, kk.tight⟩

/-! ## Examples -/

section Examples

private def view : Nat → Option Node
  | 5 => some (.trackInternal ["m"] [6, 7])
  | 6 => some (.trackLeaf ["a", "k"] [4, 9])
  | 7 => some (.trackLeaf ["m"] [1])
  | _ => none

example : trackLookup view 5 5 "k" = .ok (some 9) := by decide +kernel
example : trackLookup view 5 5 "m" = .ok (some 1) := by decide +kernel
example : trackLookup view 5 5 "l" = .ok none := by decide +kernel
example : trackPut "l" 3 8 4096 (.trackLeaf ["a", "m"] [4, 9]) =
    .ok (none, .trackLeaf ["a", "l", "m"] [4, 3, 9]) := by decide +kernel
example : trackPut "l" 3 8 30 (.trackLeaf ["a", "m"] [4, 9]) =
    .ok (some ("l", ["l", "m"], [3, 9]), .trackLeaf ["a"] [4]) := by decide +kernel

end Examples

end Uma.Page
