import Verif.Page.FreeRemove
import Verif.Mvcc.Extents

/-!
# Finding pages to use again (umadb-core/src/mvcc.rs 1139-1333)

The free list is read from left to right with an explicit stack of pages and child indices.
-/

namespace Uma.Page
open Uma.Codec

/-- `get_page_ref` with any error replaced, mvcc.rs 1174-1183 and 1220-1229. -/
def loadPage (msg : String) (p : Nat) : W Node := fun w =>
  match getPage p w with
  | (.ok n, w') => (.ok n, w')
  | (.error _, w') => (.error (.databaseCorrupted msg), w')

/-- How to read a tree: the children of an internal page; what a leaf yields, and whether to stop there. -/
structure Scan (β : Type) where
  msg : String
  kids : Node → Option (List Nat)
  leaf : Node → W (List β × Bool)

/-- The loops of mvcc.rs 1170-1266 and 1219-1256. -/
def Scan.run {β : Type} (D : Scan β) : Nat → List (Nat × Nat) → List β → W (List β)
  | _, [], acc => pure acc
  | 0, _ :: _, _ => fail (.internal "out of fuel")
  | fuel + 1, (p, i) :: st, acc => do
    let n ← loadPage D.msg p
    match D.kids n with
    | some kids =>
      match kids[i]? with
      | some c => D.run fuel ((c, 0) :: (p, i + 1) :: st) acc
      | none => D.run fuel st acc
    | none => do
      let r ← D.leaf n
      if r.2 then pure (acc ++ r.1) else D.run fuel st (acc ++ r.1)

/-- The subtree of one transaction, mvcc.rs 1230-1255. -/
def tsnScan : Scan Nat where
  msg := "TSN subtree page load error"
  kids
    | .tsnInternal _ kids => some kids
    | _ => none
  leaf
    | .tsnLeaf l => pure (l, false)
    | _ => fail (.databaseCorrupted "Invalid node type in TSN subtree")

/-- The page ids of one entry, mvcc.rs 1206-1257. -/
def freeIds (fuel : Nat) (v : FreeValue) : W (List Nat) :=
  if v.root = 0 then pure v.pageIds else tsnScan.run fuel [(v.root, 0)] []

/-- The loop over the entries of a leaf, mvcc.rs 1196-1258; it ends at the first transaction after the oldest reader's. -/
def freeEntries (fuel : Nat) (small : Option Nat) : List Nat → List FreeValue → W (List (Nat × Nat) × Bool)
  | [], _ => pure ([], false)
  | t :: ts, vs =>
    if small.any (· < t) then pure ([], true)
    else match vs with
      | [] => fail (.panic "index out of bounds")
      | v :: vs => do
        let l ← freeIds fuel v
        let r ← freeEntries fuel small ts vs
        pure (l.map (fun p => (p, t)) ++ r.1, r.2)

/-- mvcc.rs 1185-1264. -/
def freeScan (fuel : Nat) (small : Option Nat) : Scan (Nat × Nat) where
  msg := "Free list page load error"
  kids
    | .freeInternal _ kids => some kids
    | _ => none
  leaf
    | .freeLeaf keys values => freeEntries fuel small keys values
    | _ => fail (.databaseCorrupted "Invalid node type in free list tree")

/-- `find_reusable_page_ids_with_snapshot`, mvcc.rs 1149-1333; `small` is the transaction of the oldest reader. -/
def findReusable (small : Option Nat) : W Unit := do
  let w ← getW
  let l ← (freeScan (2 * w.nextPage) small).run (2 * w.nextPage) [(w.freeRoot, 0)] []
  modW fun w => { w with reusable := Mvcc.optimize l }

/-! ## Correctness -/

variable {E β : Type} {w : Writer} {A : Nat → Prop} {X : Multiset Nat} {Q : Multiset (Nat × Node)}

/-- Visiting page `p` from child `i` on yields `out` within `c` turns, and stops if `fin`. -/
def Scan.Visit (D : Scan β) (w w' : Writer) (p i : Nat) (out : List β) (fin : Bool) (c : Nat) : Prop :=
  ∀ fuel st acc, D.run (fuel + c) ((p, i) :: st) acc w =
    if fin then (.ok (acc ++ out), w') else D.run fuel st (acc ++ out) w'

/-- What the entries yield: everything before the first cut. -/
def outOf (cut : E → Bool) (f : E → List β) (es : List E) : List β := (es.takeWhile fun e => !cut e).flatMap f

theorem outOf_append_cut {cut : E → Bool} {f : E → List β} {a : List E} (b : List E) (h : a.any cut = true) :
    outOf cut f (a ++ b) = outOf cut f a := by
  unfold outOf
  induction a with
  | nil => cases h
  | cons x a ih =>
    rw [List.cons_append, List.takeWhile_cons, List.takeWhile_cons]
    cases hx : cut x with
    | true => simp
    | false =>
      simp only [List.any_cons, hx, Bool.false_or] at h
      simp only [Bool.not_false, if_true, List.flatMap_cons, ih h]

theorem takeWhile_all {p : E → Bool} {a : List E} (h : a.any (fun e => !p e) = false) : a.takeWhile p = a := by
  have := List.takeWhile_append_of_pos (p := p) (l₁ := a) (l₂ := []) fun x hx => by
    rw [List.any_eq_false] at h
    simpa using h x hx
  simpa using this

theorem takeWhile_append_all {p : E → Bool} {a : List E} (b : List E) (h : a.any (fun e => !p e) = false) :
    (a ++ b).takeWhile p = a ++ b.takeWhile p := by
  rw [List.takeWhile_append_of_pos]
  intro x hx
  rw [List.any_eq_false] at h
  simpa using h x hx

theorem outOf_append {cut : E → Bool} {f : E → List β} {a : List E} (b : List E) (h : a.any cut = false) :
    outOf cut f (a ++ b) = outOf cut f a ++ outOf cut f b := by
  have h' : a.any (fun e => !!cut e) = false := by simpa using h
  unfold outOf
  rw [takeWhile_append_all b h', takeWhile_all h', List.flatMap_append]

theorem loadPage_spec {P : Multiset (Nat × Node)} {p : Nat} {n : Node} (msg : String) (h : Own w A X P) (hp : (p, n) ∈ P) :
    Run (loadPage msg p) w fun m w' => m = n ∧ Own w' A X P ∧ Keep P w w' ∧ Loaded w' p := by
  obtain ⟨m, w', h1, h2⟩ := getPage_spec h hp
  exact ⟨m, w', by unfold loadPage; rw [h1], h2⟩

theorem run_bind {α γ : Type} {m : W α} {f : α → W γ} {a : α} {w w' : Writer} (h : m w = (.ok a, w')) :
    (m >>= f) w = f a w' := by
  show (match m w with | (.ok a, w') => f a w' | (.error e, w') => (.error e, w')) = _
  rw [h]

/-- The outcome of a visit. -/
structure Visited (D : Scan β) (A : Nat → Prop) (X : Multiset Nat) (P R : Multiset (Nat × Node)) (cut : E → Bool)
    (f : E → List β) (pg : E → Multiset (Nat × Node)) (w : Writer) (p i : Nat) (es : List E) (w' : Writer) (c : Nat) : Prop where
  run : D.Visit w w' p i (outOf cut f es) (es.any cut) c
  own : Own w' A X P
  keep : Keep P w w'
  all : es.any cut = false → ∀ q ∈ ids R, Loaded w' q
  taken : ∀ e ∈ es.takeWhile (fun e => !cut e), ∀ q ∈ ids (pg e), Loaded w' q

/-- Reading a leaf. -/
def LeafScan (Y : Layout Nat E) (D : Scan β) (A : Nat → Prop) (X : Multiset Nat) (P : Multiset (Nat × Node)) (cut : E → Bool)
    (f : E → List β) (pg : E → Multiset (Nat × Node)) : Prop :=
  ∀ k, Y.Leaf k → k.pg ≤ P → ∀ n, (k.id, n) ∈ k.pg → Y.ops.isLeaf n = true → ∀ w, Own w A X P →
    D.kids n = none ∧ ∃ w', D.leaf n w = (.ok (outOf cut f (ents k.sq), (ents k.sq).any cut), w') ∧ Own w' A X P ∧
      Keep P w w' ∧ ((ents k.sq).any cut = false → ∀ q ∈ ids k.pg, q ≠ k.id → Loaded w' q) ∧
      ∀ e ∈ (ents k.sq).takeWhile (fun e => !cut e), ∀ q ∈ ids (pg e), Loaded w' q

theorem scan_kids {Y : Layout Nat E} {D : Scan β} {cut : E → Bool} {f : E → List β} {pg : E → Multiset (Nat × Node)}
    {P : Multiset (Nat × Node)} (hun : ∀ keys kids, D.kids (Y.ops.inner keys kids) = some kids) {id : Nat} {keys : List Nat}
    (R : Rights Nat E) : ∀ (L : Lefts Nat E) (m : Kid Nat E) (w : Writer),
    (id, Y.ops.inner keys (kidsOf L m.id R)) ∈ P → Own w A X P →
    (∀ e ∈ ents (m.sq ++ rsq R), pg e ≤ P) → m.pg + rpg R ≤ P →
    (∀ k ∈ m :: R.map (·.2), ∀ w, Own w A X P → ∃ w' c, c + 1 ≤ 2 * k.pg.card ∧
      Visited D A X P k.pg cut f pg w k.id 0 (ents k.sq) w' c) →
    ∃ w' c, c ≤ 2 * (m.pg.card + (rpg R).card) + 1 ∧ Loaded w' id ∧
      Visited D A X P (m.pg + rpg R) cut f pg w id L.length (ents (m.sq ++ rsq R)) w' c := by
  have hturn : ∀ (L : Lefts Nat E) (m : Kid Nat E) (R : Rights Nat E) (w : Writer),
      (id, Y.ops.inner keys (kidsOf L m.id R)) ∈ P → Own w A X P → ∃ w', Own w' A X P ∧ Keep P w w' ∧ Loaded w' id ∧
        ∀ fuel st acc i, D.run (fuel + 1) ((id, i) :: st) acc w = match (kidsOf L m.id R)[i]? with
          | some c => D.run fuel ((c, 0) :: (id, i + 1) :: st) acc w'
          | none => D.run fuel st acc w' := by
    intro L m R w hin hw
    obtain ⟨n, w', h1, rfl, h2, h3, hl⟩ := loadPage_spec D.msg hw hin
    refine ⟨w', h2, h3, hl, fun fuel st acc i => ?_⟩
    rw [Scan.run, run_bind h1]
    simp only [hun]
    cases (kidsOf L m.id R)[i]? <;> rfl
  have hmono : ∀ {w w' : Writer} {q : Nat} {S : Multiset (Nat × Node)}, Keep P w w' → S ≤ P → q ∈ ids S → Loaded w q →
      Loaded w' q := fun hk hle hq hl => hk.loaded _ (Multiset.mem_of_le (Multiset.map_le_map hle) hq) hl
  induction R with
  | nil =>
    intro L m w hin hw hpg hle hk
    obtain ⟨w1, h1, k1, l1, e1⟩ := hturn L m [] w hin hw
    obtain ⟨w2, c, hc, v⟩ := hk m (by simp) w1 h1
    have hget : (kidsOf L m.id ([] : Rights Nat E))[L.length]? = some m.id := by simp [kidsOf]
    have hend : (kidsOf L m.id ([] : Rights Nat E))[L.length + 1]? = none := by simp [kidsOf]
    simp only [rsq_nil, List.append_nil, rpg_nil, add_zero, Multiset.card_zero] at hpg hle ⊢
    cases hfin : (ents m.sq).any cut with
    | true =>
      refine ⟨w2, c + 1, by omega, v.keep.loaded _ (mem_ids_of hin) l1, ⟨fun fuel st acc => ?_, v.own, k1.trans v.keep, fun h => ?_, v.taken⟩⟩
      · rw [← Nat.add_assoc, e1, hget]
        show D.run (fuel + c) _ acc w1 = _
        rw [v.run]; simp only [hfin, if_true]
      · rw [hfin] at h; cases h
    | false =>
      obtain ⟨w3, h3, k3, l3, e3⟩ := hturn L m [] w2 hin v.own
      refine ⟨w3, c + 2, by omega, l3, ⟨fun fuel st acc => ?_, h3, k1.trans (v.keep.trans k3), fun _ q hq => ?_, fun e he q hq => ?_⟩⟩
      · rw [← Nat.add_assoc, show fuel + c + 2 = (fuel + 1 + c) + 1 by omega, e1, hget]
        show D.run (fuel + 1 + c) _ acc w1 = _
        rw [v.run]; simp only [hfin, Bool.false_eq_true, if_false]
        rw [e3, hend]
      · exact hmono k3 hle hq (v.all hfin q hq)
      · exact hmono k3 (hpg e (List.takeWhile_subset _ he)) hq (v.taken e he q hq)
  | cons x R ih =>
    obtain ⟨k, c'⟩ := x
    intro L m w hin hw hpg hle hk
    obtain ⟨w1, h1, k1, l1, e1⟩ := hturn L m ((k, c') :: R) w hin hw
    obtain ⟨w2, c, hc, v⟩ := hk m (by simp) w1 h1
    have hget : (kidsOf L m.id ((k, c') :: R))[L.length]? = some m.id := by simp [kidsOf]
    have hents : ents (m.sq ++ rsq ((k, c') :: R)) = ents m.sq ++ ents (c'.sq ++ rsq R) := by
      simp
    rw [hents] at hpg ⊢
    have hlem : m.pg ≤ P := (Multiset.le_add_right _ _).trans hle
    have hler : c'.pg + rpg R ≤ P := by
      refine le_trans ?_ hle
      rw [rpg_cons]; exact Multiset.le_add_left _ _
    have hcard : (rpg ((k, c') :: R)).card = c'.pg.card + (rpg R).card := by rw [rpg_cons]; simp
    rw [hcard]
    cases hfin : (ents m.sq).any cut with
    | true =>
      have hany : (ents m.sq ++ ents (c'.sq ++ rsq R)).any cut = true := by rw [List.any_append, hfin]; rfl
      refine ⟨w2, c + 1, by omega, v.keep.loaded _ (mem_ids_of hin) l1, ⟨fun fuel st acc => ?_, v.own, k1.trans v.keep, fun h => ?_, fun e he => v.taken e ?_⟩⟩
      · rw [← Nat.add_assoc, e1, hget]
        show D.run (fuel + c) _ acc w1 = _
        rw [v.run, hany, outOf_append_cut _ hfin]; simp only [hfin, if_true]
      · rw [hany] at h; cases h
      · clear hpg
        revert he hfin
        generalize ents m.sq = a
        intro hfin he
        induction a with
        | nil => cases hfin
        | cons x a ih2 =>
          rw [List.cons_append, List.takeWhile_cons] at he
          rw [List.takeWhile_cons]
          cases hx : cut x with
          | true => simp [hx] at he
          | false =>
            simp only [hx, Bool.not_false, if_true, List.mem_cons] at he ⊢
            simp only [List.any_cons, hx, Bool.false_or] at hfin
            exact he.imp_right (ih2 hfin)
    | false =>
      have hkk : kidsOf L m.id ((k, c') :: R) = kidsOf (L ++ [(m, k)]) c'.id R := by simp [kidsOf]
      have hin2 := hin
      rw [hkk] at hin2
      obtain ⟨w3, d, hd, l3, v3⟩ := ih (L ++ [(m, k)]) c' w2 hin2 v.own (fun e he => hpg e (by simp only [List.mem_append]; exact .inr he))
        hler (fun y hy => hk y (by simp at hy ⊢; tauto))
      have hany : (ents m.sq ++ ents (c'.sq ++ rsq R)).any cut = (ents (c'.sq ++ rsq R)).any cut := by
        rw [List.any_append, hfin, Bool.false_or]
      have hfin' : (ents m.sq).any (fun e => !!cut e) = false := by simpa using hfin
      refine ⟨w3, d + c + 1, by omega, l3, ⟨fun fuel st acc => ?_, v3.own, k1.trans (v.keep.trans v3.keep), fun h q hq => ?_, fun e he q hq => ?_⟩⟩
      · rw [← Nat.add_assoc, e1, hget]
        show D.run (fuel + (d + c)) _ acc w1 = _
        rw [← Nat.add_assoc, v.run, hany, outOf_append _ hfin]; simp only [hfin, Bool.false_eq_true, if_false]
        have := v3.run fuel st (acc ++ outOf cut f (ents m.sq))
        rw [show (L ++ [(m, k)]).length = L.length + 1 by simp] at this
        rw [this]
        simp only [List.append_assoc]
      · rw [hany] at h
        rw [rpg_cons, ids_add, Multiset.mem_add] at hq
        rcases hq with hq | hq
        · exact hmono v3.keep hlem hq (v.all hfin q hq)
        · exact v3.all h q hq
      · rw [takeWhile_append_all _ hfin'] at he
        rcases List.mem_append.mp he with he | he
        · refine hmono v3.keep (hpg e (by simp [he])) hq (v.taken e ?_ q hq)
          rw [takeWhile_all hfin']; exact he
        · exact v3.taken e he q hq

/-- Reading a whole tree. -/
theorem scan_tree {Y : Layout Nat E} {D : Scan β} {cut : E → Bool} {f : E → List β} {pg : E → Multiset (Nat × Node)}
    {P : Multiset (Nat × Node)} (hun : ∀ keys kids, D.kids (Y.ops.inner keys kids) = some kids)
    (hY : ∀ k, Y.Leaf k → ∀ e ∈ ents k.sq, pg e ≤ k.pg) (hleaf : LeafScan Y D A X P cut f pg) {K : Kid Nat E} (hK : Tr Y K) :
    K.pg ≤ P → ∀ w, Own w A X P → ∃ w' c, c + 1 ≤ 2 * K.pg.card ∧ Visited D A X P K.pg cut f pg w K.id 0 (ents K.sq) w' c := by
  induction hK with
  | leaf k hk =>
    intro hle w hw
    obtain ⟨n, R, hp, hn⟩ := Y.leaf_page k hk
    have hin : (k.id, n) ∈ k.pg := by rw [hp]; simp
    obtain ⟨_, w1, h1, rfl, h2, h3, hl⟩ := loadPage_spec D.msg hw (Multiset.mem_of_le hle hin)
    obtain ⟨hu, w2, e2, h4, k4, hall, htk⟩ := hleaf k hk hle _ hin hn w1 h2
    have hcard : 1 ≤ k.pg.card := by rw [hp]; simp
    refine ⟨w2, 1, by omega, ⟨fun fuel st acc => ?_, h4, h3.trans k4, fun hf q hq => ?_, htk⟩⟩
    · rw [Scan.run, run_bind h1]
      simp only [hu]
      rw [run_bind e2]
      cases (ents k.sq).any cut <;> rfl
    · by_cases hqk : q = k.id
      · rw [hqk]; exact k4.loaded _ (mem_ids_of (Multiset.mem_of_le hle hin)) hl
      · exact hall hf q hq hqk
  | node id m R hm hR hf ihm ihR =>
    intro hle w hw
    have hin : (id, Y.ops.inner (keysOf [] R) (kidsOf [] m.id R)) ∈ P := Multiset.mem_of_le hle (by simp [nodeKid])
    have hsub : m.pg + rpg R ≤ P := by
      refine le_trans ?_ hle
      simp only [nodeKid, lpg_nil, zero_add]
      exact Multiset.le_add_left _ _
    have hT := Tr.node (Y := Y) id m R hm hR hf
    have hkids : ∀ k ∈ m :: R.map (·.2), ∀ w, Own w A X P → ∃ w' c, c + 1 ≤ 2 * k.pg.card ∧
        Visited D A X P k.pg cut f pg w k.id 0 (ents k.sq) w' c := by
      intro k hk w hw
      rcases List.mem_cons.mp hk with rfl | hk
      · exact ihm ((Multiset.le_add_right _ _).trans hsub) w hw
      · obtain ⟨x, hx, rfl⟩ := List.mem_map.mp hk
        refine ihR x hx (le_trans ?_ ((Multiset.le_add_left _ _).trans hsub)) w hw
        obtain ⟨a, b, rfl⟩ := List.append_of_mem hx
        rw [rpg_append, rpg_cons]
        exact le_of_eq_add (rpg a + rpg b) (by abel)
    obtain ⟨w2, c, hc, hl, v⟩ := scan_kids (Y := Y) (D := D) (cut := cut) (f := f) (pg := pg) hun (id := id) (keys := keysOf [] R) R [] m w hin hw
      (fun e he => (hT.ent_le hY e (by simpa [nodeKid] using he)).trans hle) hsub hkids
    · have hsq : (nodeKid Y.ops id [] m R).sq = m.sq ++ rsq R := by simp [nodeKid]
      have hpg : (nodeKid Y.ops id [] m R).pg = {(id, Y.ops.inner (keysOf [] R) (kidsOf [] m.id R))} + (m.pg + rpg R) := by
        simp [nodeKid]
      refine ⟨w2, c, by rw [hpg]; simp only [Multiset.card_add, Multiset.card_singleton]; omega, ?_⟩
      rw [hsq]
      refine ⟨v.run, v.own, v.keep, fun hf q hq => ?_, v.taken⟩
      rw [hpg, ids_add, Multiset.mem_add] at hq
      rcases hq with hq | hq
      · simp at hq; rw [hq]; exact hl
      · exact v.all hf q hq

/-- The subtree of a transaction is read completely. -/
theorem tsnScan_spec {kw ps : Nat} {hps : 1024 ≤ ps} {root fuel : Nat} {R P : Multiset (Nat × Node)} {l : List Nat}
    (h : TsnRep kw ps hps root R l) (hle : R ≤ P) (hw : Own w A X P) (hf : 2 * P.card ≤ fuel) :
    Run (tsnScan.run fuel [(root, 0)] []) w fun v w' => v = l ∧ Own w' A X P ∧ Keep P w w' ∧ ∀ q ∈ ids R, Loaded w' q := by
  obtain ⟨K, hK, rfl, rfl, rfl, hs⟩ := h
  have hleaf : LeafScan (tsnLayout kw ps hps) tsnScan A X P (fun _ => false) (fun x => [x]) (fun _ => 0) := by
    intro k hk hkle n hn hleaf w hw
    obtain ⟨l, hl, e, hsz⟩ := hk
    rw [e] at hn ⊢
    simp only [tsnKid, Multiset.mem_singleton, Prod.mk.injEq, true_and] at hn
    subst hn
    refine ⟨rfl, w, ?_, hw, .refl _ _, fun _ q hq hne => ?_, fun e he q hq => ?_⟩
    · show ((Except.ok (l, false), w) : Except Err (List Nat × Bool) × Writer) = _
      have : outOf (fun _ => false) (fun x => [x]) (ents (tsnKid k.id l).sq) = l := by
        unfold outOf; rw [takeWhile_all (by simp)]; simp [tsnKid, ents_map]
      rw [this]; simp
    · simp [tsnKid] at hq; exact absurd hq hne
    · simp at hq
  obtain ⟨w', c, hc, v⟩ := scan_tree (Y := tsnLayout kw ps hps) (D := tsnScan) (cut := fun _ => false) (f := fun x => [x])
    (pg := fun _ => 0) (P := P) (A := A) (X := X) (fun _ _ => rfl) (fun _ _ _ _ => Multiset.zero_le _) hleaf hK hle w hw
  · have hany : (ents K.sq).any (fun _ => false) = false := by simp
    have hout : outOf (fun _ => false) (fun x => [x]) (ents K.sq) = ents K.sq := by
      unfold outOf; rw [takeWhile_all (by simp)]; simp
    refine ⟨_, w', ?_, rfl, v.own, v.keep, v.all hany⟩
    have hcard : K.pg.card ≤ P.card := Multiset.card_le_card hle
    have := v.run (fuel - c) [] []
    rw [hany, hout, Nat.sub_add_cancel (by omega)] at this
    rw [this]
    cases fuel - c <;> simp [Scan.run] <;> rfl

/-- Entries of transactions that some reader may still need. -/
def tooNew (small : Option Nat) (e : FreeEnt) : Bool := small.any (· < e.tsn)

def entPairs (e : FreeEnt) : List (Nat × Nat) := e.pids.map fun p => (p, e.tsn)

theorem freeIds_spec {kw ps : Nat} {hps : 1024 ≤ ps} {fuel : Nat} {e : FreeEnt} {P : Multiset (Nat × Node)} (h : FreeOk kw ps hps e)
    (hle : e.pg ≤ P) (hw : Own w A X P) (hf : 2 * P.card ≤ fuel) :
    Run (freeIds fuel e.val) w fun v w' => v = e.pids ∧ Own w' A X P ∧ Keep P w w' ∧ ∀ q ∈ ids e.pg, Loaded w' q := by
  unfold freeIds
  rcases h with ⟨h1, h2, h3, h4⟩ | ⟨h1, h2, h3⟩
  · rw [if_pos (show e.val.root = 0 from h1)]
    exact ⟨_, w, rfl, h2, hw, .refl _ _, by rw [h3]; simp⟩
  · rw [if_neg (show ¬e.val.root = 0 from h1)]
    exact tsnScan_spec h3 hle hw hf

theorem freeEntries_spec {kw ps : Nat} {hps : 1024 ≤ ps} {fuel : Nat} {small : Option Nat} {P : Multiset (Nat × Node)}
    (hf : 2 * P.card ≤ fuel) (es : List FreeEnt) : ∀ w, (∀ e ∈ es, FreeOk kw ps hps e) → frPg es ≤ P → Own w A X P →
    ∃ w', freeEntries fuel small (es.map (·.tsn)) (es.map (·.val)) w =
        (.ok (outOf (tooNew small) entPairs es, es.any (tooNew small)), w') ∧ Own w' A X P ∧ Keep P w w' ∧
      ∀ e ∈ es.takeWhile (fun e => !tooNew small e), ∀ q ∈ ids e.pg, Loaded w' q := by
  induction es with
  | nil => intro w _ _ hw; exact ⟨w, rfl, hw, .refl _ _, by simp⟩
  | cons e es ih =>
    intro w hok hle hw
    rw [frPg_cons] at hle
    simp only [List.map_cons]
    have hcut : small.any (· < e.tsn) = tooNew small e := rfl
    unfold freeEntries
    cases hc : tooNew small e with
    | true =>
      rw [if_pos (by rw [hcut, hc])]
      refine ⟨w, ?_, hw, .refl _ _, by simp [hc]⟩
      simp [outOf, hc]; rfl
    | false =>
      rw [if_neg (by rw [hcut, hc]; simp)]
      obtain ⟨l, w1, e1, rfl, h1, k1, l1⟩ := freeIds_spec (fuel := fuel) (hok e (by simp)) ((Multiset.le_add_right _ _).trans hle) hw hf
      obtain ⟨w2, e2, h2, k2, l2⟩ := ih w1 (fun x hx => hok x (by simp [hx])) ((Multiset.le_add_left _ _).trans hle) h1
      refine ⟨w2, ?_, h2, k1.trans k2, fun x hx q hq => ?_⟩
      · show (freeIds fuel e.val >>= _) w = _
        rw [run_bind e1, run_bind e2]
        simp [outOf, hc, entPairs]; rfl
      · rw [List.takeWhile_cons, hc] at hx
        simp only [Bool.not_false, if_true, List.mem_cons] at hx
        rcases hx with rfl | hx
        · exact k2.loaded _ (Multiset.mem_of_le (Multiset.map_le_map ((Multiset.le_add_right _ _).trans hle)) hq) (l1 q hq)
        · exact l2 x hx q hq

theorem takeWhile_filter {p : E → Bool} {r : E → E → Prop} {a : List E} (ha : a.Pairwise r)
    (h : ∀ x y, r x y → p x = false → p y = false) : a.takeWhile p = a.filter p := by
  induction a with
  | nil => rfl
  | cons x a ih =>
    obtain ⟨h1, h2⟩ := List.pairwise_cons.mp ha
    rw [List.takeWhile_cons, List.filter_cons]
    cases hx : p x with
    | true => simp [ih h2]
    | false =>
      simp only [Bool.false_eq_true, if_false]
      symm
      rw [List.filter_eq_nil_iff]
      intro y hy
      simp [h x y (h1 y hy) hx]

/-- What is not needed by a reader at `small` or later. -/
def oldEnough (small : Option Nat) (t : Nat) : Bool := small.all (t ≤ ·)

theorem oldEnough_iff (small : Option Nat) (e : FreeEnt) : oldEnough small e.tsn = !tooNew small e := by
  cases small with
  | none => rfl
  | some s => simp only [oldEnough, tooNew, Option.all_some, Option.any_some]; by_cases h : e.tsn ≤ s <;> simp [h]; omega

/-- Reading the free list. -/
theorem freeScan_spec {kw ps : Nat} {hps : 1024 ≤ ps} {small : Option Nat} {root fuel : Nat} {R P : Multiset (Nat × Node)}
    {es : List FreeEnt} (h : FreeTree kw ps hps root R es) (hle : R ≤ P) (hw : Own w A X P) (hf : 2 * P.card ≤ fuel) :
    Run ((freeScan fuel small).run fuel [(root, 0)] []) w fun v w' => v = outOf (tooNew small) entPairs es ∧ Own w' A X P ∧
      Keep P w w' ∧ ∀ e ∈ es.takeWhile (fun e => !tooNew small e), ∀ q ∈ ids e.pg, Loaded w' q := by
  rcases h with ⟨K, hK, rfl, rfl, rfl, hs⟩ | ⟨rfl, rfl⟩
  · have hleaf : LeafScan (frLayout kw ps hps) (freeScan fuel small) A X P (tooNew small) entPairs FreeEnt.pg := by
      intro k hk hkle n hn hl w hw
      obtain ⟨es, hes, e, hok, hsz⟩ := hk
      have hn' : n = frNode es := by
        have h1 : (k.id, frNode es) ∈ k.pg := by rw [e]; simp [frKid]
        have h2 := hw.sees _ _ (Multiset.mem_of_le hkle hn)
        have h3 := hw.sees _ _ (Multiset.mem_of_le hkle h1)
        rw [h2] at h3
        exact Option.some.inj h3
      subst hn'
      have hpg : k.pg = {(k.id, frNode es)} + frPg es := by rw [e]; rfl
      have hsq : ents k.sq = es := by rw [e]; simp [frKid, ents_map]
      obtain ⟨w', h1, h2, h3, h4⟩ := freeEntries_spec (small := small) hf es w hok
        ((Multiset.le_add_left _ _).trans (hpg ▸ hkle)) hw
      rw [hsq]
      refine ⟨rfl, w', h1, h2, h3, fun hany q hq hne => ?_, h4⟩
      rw [hpg, ids_add, Multiset.mem_add] at hq
      rcases hq with hq | hq
      · simp at hq; exact absurd hq hne
      · have htk : es.takeWhile (fun e => !tooNew small e) = es := takeWhile_all (by simpa using hany)
        rw [htk] at h4
        clear h1 htk hsq hpg hn hany hsz e hok hes hl
        induction es with
        | nil => simp at hq
        | cons x es ih =>
          rw [frPg_cons, ids_add, Multiset.mem_add] at hq
          rcases hq with hq | hq
          · exact h4 x (by simp) q hq
          · exact ih (fun e he => h4 e (by simp [he])) hq
    obtain ⟨w', c, hc, v⟩ := scan_tree (Y := frLayout kw ps hps) (P := P) (fun _ _ => rfl) frLeaf_ent hleaf hK hle w hw
    refine ⟨_, w', ?_, rfl, v.own, v.keep, v.taken⟩
    have hcard : K.pg.card ≤ P.card := Multiset.card_le_card hle
    have := v.run (fuel - c) [] []
    rw [Nat.sub_add_cancel (by omega)] at this
    rw [this]
    cases (ents K.sq).any (tooNew small) with
    | true => simp
    | false => cases fuel - c <;> simp [Scan.run] <;> rfl
  · have hin : (root, frNode []) ∈ P := Multiset.mem_of_le hle (by simp)
    obtain ⟨_, w1, e1, rfl, h1, k1, hl⟩ := loadPage_spec (freeScan fuel small).msg hw hin
    have hcard : 1 ≤ P.card := by simpa using Multiset.card_le_card hle
    obtain ⟨f, rfl⟩ : ∃ f, fuel = f + 1 := ⟨fuel - 1, by omega⟩
    refine ⟨_, w1, ?_, rfl, h1, k1, by simp⟩
    rw [Scan.run, run_bind e1]
    cases f <;> rfl

/-- The pages found are exactly those freed by transactions no later than the oldest reader's; all pages that must be read
to take them out of the free list are loaded. -/
theorem findReusable_beside {kw ps : Nat} {hps : 1024 ≤ ps} {small : Option Nat} {P : Multiset (Nat × Node)} {F : Multiset (Nat × Nat)}
    (h : FreeRep kw ps hps (fun _ => False) w P F) (hre : w.reused = [] ∧ w.reusable = [])
    (hA : ∀ x ∈ F, oldEnough small x.2 = true → A x.1)
    {X : Multiset Nat} (hw : Own w A (F.map (·.1) + X) (P + Q)) :
    Run (findReusable small) w fun _ w' => ∃ l : List (Nat × Nat),
      (l : Multiset (Nat × Nat)) = F.filter (fun x => oldEnough small x.2 = true) ∧
      w'.reused = [] ∧ w'.reusable = Mvcc.optimize l ∧ Keep (P + Q) w { w' with reusable := [] } ∧
      FreeRep kw ps hps (fun t => oldEnough small t = true) w' P F ∧
      Own w' A ((F.filter (fun x => ¬oldEnough small x.2 = true)).map (·.1) + X) (P + Q) := by
  obtain ⟨es, hT, hg, rfl⟩ := h
  have hcard := hw.card_lt
  obtain ⟨l, w1, e1, rfl, h1, k1, l1⟩ := freeScan_spec (small := small) (fuel := 2 * w.nextPage) hT (Multiset.le_add_right P Q) hw (by omega)
  have hq : w1.reused = [] ∧ w1.reusable = [] := by
    have := k1.step.queue
    rw [hre.1, hre.2] at this
    simpa using this
  have hsort : es.Pairwise fun a b => a.tsn < b.tsn := by
    rcases hT with ⟨K, _, _, _, e, hs⟩ | ⟨e, _⟩
    · rw [e]; exact strict_ents hs
    · rw [e]; exact .nil
  have htake : es.takeWhile (fun e => !tooNew small e) = es.filter (fun e => oldEnough small e.tsn) := by
    rw [takeWhile_filter hsort]
    · simp only [oldEnough_iff]
    · intro x y hxy hx
      rw [← oldEnough_iff] at hx ⊢
      cases small with
      | none => cases hx
      | some s => simp only [oldEnough, Option.all_some, decide_eq_false_iff_not] at hx ⊢; omega
  have hout : ((outOf (tooNew small) entPairs es : List (Nat × Nat)) : Multiset (Nat × Nat)) =
      (freeSet es).filter (fun x => oldEnough small x.2 = true) := by
    unfold outOf freeSet
    rw [htake, Multiset.filter_coe]
    congr 1
    clear htake hsort hT hg hA hw hcard e1 l1 k1 h1
    induction es with
    | nil => rfl
    | cons e es ih =>
      rw [List.flatMap_cons, List.filter_append, ← ih, List.filter_cons]
      cases ho : oldEnough small e.tsn with
      | true =>
        simp only [if_true, List.flatMap_cons]
        congr 1
        unfold entPairs
        symm
        rw [List.filter_eq_self]
        intro x hx
        obtain ⟨p, _, rfl⟩ := List.mem_map.mp hx
        simp [ho]
      | false =>
        simp only [Bool.false_eq_true, if_false]
        symm
        rw [List.append_left_eq_self]
        rw [List.filter_eq_nil_iff]
        intro x hx
        obtain ⟨p, _, rfl⟩ := List.mem_map.mp hx
        simp [ho]
  have hperm := Mvcc.optimize_perm (outOf (tooNew small) entPairs es)
  refine ⟨(), { w1 with reusable := Mvcc.optimize (outOf (tooNew small) entPairs es) }, ?_, _, hout, hq.1, rfl, ?_, ?_, ?_⟩
  · show (findReusable small) w = _
    unfold findReusable
    show ((freeScan (2 * w.nextPage) small).run (2 * w.nextPage) [(w.freeRoot, 0)] [] >>= _) w = _
    rw [run_bind e1]
    rfl
  · have : ({ w1 with reusable := [] } : Writer) = w1 := by rw [← hq.2]
    rw [this]
    exact k1
  · refine ⟨es, ?_, fun e he => ⟨fun ht q hq => ?_, fun ho q hq => ?_⟩, rfl⟩
    · show FreeTree kw ps hps w1.freeRoot P es
      rw [k1.step.freeRoot]; exact hT
    · have hq' : q ∈ ids (P + Q) := by
        rw [ids_add]
        exact Multiset.mem_add.mpr (.inl (Multiset.mem_of_le (Multiset.map_le_map (hT.ent_le e he)) hq))
      exact k1.dirty q hq' ((hg e he).cur (ht.trans k1.step.tsn) q hq)
    · exact l1 e (by rw [htake]; exact List.mem_filter.mpr ⟨he, ho⟩) q hq
  · refine ⟨h1.sees, ?_, h1.limit, h1.dirtyIn, h1.dirtyNodup, h1.cached, h1.mayDirty, fun x hx => ?_, h1.mayNew, h1.clean⟩
    · rw [← h1.account, hq.2]
      show ids (P + Q) + (w1.freed : Multiset Nat) + ((Mvcc.optimize _).map (·.1) : List Nat) + _ = _
      rw [Multiset.coe_eq_coe.mpr (hperm.map _), ← Multiset.map_coe, hout, add_assoc, ← add_assoc (Multiset.map _ _), ← Multiset.map_add, Multiset.filter_add_not]
      simp
    · have hx' : x ∈ outOf (tooNew small) entPairs es := hperm.mem_iff.mp hx
      rw [← Multiset.mem_coe, hout, Multiset.mem_filter] at hx'
      exact hA x hx'.1 hx'.2

theorem findReusable_spec {kw ps : Nat} {hps : 1024 ≤ ps} {small : Option Nat} {P : Multiset (Nat × Node)} {F : Multiset (Nat × Nat)}
    (h : FreeRep kw ps hps (fun _ => False) w P F) (hre : w.reused = [] ∧ w.reusable = [])
    (hA : ∀ x ∈ F, oldEnough small x.2 = true → A x.1)
    (hw : Own w A (F.map (·.1)) (P + Q)) :
    Run (findReusable small) w fun _ w' => ∃ l : List (Nat × Nat),
      (l : Multiset (Nat × Nat)) = F.filter (fun x => oldEnough small x.2 = true) ∧
      w'.reused = [] ∧ w'.reusable = Mvcc.optimize l ∧ Keep (P + Q) w { w' with reusable := [] } ∧
      FreeRep kw ps hps (fun t => oldEnough small t = true) w' P F ∧
      Own w' A ((F.filter (fun x => ¬oldEnough small x.2 = true)).map (·.1)) (P + Q) := by
  obtain ⟨u, w', h1, l, h2, h3, h4, h5, h6, h7⟩ := findReusable_beside (X := 0) h hre hA (by simpa using hw)
  exact ⟨u, w', h1, l, h2, h3, h4, h5, h6, by simpa using h7⟩

section Examples

-- No reader: everything.
example : ((findReusable none) freeDeep).2.reusable = [(10, 3), (11, 3), (12, 4), (13, 5)] := by decide +kernel
-- A reader at transaction 4.
example : ((findReusable (some 4)) freeDeep).2.reusable = [(10, 3), (11, 3), (12, 4)] := by decide +kernel
example : ((findReusable (some 3)) freeDeep).2.reusable = [(10, 3), (11, 3)] := by decide +kernel
example : ((findReusable (some 2)) freeDeep).2.reusable = [] := by decide +kernel
-- A page of another kind in the free list.
example : ((findReusable none) { freeDeep with base := fun p => if p = 7 then some (.tagLeaf []) else freeDeep.base p }).1 =
    .error (.databaseCorrupted "Invalid node type in free list tree") := by decide +kernel
example : ((findReusable none) { freeDeep with base := fun p => if p = 7 then none else freeDeep.base p }).1 =
    .error (.databaseCorrupted "Free list page load error") := by decide +kernel

end Examples

end Uma.Page
