import Mathlib.Data.List.Perm.Subperm
import Verif.Page.Events
import Verif.Page.Find
import Verif.Db.ReadProof

/-!
# Reading the events tree: lookup and iterator (umadb-core/src/events_tree.rs 496-770)
-/

namespace Uma.Page
open Uma.Codec Uma.Spec

/-- `keys.binary_search(&x)` for distinct keys: `.ok i` if found at `i`, `.error i` with the insertion point if not. -/
def searchIdx {κ : Type} [LinearOrder κ] (keys : List κ) (x : κ) : Except Nat Nat :=
  if 0 < ub keys x ∧ keys[ub keys x - 1]? = some x then .ok (ub keys x - 1) else .error (ub keys x)

theorem ub_le {κ : Type} [LinearOrder κ] (keys : List κ) (x : κ) : ub keys x ≤ keys.length := List.countP_le_length

/-- What the search tells about sorted keys. -/
theorem searchIdx_ok {κ : Type} [LinearOrder κ] {keys : List κ} {x : κ} {i : Nat} (h : searchIdx keys x = .ok i) :
    keys[i]? = some x ∧ i + 1 = ub keys x := by
  unfold searchIdx at h
  split at h
  · next hc => cases h; exact ⟨hc.2, by omega⟩
  · cases h

theorem searchIdx_error {κ : Type} [LinearOrder κ] {keys : List κ} {x : κ} {i : Nat} (hk : keys.Pairwise (· ≤ ·))
    (h : searchIdx keys x = .error i) : i = ub keys x ∧ x ∉ keys := by
  unfold searchIdx at h
  split at h
  · cases h
  · next hc =>
    cases h
    refine ⟨rfl, fun hx => hc ?_⟩
    have h1 := (ub_bs (κ := κ)).hit keys x hk hx
    have hpos : 0 < ub keys x := by
      rcases Nat.eq_zero_or_pos (ub keys x) with h0 | h0
      · rw [h0] at h1; simp at h1
      · exact h0
    refine ⟨hpos, ?_⟩
    rw [List.getLast?_eq_getElem?, List.length_take, Nat.min_eq_left (ub_le keys x), List.getElem?_take] at h1
    rw [if_pos (by omega)] at h1
    exact h1

/-- `event_tree_lookup`, events_tree.rs 496-543. -/
def evLookup (v : Nat → Option Node) (fuel root pos : Nat) : Except Err Record :=
  match findLeaf evOps (fun keys _ => ub keys pos) v fuel root with
  | .error e => .error e
  | .ok (.eventLeaf keys values) =>
    match searchIdx keys pos with
    | .error _ => .error (.databaseCorrupted "Event at position not found")
    | .ok i =>
      match values[i]? with
      | none => .error (.panic "index out of bounds")
      | some val => materialize v val
  | .ok _ => .error (.databaseCorrupted "Expected EventInternal or EventLeaf node in event tree")

/-- Value at index `i` of a leaf, and where to go on, events_tree.rs 707-744. -/
def evLeafAt (v : Nat → Option Node) (back : Bool) (keys : List Nat) (values : List EventValue) (i : Nat) :
    Except Err (List (Nat × Record) × Option Nat) :=
  if i < values.length then
    match keys[i]?, values[i]? with
    | some k, some val =>
      match materialize v val with
      | .error e => .error e
      | .ok r => .ok ([(k, r)], if back then (if i > 0 then some (i - 1) else none)
          else if i + 1 < values.length then some (i + 1) else none)
    | _, _ => .error (.panic "index out of bounds")
  else .ok ([], none)

/-- Index at the first visit of a leaf, events_tree.rs 676-705.  `i - 1` underflows for `i = 0`. -/
def evLeafStart (start : Option Nat) (back : Bool) (keys : List Nat) (values : List EventValue) :
    Except Err (Option Nat) :=
  if values.length > 0 then
    match start with
    | some s =>
      match searchIdx keys s with
      | .ok i => .ok (some i)
      | .error i => if back then (if i = 0 then .error (.panic "attempt to subtract with overflow") else .ok (some (i - 1)))
          else .ok (some i)
    | none => .ok (some (if back then values.length - 1 else 0))
  else .ok none

/-- A leaf met again is resumed where it was left, events_tree.rs 676-705. -/
def evLeafIdx (start : Option Nat) (back : Bool) (keys : List Nat) (values : List EventValue) :
    Option Nat → Except Err (Option Nat)
  | some i => .ok (some i)
  | none => evLeafStart start back keys values

/-- `EventIterator`, events_tree.rs 545-770. -/
def evWalk (v : Nat → Option Node) (start : Option Nat) (back : Bool) : Walk Nat (Nat × Record) where
  un := evOps.un
  first keys kids := if keys = [] then none else some (firstIdx ub start back keys kids)
  leaf
    | .eventLeaf keys values, o =>
      match evLeafIdx start back keys values o with
      | .error e => .error e
      | .ok none => .ok ([], none)
      | .ok (some i) => evLeafAt v back keys values i
    | _, _ => .error (.databaseCorrupted "Expected EventInternal or EventLeaf node in event tree")
  back := back
  outOfBounds := some (.panic "index out of bounds")

/-- All batches of an `EventIterator`: what they hold together, and the error that ended the iteration. -/
def evScan (v : Nat → Option Node) (fuel root : Nat) (start : Option Nat) (back : Bool) :
    List (Nat × Record) × Option Err :=
  if back = true ∧ start = some 0 then ([], none) else (evWalk v start back).run v fuel [(root, none)]

/-- One `next_batch` of a traversal that yields at most one item per turn: what it returns and the stack left,
events_tree.rs 573-769. -/
def Walk.batch {κ α : Type} (D : Walk κ α) (v : Nat → Option Node) : Nat → Nat → Stack → Except Err (List α × Stack)
  | _, 0, st => .ok ([], st)
  | _, _ + 1, [] => .ok ([], [])
  | 0, _ + 1, _ :: _ => .error (.internal "out of fuel")
  | fuel + 1, k + 1, (p, o) :: st =>
    match D.step v p o st with
    | .error e => .error e
    | .ok (es, st') =>
      match D.batch v fuel (k + 1 - es.length) st' with
      | .error e => .error e
      | .ok (r, st'') => .ok (es ++ r, st'')

/-- A batch is the next part of the whole. -/
theorem batch_spec {κ α : Type} {D : Walk κ α} {v : Nat → Option Node}
    (hone : ∀ p o st es st', D.step v p o st = .ok (es, st') → es.length ≤ 1) {n : Nat} {st : Stack} {l : List α}
    (h : Emits D v n st l) : ∀ (k fuel : Nat), n ≤ fuel →
    ∃ st' n', D.batch v fuel k st = .ok (l.take k, st') ∧ Emits D v n' st' (l.drop k) ∧ n' ≤ n := by
  induction h with
  | done =>
    intro k fuel _
    refine ⟨[], 0, ?_, by simpa using .done, Nat.le_refl _⟩
    cases k <;> simp [Walk.batch]
  | @step p o st es st' n l hs he ih =>
    intro k fuel hf
    cases k with
    | zero => exact ⟨(p, o) :: st, n + 1, by simp [Walk.batch], by simpa using .step hs he, Nat.le_refl _⟩
    | succ k =>
      obtain ⟨fuel, rfl⟩ : ∃ f, fuel = f + 1 := ⟨fuel - 1, by omega⟩
      obtain ⟨st'', n', h1, h2, h3⟩ := ih (k + 1 - es.length) fuel (by omega)
      have hl := hone _ _ _ _ _ hs
      refine ⟨st'', n', ?_, ?_, by omega⟩
      · simp only [Walk.batch, hs, h1]
        rw [List.take_append, List.take_of_length_le (l := es) (by omega)]
      · rw [List.drop_append, List.drop_eq_nil_of_le (as := es) (by omega)]
        simpa using h2

variable {v : Nat → Option Node} {kw ps : Nat} {hps : 1024 ≤ ps} {start : Option Nat} {back : Bool}

/-! ## Leaves -/

theorem materialize_ok {e : EvEnt} (h : EvOk ps e) (hs : Sees v e.pg) : materialize v e.val = .ok e.rcd := by
  obtain ⟨⟨val, hv⟩, h | ⟨root, h1, h2, _⟩⟩ := h
  · rw [h.1]; rfl
  · rw [h1]
    refine materialize_overflow h2 ?_ hs
    rw [validateEvent_cases] at hv
    split at hv
    · cases hv
    split at hv
    · cases hv
    · next hm => exact metaFit_of_valid hm

def EvEnt.pair (e : EvEnt) : Nat × Record := (e.pos, e.rcd)

theorem epg_le {es : List EvEnt} {e : EvEnt} (h : e ∈ es) : e.pg ≤ epg es := by
  induction es with
  | nil => cases h
  | cons x es ih =>
    rw [epg_cons]
    rcases List.mem_cons.mp h with rfl | h
    · exact Multiset.le_add_right _ _
    · exact (ih h).trans (Multiset.le_add_left _ _)

theorem evLeafAt_ok {es : List EvEnt} (hes : ∀ e ∈ es, EvOk ps e) (hs : Sees v (epg es)) {i : Nat} {e : EvEnt}
    (hi : es[i]? = some e) (back : Bool) :
    evLeafAt v back (es.map (·.pos)) (es.map (·.val)) i =
      .ok ([e.pair], if back then (if i > 0 then some (i - 1) else none)
        else if i + 1 < es.length then some (i + 1) else none) := by
  obtain ⟨hlt, rfl⟩ := List.getElem?_eq_some_iff.mp hi
  have hm : es[i] ∈ es := List.getElem_mem hlt
  unfold evLeafAt
  rw [if_pos (by simpa using hlt)]
  simp only [List.getElem?_map, hi, Option.map_some, materialize_ok (hes _ hm) (hs.sub (epg_le hm)), List.length_map,
    EvEnt.pair]

theorem evLeaf_step {es : List EvEnt} {id : Nat} (hv : v id = some (evNode es)) (i : Nat) (st : Stack) :
    (evWalk v start back).step v id (some i) st =
      match evLeafAt v back (es.map (·.pos)) (es.map (·.val)) i with
      | .error e => .error e
      | .ok (l, none) => .ok (l, st)
      | .ok (l, some j) => .ok (l, (id, some j) :: st) := by
  unfold Walk.step
  rw [hv]
  have h1 : (evWalk v start back).un (evNode es) = none := rfl
  have h2 : (evWalk v start back).leaf (evNode es) (some i) =
    evLeafAt v back (es.map (·.pos)) (es.map (·.val)) i := rfl
  simp only [h1, h2]
  generalize evLeafAt v back _ _ i = X
  rcases X with e | ⟨l, _ | j⟩ <;> rfl

theorem evLeaf_fwd {es : List EvEnt} {id : Nat} (hv : v id = some (evNode es)) (hes : ∀ e ∈ es, EvOk ps e)
    (hs : Sees v (epg es)) : ∀ (d i : Nat), es.length - i = d →
    Visit (evWalk v start false) v id (some i) ((es.drop i).map EvEnt.pair) (d + 1) := by
  intro d
  induction d with
  | zero =>
    intro i hd n st l' he
    refine ⟨n + 1, by omega, ?_⟩
    have : es.drop i = [] := List.drop_eq_nil_of_le (by omega)
    rw [this]
    have hstep : (evWalk v start false).step v id (some i) st = .ok ([], st) := by
      rw [evLeaf_step hv]
      unfold evLeafAt
      rw [if_neg (by simp; omega)]
    exact .step hstep he
  | succ d ih =>
    intro i hd n st l' he
    have hlt : i < es.length := by omega
    have hget : es[i]? = some es[i] := List.getElem?_eq_getElem hlt
    have hdrop : es.drop i = es[i] :: es.drop (i + 1) := List.drop_eq_getElem_cons hlt
    by_cases hl : i + 1 < es.length
    · obtain ⟨n', hn, h'⟩ := ih (i + 1) (by omega) n st l' he
      have hstep : (evWalk v start false).step v id (some i) st = .ok ([es[i].pair], (id, some (i + 1)) :: st) := by
        rw [evLeaf_step hv, evLeafAt_ok hes hs hget]
        simp [hl]
      refine ⟨n' + 1, by omega, ?_⟩
      have := Emits.step hstep h'
      rw [hdrop]
      exact this
    · have hstep : (evWalk v start false).step v id (some i) st = .ok ([es[i].pair], st) := by
        rw [evLeaf_step hv, evLeafAt_ok hes hs hget]
        simp [hl]
      refine ⟨n + 1, by omega, ?_⟩
      have := Emits.step hstep he
      rw [hdrop, List.drop_eq_nil_of_le (by omega)]
      simpa using this

theorem evLeaf_back {es : List EvEnt} {id : Nat} (hv : v id = some (evNode es)) (hes : ∀ e ∈ es, EvOk ps e)
    (hs : Sees v (epg es)) : ∀ (i : Nat), i < es.length →
    Visit (evWalk v start true) v id (some i) (((es.take (i + 1)).reverse).map EvEnt.pair) (i + 1) := by
  intro i
  induction i with
  | zero =>
    intro hlt n st l' he
    have hget : es[0]? = some es[0] := List.getElem?_eq_getElem hlt
    have hstep : (evWalk v start true).step v id (some 0) st = .ok ([es[0].pair], st) := by
      rw [evLeaf_step hv, evLeafAt_ok hes hs hget]
      simp
    refine ⟨n + 1, by omega, ?_⟩
    have := Emits.step hstep he
    rw [List.take_succ_eq_append_getElem hlt]
    simpa using this
  | succ i ih =>
    intro hlt n st l' he
    have hget : es[i + 1]? = some es[i + 1] := List.getElem?_eq_getElem hlt
    obtain ⟨n', hn, h'⟩ := ih (by omega) n st l' he
    have hstep : (evWalk v start true).step v id (some (i + 1)) st = .ok ([es[i + 1].pair], (id, some i) :: st) := by
      rw [evLeaf_step hv, evLeafAt_ok hes hs hget]
      simp
    refine ⟨n' + 1, by omega, ?_⟩
    have := Emits.step hstep h'
    rw [List.take_succ_eq_append_getElem hlt, List.reverse_append]
    exact this

/-- The first visit of a leaf is the visit at the starting index. -/
theorem evLeaf_first {es : List EvEnt} {id : Nat} (hv : v id = some (evNode es)) {i c : Nat} {l : List (Nat × Record)}
    (hi : evLeafStart start back (es.map (·.pos)) (es.map (·.val)) = .ok (some i))
    (h : Visit (evWalk v start back) v id (some i) l c) : Visit (evWalk v start back) v id none l c := by
  intro n st l' he
  obtain ⟨n', hn, h'⟩ := h n st l' he
  refine ⟨n', hn, ?_⟩
  have hstep : (evWalk v start back).step v id none st = (evWalk v start back).step v id (some i) st := by
    rw [evLeaf_step hv]
    unfold Walk.step
    rw [hv]
    have h1 : (evWalk v start back).un (evNode es) = none := rfl
    have h2 : (evWalk v start back).leaf (evNode es) none =
        evLeafAt v back (es.map (·.pos)) (es.map (·.val)) i := by
      simp only [evWalk, evNode, evLeafIdx, hi]
    simp only [h1, h2]
    generalize evLeafAt v back _ _ i = X
    rcases X with e | ⟨l, _ | j⟩ <;> rfl
  generalize hl : l ++ l' = l'' at h'
  cases h' with
  | step h1 h2 => exact .step (hstep.trans h1) h2

theorem weak_pairs {es : List EvEnt} (h : Weak (κ := Nat) Prod.fst ((es.map EvEnt.pair).map Item.ent)) :
    (es.map (·.pos)).Pairwise (· ≤ ·) := by
  have h2 := List.pairwise_map.mp (List.pairwise_map.mp h)
  exact List.pairwise_map.mpr h2

theorem evLeaf_visit {k : Kid Nat (Nat × Record)} (hk : EvLeaf ps k) (hpre : RangePre Prod.fst start back True k)
    (hs : Sees v k.pg) :
    ∃ l, Visit (evWalk v start back) v k.id none l (walkCost k) ∧ RangeOut Prod.fst start back k l := by
  obtain ⟨es, hke, hes, _⟩ := hk
  have hpg : k.pg = {(k.id, evNode es)} + epg es := by rw [hke]; rfl
  have hsq : k.sq = (es.map EvEnt.pair).map .ent := by rw [hke]; rfl
  have hents : ents k.sq = es.map EvEnt.pair := by rw [hsq, ents_map]
  have hv : v k.id = some (evNode es) := hs _ _ (by rw [hpg]; simp)
  have hse : Sees v (epg es) := hs.sub (by rw [hpg]; exact Multiset.le_add_left _ _)
  have hcost : es.length + 1 ≤ walkCost k := by
    unfold walkCost
    rw [hents, hpg]
    simp only [List.length_map, Multiset.card_add, Multiset.card_singleton]
    omega
  have hkeys := weak_pairs (hsq ▸ hpre.weak)
  -- keys at indices
  have hmono : ∀ (i j : Nat) (a b : EvEnt), i ≤ j → es[i]? = some a → es[j]? = some b → a.pos ≤ b.pos := by
    intro i j a b hij ha hb
    rcases Nat.lt_or_ge i j with h | h
    · obtain ⟨h1, rfl⟩ := List.getElem?_eq_some_iff.mp ha
      obtain ⟨h2, rfl⟩ := List.getElem?_eq_some_iff.mp hb
      have := List.pairwise_iff_getElem.mp hkeys i j (by simpa using h1) (by simpa using h2) h
      simpa using this
    · have : i = j := by omega
      subst this; rw [ha] at hb; cases hb; exact Nat.le_refl _
  rcases Nat.eq_zero_or_pos es.length with h0 | hpos
  · -- an empty leaf yields nothing
    have he0 : es = [] := List.eq_nil_of_length_eq_zero h0
    refine ⟨[], Visit.le (c := 1) ?_ (by omega), ⟨by simp, by simp, by rw [hents, he0]; simp⟩⟩
    intro n st l' he
    refine ⟨n + 1, by omega, ?_⟩
    have hstep : (evWalk v start back).step v k.id none st = .ok ([], st) := by
      unfold Walk.step
      rw [hv, he0]
      rfl
    exact .step hstep he
  have hstartpos : (es.map (·.val)).length > 0 := by simpa using hpos
  -- the starting index and what it is good for
  cases back with
  | false =>
    have key : ∃ i, evLeafStart start false (es.map (·.pos)) (es.map (·.val)) = .ok (some i) ∧
        (∀ j e, i ≤ j → es[j]? = some e → InRange start false e.pos) ∧
        (∀ j e, j < i → es[j]? = some e → InRange start false e.pos → ∃ e', es[i]? = some e' ∧ e'.pos = e.pos) := by
      unfold evLeafStart
      rw [if_pos hstartpos]
      cases start with
      | none => exact ⟨0, rfl, fun _ _ _ _ => trivial, fun j e hj => by omega⟩
      | some s =>
        simp only
        cases hsi : searchIdx (es.map (·.pos)) s with
        | ok i =>
          obtain ⟨h1, h2⟩ := searchIdx_ok hsi
          rw [List.getElem?_map] at h1
          obtain ⟨e0, h3, h4⟩ := Option.map_eq_some_iff.mp h1
          refine ⟨i, rfl, ?_, ?_⟩
          · intro j e hj he
            have := hmono i j _ _ hj h3 he
            simp only [InRange, Bool.false_eq_true, if_false]; omega
          · intro j e hj he hr
            have := hmono j i _ _ (by omega) he h3
            simp only [InRange, Bool.false_eq_true, if_false] at hr
            exact ⟨e0, h3, by omega⟩
        | error i =>
          obtain ⟨h1, h2⟩ := searchIdx_error hkeys hsi
          obtain ⟨h3, h4⟩ := ub_split s _ hkeys
          rw [← h1] at h3 h4
          refine ⟨i, rfl, ?_, ?_⟩
          · intro j e hj he
            have : e.pos ∈ (es.map (·.pos)).drop i := by
              rw [List.mem_iff_getElem?]
              exact ⟨j - i, by rw [List.getElem?_drop, List.getElem?_map, show i + (j - i) = j by omega, he]; rfl⟩
            have := h4 _ this
            simp only [InRange, Bool.false_eq_true, if_false]; omega
          · intro j e hj he hr
            have h5 : e.pos ∈ (es.map (·.pos)).take i := by
              rw [List.mem_iff_getElem?]
              exact ⟨j, by rw [List.getElem?_take, if_pos hj, List.getElem?_map, he]; rfl⟩
            have := h3 _ h5
            simp only [InRange, Bool.false_eq_true, if_false] at hr
            have : e.pos = s := by omega
            exact absurd (this ▸ List.mem_of_mem_take h5) h2
    obtain ⟨i, hi, hin, hmiss⟩ := key
    refine ⟨(es.drop i).map EvEnt.pair, (evLeaf_first hv hi (evLeaf_fwd hv hes hse _ i rfl)).le (by omega), ?_, ?_, ?_⟩
    · rw [hents]
      simp only [Bool.false_eq_true, if_false]
      exact (List.drop_sublist i es).map _
    · intro x hx
      obtain ⟨e, he, rfl⟩ := List.mem_map.mp hx
      obtain ⟨j, hj⟩ := List.mem_iff_getElem?.mp he
      rw [List.getElem?_drop] at hj
      exact hin (i + j) e (by omega) hj
    · intro x hx hr
      rw [hents] at hx
      obtain ⟨e, he, rfl⟩ := List.mem_map.mp hx
      obtain ⟨j, hj⟩ := List.mem_iff_getElem?.mp he
      rcases Nat.lt_or_ge j i with h | h
      · obtain ⟨e', h1, h2⟩ := hmiss j e h hj hr
        refine ⟨e'.pair, List.mem_map_of_mem ?_, h2⟩
        rw [List.mem_iff_getElem?]
        exact ⟨0, by rw [List.getElem?_drop]; exact h1⟩
      · refine ⟨e.pair, List.mem_map_of_mem ?_, rfl⟩
        rw [List.mem_iff_getElem?]
        exact ⟨j - i, by rw [List.getElem?_drop, show i + (j - i) = j by omega]; exact hj⟩
  | true =>
    have key : ∃ i, i < es.length ∧ evLeafStart start true (es.map (·.pos)) (es.map (·.val)) = .ok (some i) ∧
        (∀ j e, j ≤ i → es[j]? = some e → InRange start true e.pos) ∧
        (∀ j e, i < j → es[j]? = some e → InRange start true e.pos → ∃ e', es[i]? = some e' ∧ e'.pos = e.pos) := by
      unfold evLeafStart
      rw [if_pos hstartpos]
      cases start with
      | none =>
        refine ⟨es.length - 1, by omega, by simp, fun _ _ _ _ => trivial, fun j e hj he => ?_⟩
        have := (List.getElem?_eq_some_iff.mp he).1; omega
      | some s =>
        simp only
        cases hsi : searchIdx (es.map (·.pos)) s with
        | ok i =>
          obtain ⟨h1, h2⟩ := searchIdx_ok hsi
          obtain ⟨h3, h4⟩ := ub_split s _ hkeys
          rw [List.getElem?_map] at h1
          obtain ⟨e0, h5, h6⟩ := Option.map_eq_some_iff.mp h1
          have hlt := (List.getElem?_eq_some_iff.mp h5).1
          refine ⟨i, hlt, rfl, ?_, ?_⟩
          · intro j e hj he
            have := hmono j i _ _ hj he h5
            simp only [InRange, if_true]; omega
          · intro j e hj he hr
            have := hmono i j _ _ (by omega) h5 he
            simp only [InRange, if_true] at hr
            exact ⟨e0, h5, by omega⟩
        | error i =>
          obtain ⟨h1, h2⟩ := searchIdx_error hkeys hsi
          obtain ⟨h3, h4⟩ := ub_split s _ hkeys
          have hle := ub_le (es.map (·.pos)) s
          rw [← h1] at h3 h4 hle
          -- the first entry is not above `s`
          have hi0 : i ≠ 0 := by
            intro h0
            obtain ⟨e0, rest, hes0⟩ : ∃ e0 rest, es = e0 :: rest := by
              cases es with
              | nil => simp at hpos
              | cons a b => exact ⟨a, b, rfl⟩
            have hf := hpre.first trivial rfl s rfl e0.pair _ (by rw [hsq, hes0]; rfl)
            have := h4 e0.pos (by rw [h0, hes0]; simp)
            simp only [EvEnt.pair] at hf
            omega
          simp only [List.length_map] at hle
          refine ⟨i - 1, by omega, by simp [hi0], ?_, ?_⟩
          · intro j e hj he
            have h5 : e.pos ∈ (es.map (·.pos)).take i := by
              rw [List.mem_iff_getElem?]
              exact ⟨j, by rw [List.getElem?_take, if_pos (by omega), List.getElem?_map, he]; rfl⟩
            have := h3 _ h5
            simp only [InRange, if_true]; omega
          · intro j e hj he hr
            have : e.pos ∈ (es.map (·.pos)).drop i := by
              rw [List.mem_iff_getElem?]
              exact ⟨j - i, by rw [List.getElem?_drop, List.getElem?_map, show i + (j - i) = j by omega, he]; rfl⟩
            have := h4 _ this
            simp only [InRange, if_true] at hr
            omega
    obtain ⟨i, hlt, hi, hin, hmiss⟩ := key
    refine ⟨((es.take (i + 1)).reverse).map EvEnt.pair, (evLeaf_first hv hi (evLeaf_back hv hes hse i hlt)).le (by omega),
      ?_, ?_, ?_⟩
    · rw [hents]
      simp only [if_true, ← List.map_reverse]
      exact ((List.take_sublist _ es).reverse).map _
    · intro x hx
      obtain ⟨e, he, rfl⟩ := List.mem_map.mp hx
      obtain ⟨j, hj⟩ := List.mem_iff_getElem?.mp (List.mem_reverse.mp he)
      rw [List.getElem?_take] at hj
      split at hj
      · exact hin j e (by omega) hj
      · cases hj
    · intro x hx hr
      rw [hents] at hx
      obtain ⟨e, he, rfl⟩ := List.mem_map.mp hx
      obtain ⟨j, hj⟩ := List.mem_iff_getElem?.mp he
      rcases Nat.lt_or_ge i j with h | h
      · obtain ⟨e', h1, h2⟩ := hmiss j e h hj hr
        refine ⟨e'.pair, List.mem_map_of_mem (List.mem_reverse.mpr ?_), h2⟩
        rw [List.mem_iff_getElem?]
        exact ⟨i, by rw [List.getElem?_take, if_pos (by omega)]; exact h1⟩
      · refine ⟨e.pair, List.mem_map_of_mem (List.mem_reverse.mpr ?_), rfl⟩
        rw [List.mem_iff_getElem?]
        exact ⟨j, by rw [List.getElem?_take, if_pos (by omega)]; exact hj⟩

/-! ## The whole tree -/

/-- The content of the events tree: the log, numbered from 1. -/
structure EvSeq (sq : List (Item Nat (Nat × Record))) (log : Log) : Prop where
  strict : Strict Prod.fst sq
  sep : SepEnt Prod.fst sq
  ents : ents sq = numberFrom 1 log

theorem eq_filter {α : Type} {l xs : List α} {P : α → Prop} [DecidablePred P] (hs : l.Sublist xs) (hn : xs.Nodup)
    (h1 : ∀ e ∈ l, P e) (h2 : ∀ e ∈ xs, P e → e ∈ l) : l = xs.filter (fun e => decide (P e)) := by
  have hl : l.Sublist (xs.filter (fun e => decide (P e))) := by
    have := hs.filter (fun e => decide (P e))
    rwa [List.filter_eq_self.mpr (by simpa using h1)] at this
  refine hl.eq_of_length_le ?_
  have hsub : xs.filter (fun e => decide (P e)) ⊆ l := by
    intro e he
    obtain ⟨a, b⟩ := List.mem_filter.mp he
    exact h2 e a (by simpa using b)
  exact (List.subperm_of_subset (hn.filter _) hsub).length_le

theorem numberFrom_nodup {α : Type} (l : List α) : ∀ n, ((numberFrom n l).map Prod.fst).Nodup := by
  induction l with
  | nil => intro n; simp [numberFrom]
  | cons a l ih =>
    intro n
    simp only [numberFrom, List.map_cons, List.nodup_cons]
    refine ⟨?_, ih (n + 1)⟩
    intro h
    obtain ⟨x, hx, he⟩ := List.mem_map.mp h
    have := (Db.mem_numberFrom (p := x.1) (a := x.2)).mp hx
    omega

/-- The iterator returns the log from `start`, in the direction asked for. -/
theorem evScan_spec {K : Kid Nat (Nat × Record)} (hK : Tr (evLayout kw ps hps) K) {log : Log} (hq : EvSeq K.sq log)
    (hs : Sees v K.pg) {fuel : Nat} (hf : walkCost K ≤ fuel) (start : Option Nat) (back : Bool) :
    evScan v fuel K.id start back =
      ((let sel := (numberFrom 1 log).filter (fun p => decide (InRange start back p.1))
        if back then sel.reverse else sel), none) := by
  unfold evScan
  split
  · next h =>
    obtain ⟨rfl, rfl⟩ := h
    simp only [Prod.mk.injEq, and_true]
    have : (numberFrom 1 log).filter (fun p => decide (InRange (some 0) true p.1)) = [] := by
      rw [List.filter_eq_nil_iff]
      intro x hx
      have := (Db.mem_numberFrom (p := x.1) (a := x.2)).mp hx
      simp [InRange]; omega
    rw [this]; simp
  · next hns =>
    have hpre : RangePre Prod.fst start back True K := by
      refine ⟨hq.strict.weak, hq.sep, ?_⟩
      intro _ hb s hst e b he
      have h1 : ents K.sq = e :: ents b := by rw [he]; rfl
      rw [hq.ents] at h1
      cases log with
      | nil => simp [numberFrom] at h1
      | cons r log =>
        simp only [numberFrom, List.cons.injEq] at h1
        rw [← h1.1]
        have : s ≠ 0 := by
          rintro rfl
          exact hns ⟨hb, hst⟩
        simp only; omega
    obtain ⟨l, hv, ho⟩ := range_spec (Y := evLayout kw ps hps) (D := evWalk v start back) (bs := ub) ub_bs rfl rfl
      (by
        intro keys kids hfit
        have h1 : 1 ≤ keys.length := hfit.1
        show (if keys = [] then none else _) = _
        rw [if_neg (by rintro rfl; simp at h1)]
        rfl)
      (fun k hk hp hs => evLeaf_visit hk hp hs) hK hpre hs
    rw [hv.run hf]
    simp only [Prod.mk.injEq, and_true]
    have hnd := numberFrom_nodup log 1
    have hcomp : ∀ e ∈ numberFrom 1 log, InRange start back e.1 → e ∈ l := by
      intro e he hr
      obtain ⟨e', h1, h2⟩ := ho.complete e (by rw [hq.ents]; exact he) hr
      have h3 : e' ∈ numberFrom 1 log := by
        have := ho.sub.subset h1
        rw [hq.ents] at this
        split at this
        · exact List.mem_reverse.mp this
        · exact this
      have : e' = e := List.inj_on_of_nodup_map hnd h3 he h2
      exact this ▸ h1
    have hsub := ho.sub
    rw [hq.ents] at hsub
    cases back with
    | false =>
      simp only [Bool.false_eq_true, if_false] at hsub ⊢
      exact eq_filter (P := fun p : Nat × Record => InRange start false p.1) hsub hnd.of_map ho.sound hcomp
    | true =>
      simp only [if_true] at hsub ⊢
      rw [← List.filter_reverse]
      exact eq_filter (P := fun p : Nat × Record => InRange start true p.1) hsub (List.nodup_reverse.mpr hnd.of_map)
        ho.sound (fun e he => hcomp e (List.mem_reverse.mp he))

theorem evLeafAt_one {keys : List Nat} {values : List EventValue} {i : Nat} {es : List (Nat × Record)} {o : Option Nat}
    (h : evLeafAt v back keys values i = .ok (es, o)) : es.length ≤ 1 := by
  unfold evLeafAt at h
  split at h
  · split at h
    · split at h
      · cases h
      · cases h; simp
    · cases h
  · cases h; simp

/-- The iterator meets at most one event per turn, so `next_batch` returns exactly the next `n` events
(`batch_spec`). -/
theorem evWalk_one (p : Nat) (o : Option Nat) (st : Stack) (es : List (Nat × Record)) (st' : Stack)
    (h : (evWalk v start back).step v p o st = .ok (es, st')) : es.length ≤ 1 := by
  unfold Walk.step at h
  split at h
  · cases h
  · split at h
    · split at h
      · cases h
      all_goals
        next hl =>
        cases h
        simp only [evWalk] at hl
        split at hl
        · split at hl
          · cases hl
          · cases hl; try simp
          · exact evLeafAt_one hl
        · cases hl
    · split at h
      · cases h; simp
      · split at h
        · split at h
          · cases h
          · cases h; simp
        · cases h; simp

/-- Looking up a recorded position finds its event. -/
theorem evLookup_spec {K : Kid Nat (Nat × Record)} (hK : Tr (evLayout kw ps hps) K) (hq : Strict Prod.fst K.sq)
    (hs : Sees v K.pg) {fuel : Nat} (hf : K.pg.card ≤ fuel) {pos : Nat} {r : Record} (h : (pos, r) ∈ ents K.sq) :
    evLookup v fuel K.id pos = .ok r := by
  obtain ⟨fs, k, n, hF, h1, h2, h3, h4⟩ := findLeaf_spec (Y := evLayout kw ps hps) (v := v)
    (pick := fun keys _ => ub keys pos) (fun keys kids _ => ub_le keys pos) hK fuel hf hs
  obtain ⟨es, hke, hes, _⟩ := hF.leaf
  have hpg : k.pg = {(k.id, evNode es)} + epg es := by rw [hke]; rfl
  have hsq : k.sq = (es.map EvEnt.pair).map .ent := by rw [hke]; rfl
  have hn : n = evNode es := by
    have := hs _ _ (Multiset.mem_of_le h4 (show (k.id, evNode es) ∈ k.pg by rw [hpg]; simp))
    rw [h3] at this; exact Option.some.inj this
  have hse : Sees v (epg es) := (hs.sub h4).sub (by rw [hpg]; exact Multiset.le_add_left _ _)
  have hKsq : K.sq = zl fs ++ k.sq ++ zr fs := by rw [← hF.eq]; exact plug_sq _ _ _
  obtain ⟨hzl, hzr⟩ := zl_zr_strict (f := Prod.fst) (O := evOps) (x := pos) fs k (by
    show Strict _ (plug (evLayout kw ps hps).ops fs k).sq
    rw [hF.eq]; exact hq) hF.picked
  have hmem : (pos, r) ∈ es.map EvEnt.pair := by
    have := mem_ents.mp h
    rw [hKsq, List.append_assoc, List.mem_append, List.mem_append] at this
    rcases this with this | this | this
    · rcases hzl _ this with h' | h'
      · exact absurd h' (by simp [Item.key])
      · cases h'
    · rw [hsq] at this
      obtain ⟨x, hx, he⟩ := List.mem_map.mp this
      cases he; exact hx
    · exact absurd (hzr _ this) (by simp [Item.key])
  have hstrict : Strict Prod.fst k.sq := List.Pairwise.sublist
    (by rw [hKsq]; exact (List.sublist_append_right _ _).trans (List.sublist_append_left _ _)) hq
  have hkeys := weak_pairs (hsq ▸ hstrict.weak)
  have hnd : (es.map (·.pos)).Nodup := by
    rw [hsq] at hstrict
    have h5 := List.pairwise_map.mp (List.pairwise_map.mp hstrict)
    refine List.pairwise_map.mpr (h5.imp ?_)
    rintro a b (h | ⟨_, h, _⟩)
    · exact Nat.ne_of_lt h
    · cases h
  obtain ⟨e, he, heq⟩ := List.mem_map.mp hmem
  have hp : e.pos = pos := congrArg Prod.fst heq
  have hr : e.rcd = r := congrArg Prod.snd heq
  unfold evLookup
  rw [show findLeaf evOps (fun keys _ => ub keys pos) v fuel K.id = .ok n from h1, hn]
  simp only [evNode]
  cases hsi : searchIdx (es.map (·.pos)) pos with
  | error i => exact absurd (List.mem_map.mpr ⟨e, he, hp⟩) (searchIdx_error hkeys hsi).2
  | ok i =>
    obtain ⟨h6, _⟩ := searchIdx_ok hsi
    rw [List.getElem?_map] at h6
    obtain ⟨e', h7, h8⟩ := Option.map_eq_some_iff.mp h6
    have : e' = e := List.inj_on_of_nodup_map hnd (List.mem_of_getElem? h7) he (h8.trans hp.symm)
    subst this
    simp only [List.getElem?_map, h7, Option.map_some]
    rw [materialize_ok (hes _ he) (hse.sub (epg_le he)), hr]

/-- Appending the next position keeps the content a numbered log. -/
theorem EvSeq.append {sq sq' : List (Item Nat (Nat × Record))} {log : Log} (h : EvSeq sq log) (r : Record)
    (h' : sq' = sq ++ [.ent (log.length + 1, r)] ∨
      sq' = sq ++ [.sep (log.length + 1), .ent (log.length + 1, r)]) : EvSeq sq' (log ++ [r]) := by
  have hkey : ∀ i ∈ sq, i.key Prod.fst < log.length + 1 := by
    have hent : ∀ e, Item.ent e ∈ sq → e.1 < log.length + 1 := by
      intro e he
      have := mem_ents.mpr he
      rw [h.ents] at this
      obtain ⟨h1, h2⟩ := (Db.mem_numberFrom (p := e.1) (a := e.2)).mp this
      have := (List.getElem?_eq_some_iff.mp h2).1
      omega
    intro i hi
    cases i with
    | ent e => exact hent e hi
    | sep k =>
      obtain ⟨a, b, rfl⟩ := List.append_of_mem hi
      obtain ⟨e, b', hb, hk⟩ := h.sep a k b rfl
      have := hent e (by rw [hb]; simp)
      show k < _
      rw [← hk]; exact this
  have hnum : ∀ (l : Log) n, numberFrom n (l ++ [r]) = numberFrom n l ++ [(n + l.length, r)] := by
    intro l
    induction l with
    | nil => intro n; simp [numberFrom]
    | cons a l ih => intro n; simp [numberFrom, ih]; omega
  rcases h' with rfl | rfl
  · refine ⟨?_, ?_, ?_⟩
    · refine List.pairwise_append.mpr ⟨h.strict, by simp, ?_⟩
      intro a ha b hb
      cases List.mem_singleton.mp hb
      exact .inl (hkey a ha)
    · intro a k b he
      have hb : b ≠ [] := by
        rintro rfl
        have := congrArg List.getLast? he
        simp at this
      obtain ⟨b', x, rfl⟩ : ∃ b' x, b = b' ++ [x] := ⟨b.dropLast, b.getLast hb, (List.dropLast_append_getLast hb).symm⟩
      rw [← List.cons_append, ← List.append_assoc] at he
      obtain ⟨h1, h2⟩ := List.append_inj' he rfl
      obtain ⟨e, b'', h3, h4⟩ := h.sep a k b' h1
      exact ⟨e, b'' ++ [x], by rw [h3]; rfl, h4⟩
    · rw [ents_append, h.ents, hnum, Nat.add_comm 1]; rfl
  · refine ⟨?_, ?_, ?_⟩
    · refine List.pairwise_append.mpr ⟨h.strict, ?_, ?_⟩
      · simp [ItemLt, Item.key, Item.isSep]
      · intro a ha b hb
        have := hkey a ha
        simp only [List.mem_cons, List.not_mem_nil, or_false] at hb
        rcases hb with rfl | rfl
        · exact .inl this
        · exact .inl this
    · intro a k b he
      rcases List.eq_nil_or_concat b with rfl | ⟨b1, x, hb1⟩
      · have := congrArg List.getLast? he
        simp at this
      · rw [List.concat_eq_append] at hb1
        subst hb1
        rw [show sq ++ [.sep (log.length + 1), .ent (log.length + 1, r)] =
          (sq ++ [.sep (log.length + 1)]) ++ [.ent (log.length + 1, r)] by simp, ← List.cons_append,
          ← List.append_assoc] at he
        obtain ⟨h1, h2⟩ := List.append_inj' he rfl
        cases h2
        rcases List.eq_nil_or_concat b1 with rfl | ⟨b2, y, hb2⟩
        · obtain ⟨_, h3⟩ := List.append_inj' h1 rfl
          cases h3
          exact ⟨_, [], rfl, rfl⟩
        · rw [List.concat_eq_append] at hb2
          subst hb2
          rw [← List.cons_append, ← List.append_assoc] at h1
          obtain ⟨h3, _⟩ := List.append_inj' h1 rfl
          obtain ⟨e, b'', h4, h5⟩ := h.sep a k b2 h3
          exact ⟨e, b'' ++ [y] ++ [.ent (log.length + 1, r)], by rw [h4]; simp, h5⟩
    · rw [ents_append, h.ents, hnum, Nat.add_comm 1]; rfl

/-! ## Examples -/

section Examples

private def rcd (t : String) : Record := ⟨⟨t, [], [], none, []⟩, none⟩
private def view : Nat → Option Node
  | 5 => some (.eventInternal [3] [6, 7])
  | 6 => some (.eventLeaf [1, 2] [.inline (rcd "a"), .inline (rcd "b")])
  | 7 => some (.eventLeaf [3] [.inline (rcd "c")])
  | _ => none

example : evScan view 20 5 (some 2) false = ([(2, rcd "b"), (3, rcd "c")], none) := by decide +kernel
example : evScan view 20 5 (some 2) true = ([(2, rcd "b"), (1, rcd "a")], none) := by decide +kernel
example : evScan view 20 5 none true = ([(3, rcd "c"), (2, rcd "b"), (1, rcd "a")], none) := by decide +kernel
example : evLookup view 20 5 3 = .ok (rcd "c") := by decide +kernel
example : evLookup view 20 5 4 = .error (.databaseCorrupted "Event at position not found") := by decide +kernel
example : (evWalk view (some 1) false).batch view 20 2 [(5, none)] =
    .ok ([(1, rcd "a"), (2, rcd "b")], [(5, some 1)]) := by decide +kernel

end Examples

end Uma.Page
