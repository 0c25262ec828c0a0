import Verif.Page.Range
import Verif.Codec.Validate

/-!
# The events tree (umadb-core/src/events_tree.rs)

Appending (185-494), overflow chains (16-166), lookup (496-543) and the iterator (545-770).
`keys.binary_search` is `ub`/`searchIdx`: positions are distinct, so it has only one possible answer.
-/

namespace Uma.Page
open Uma.Codec Uma.Spec

/-! ## Overflow chains -/

/-- The chunks of `write_overflow_chain`, events_tree.rs 25-32.  `fuel` bounds their number. -/
def chunksOf (cap : Nat) : Nat → Bytes → List Bytes
  | 0, _ => []
  | fuel + 1, d => if d = [] then [] else d.take cap :: chunksOf cap fuel (d.drop cap)

/-- Writing the chunks, last one first, events_tree.rs 44-54. -/
def writeChunks : List Bytes → Nat → W Nat
  | [], next => pure next
  | c :: cs, next => do
    let p ← newPage (.eventOverflow next c)
    writeChunks cs p

/-- `write_overflow_chain`, events_tree.rs 16-56. -/
def writeChain (data : Bytes) : W Nat := do
  let w ← getW
  let cap := w.pageSize - (pageHeaderSize + 8)
  if cap = 0 then fail (.databaseCorrupted "Page size too small to store overflow data")
  else
    let chunks := chunksOf cap data.length data
    if chunks = [] then newPage (.eventOverflow 0 []) else writeChunks chunks.reverse 0

/-- `read_overflow_chain`, events_tree.rs 58-76.  `v` is `with_page`; `fuel` bounds the number of pages. -/
def readChain (v : Nat → Option Node) : Nat → Nat → Except Err Bytes
  | fuel, p =>
    if p = 0 then .ok []
    else match fuel with
      | 0 => .error (.internal "out of fuel")
      | fuel + 1 =>
        match v p with
        | none => .error (.pageNotFound p)
        | some (.eventOverflow next data) =>
          match readChain v fuel next with
          | .error e => .error e
          | .ok rest => .ok (data ++ rest)
        | some _ => .error (.databaseCorrupted "Expected EventOverflow node")

/-- What goes into the chain of an event: metadata first, then the data, events_tree.rs 99-123. -/
def payload (r : Record) : Bytes :=
  (if r.event.metadata.isEmpty then [] else encMetadata r.event.metadata) ++ r.event.data

/-- `materialize_event_value`, events_tree.rs 125-166. -/
def materialize (v : Nat → Option Node) : EventValue → Except Err Record
  | .inline r => .ok r
  | .overflow et dataLen tags root uuid metaLen tracking =>
    match readChain v (dataLen + metaLen + 1) root with
    | .error e => .error e
    | .ok all =>
      if all.length ≠ dataLen + metaLen then .error (.databaseCorrupted "Overflow data length mismatch")
      else if metaLen > 0 then
        match decMetadata (all.take metaLen) with
        | .error e => .error e
        | .ok (md, _) => .ok ⟨⟨et, all.drop metaLen, tags, uuid, md⟩, tracking⟩
      else .ok ⟨⟨et, all.drop metaLen, tags, uuid, []⟩, tracking⟩

/-- Pages of a chain and the bytes it holds; all but the last are full. -/
inductive Chain (ps : Nat) : Nat → Multiset (Nat × Node) → Bytes → Prop where
  | nil : Chain ps 0 0 []
  | cons {p next Q data bs} : p ≠ 0 → data ≠ [] → data.length + 17 ≤ ps → (next = 0 ∨ data.length + 17 = ps) → Chain ps next Q bs →
      Chain ps p ({(p, .eventOverflow next data)} + Q) (data ++ bs)
  | empty {p} : p ≠ 0 → 17 ≤ ps → Chain ps p {(p, .eventOverflow 0 [])} []

theorem Chain.read {ps p : Nat} {Q : Multiset (Nat × Node)} {bs : Bytes} (h : Chain ps p Q bs) {v : Nat → Option Node}
    (hs : Sees v Q) : ∀ fuel, bs.length + 1 ≤ fuel → readChain v fuel p = .ok bs := by
  induction h with
  | nil => intro fuel _; unfold readChain; simp
  | @cons p next Q data bs hp hd hl _ _ ih =>
    intro fuel hf
    obtain ⟨fuel, rfl⟩ : ∃ f, fuel = f + 1 := ⟨fuel - 1, by omega⟩
    have hlen : 0 < data.length := List.length_pos_iff.mpr hd
    have hv : v p = some (.eventOverflow next data) := hs _ _ (by simp)
    have hr := ih (hs.sub (Multiset.le_add_left _ _)) fuel (by simp only [List.length_append] at hf; omega)
    unfold readChain
    rw [if_neg hp]
    simp only [hv, hr]
  | @empty p hp _ =>
    intro fuel hf
    obtain ⟨fuel, rfl⟩ : ∃ f, fuel = f + 1 := ⟨fuel - 1, by omega⟩
    have hv : v p = some (.eventOverflow 0 []) := hs _ _ (by simp)
    unfold readChain
    rw [if_neg hp]
    simp only [hv]
    unfold readChain
    simp

theorem payload_length (r : Record) : (payload r).length =
    (if r.event.metadata.isEmpty then 0 else metadataSize r.event.metadata) + r.event.data.length := by
  unfold payload
  split <;> simp [encMetadata_length]

/-- An event read back from its chain. -/
theorem materialize_overflow {ps root : Nat} {Q : Multiset (Nat × Node)} {r : Record}
    (h : Chain ps root Q (payload r)) (hm : MetaFit r.event.metadata) {v : Nat → Option Node} (hs : Sees v Q) :
    materialize v (overflowValue r root) = .ok r := by
  have hlen := payload_length r
  unfold overflowValue materialize
  simp only
  rw [h.read hs _ (by rw [hlen]; omega)]
  simp only
  rw [if_neg (by rw [hlen]; omega)]
  obtain ⟨⟨et, data, tags, uuid, md⟩, tr⟩ := r
  simp only at hlen hm ⊢
  by_cases he : md.isEmpty
  · have : md = [] := by simpa using he
    subst this
    simp [payload]
  · have hpos : 0 < metadataSize md := by unfold metadataSize; omega
    have hl := encMetadata_length md
    have := decodes_metadata hm []
    simp only [List.append_nil] at this
    simp only [payload, he, Bool.false_eq_true, if_false, if_pos hpos, List.take_left' hl, List.drop_left' hl, this]

theorem chunksOf_ne {cap : Nat} (hc : 0 < cap) : ∀ (fuel : Nat) (d : Bytes), d.length ≤ fuel →
    (chunksOf cap fuel d).flatten = d ∧ (∀ c ∈ chunksOf cap fuel d, c ≠ [] ∧ c.length ≤ cap) := by
  intro fuel
  induction fuel with
  | zero => intro d hd; simp at hd; subst hd; simp [chunksOf]
  | succ fuel ih =>
    intro d hd
    unfold chunksOf
    split
    · next h => subst h; simp
    · next h =>
      have hpos : 0 < d.length := List.length_pos_iff.mpr h
      obtain ⟨h1, h2⟩ := ih (d.drop cap) (by simp; omega)
      refine ⟨by simp [h1], ?_⟩
      intro c hcm
      rcases List.mem_cons.mp hcm with rfl | hcm
      · refine ⟨?_, by simp⟩
        intro he
        have := congrArg List.length he
        simp only [List.length_take, List.length_nil] at this; omega
      · exact h2 c hcm

/-- All chunks but the last are full. -/
theorem chunksOf_full {cap : Nat} : ∀ (fuel : Nat) (d : Bytes), ∀ c ∈ (chunksOf cap fuel d).dropLast, c.length = cap := by
  intro fuel
  induction fuel with
  | zero => intro d c hc; simp [chunksOf] at hc
  | succ fuel ih =>
    intro d c hc
    unfold chunksOf at hc
    split at hc
    · simp at hc
    · cases hr : chunksOf cap fuel (d.drop cap) with
      | nil => rw [hr] at hc; simp at hc
      | cons x l =>
        rw [hr, List.dropLast_cons_of_ne_nil (by simp)] at hc
        rcases List.mem_cons.mp hc with rfl | hc
        · have : d.drop cap ≠ [] := by
            intro e
            rw [e] at hr
            cases fuel <;> simp [chunksOf] at hr
          have := List.length_pos_iff.mpr this
          simp only [List.length_drop] at this
          simp only [List.length_take]
          omega
        · exact ih (d.drop cap) c (by rw [hr]; exact hc)

variable {w : Writer} {A : Nat → Prop} {X : Multiset Nat} {P Q : Multiset (Nat × Node)}

theorem Run.get {β} {f : Writer → W β} {R : β → Writer → Prop} (h : Run (f w) w R) : Run (Page.getW >>= f) w R :=
  .bind (.getW h)

theorem le_of_eq_add {P Q : Multiset (Nat × Node)} (R : Multiset (Nat × Node)) (h : Q = R + P) : P ≤ Q :=
  h ▸ Multiset.le_add_left _ _

theorem writeChunks_spec {ps : Nat} (cs : List Bytes) : ∀ (w : Writer) (next : Nat) (C : Multiset (Nat × Node)) (bs : Bytes),
    (∀ c ∈ cs, c ≠ [] ∧ c.length + 17 ≤ ps) → (next = 0 ∨ ∀ c ∈ cs.head?, c.length + 17 = ps) →
    (∀ c ∈ cs.tail, c.length + 17 = ps) → Chain ps next C bs → Own w A X (C + Q) →
    Run (writeChunks cs next) w fun root w' => ∃ C', Chain ps root C' (cs.reverse.flatten ++ bs) ∧
      Own w' A X (C' + Q) ∧ Keep Q w w' := by
  induction cs with
  | nil => intro w next C bs _ _ _ h hw; exact .pure ⟨C, by simpa using h, hw, .refl _ _⟩
  | cons c cs ih =>
    intro w next C bs hc hh ht h hw
    unfold writeChunks
    refine (newPage_spec (.eventOverflow next c) hw).andThen fun p w1 ⟨h1, k1, _⟩ => ?_
    have hp : p ≠ 0 := by have := (h1.lt (p := p) (by simp)).1; omega
    obtain ⟨c1, c2⟩ := hc c (by simp)
    refine (ih w1 p _ (c ++ bs) (fun c hcm => hc c (by simp [hcm]))
      (.inr fun x hx => ht x (List.mem_of_mem_head? hx)) (fun x hx => ht x (List.mem_of_mem_tail hx))
      (.cons hp c1 c2 (hh.imp id fun h => h c rfl) h)
      (h1.congr (by abel))).mono ?_
    rintro root w2 ⟨C', h3, h4, h5⟩
    exact ⟨C', by simpa using h3, h4, (k1.sub (Multiset.le_add_left _ _)).trans h5⟩

theorem writeChain_spec (data : Bytes) (hps : 18 ≤ w.pageSize) (hw : Own w A X Q) :
    Run (writeChain data) w fun root w' => ∃ C, Chain w.pageSize root C data ∧ Own w' A X (C + Q) ∧ Keep Q w w' := by
  unfold writeChain
  refine .get ?_
  have hh : pageHeaderSize = 9 := rfl
  rw [if_neg (by omega), hh]
  obtain ⟨hflat, hcs⟩ := chunksOf_ne (cap := w.pageSize - (9 + 8)) (by omega) data.length data (Nat.le_refl _)
  simp only
  split
  · next he =>
    rw [he] at hflat
    simp at hflat
    subst hflat
    refine (newPage_spec (.eventOverflow 0 []) hw).mono ?_
    rintro p w1 ⟨h1, k1, _⟩
    have hp : p ≠ 0 := by have := (h1.lt (p := p) (by simp)).1; omega
    exact ⟨_, .empty hp (by omega), h1, k1⟩
  · refine (writeChunks_spec (ps := w.pageSize) (chunksOf (w.pageSize - (9 + 8)) data.length data).reverse w 0 0 []
      (Q := Q) ?_ (.inl rfl) ?_ .nil (hw.congr (by simp))).mono ?_
    · intro c hc
      obtain ⟨h1, h2⟩ := hcs c (by simpa using hc)
      exact ⟨h1, by omega⟩
    · intro c hc
      rw [List.tail_reverse, List.mem_reverse] at hc
      have := chunksOf_full _ _ c hc
      omega
    · rintro root w' ⟨C, h1, h2, h3⟩
      exact ⟨C, by simpa [hflat] using h1, h2, h3⟩

/-! ## Appending -/

/-- The copy of the tree code in events_tree.rs 196-230 and 327-487. -/
def evOps : Ops Nat where
  inner := .eventInternal
  un | .eventInternal keys kids => some (keys, kids)
     | _ => none
  isLeaf | .eventLeaf .. => true
         | _ => false
  rightmost := true
  always := true
  minKeys := 3
  splitPos k := k - 2

/-- `child_ids.last()`. -/
def pickLast {κ : Type} (_ : List κ) (kids : List Nat) : Nat := kids.length - 1

/-- The value stored in the leaf and by how much it grows, events_tree.rs 256-285. -/
def storeValue : (EventValue × Nat) × Option (EventValue × Nat) → W (EventValue × Nat)
  | ((.inline r, _), some (.overflow et dl tags _ uuid _ tr, diff)) => do
    let root ← writeChain (payload r)
    pure (.overflow et dl tags root uuid (if r.event.metadata.isEmpty then 0 else metadataSize r.event.metadata) tr, diff)
  | ((v, diff), none) => pure (v, diff)
  | _ => fail (.internal "Shouldn't get here when matching event_values_and_size_diffs")

/-- events_tree.rs 293-309. -/
def pushEvent (pos : Nat) (v : EventValue) : Node → Except Err (Unit × Node)
  | .eventLeaf keys values => .ok ((), .eventLeaf (keys ++ [pos]) (values ++ [v]))
  | _ => .error (.databaseCorrupted "Expected EventLeaf node")

/-- Pushing onto the leaf or starting a new one, events_tree.rs 287-358. -/
def placeEvent (d size pos : Nat) (v : EventValue) (diff : Nat) : W (Option (Nat × Nat)) := do
  let w ← getW
  if size + diff ≤ w.pageSize then do
    modDirty d (pushEvent pos v)
    pure none
  else do
    let c ← newPage (.eventLeaf [pos] [v])
    pure (some (pos, c))

/-- `event_tree_append_event_value`, events_tree.rs 185-494. -/
def evAppend (v : (EventValue × Nat) × Option (EventValue × Nat)) (pos : Nat) : W Unit := do
  let w ← getW
  let leaf ← descend evOps pickLast w.nextPage w.eventsRoot []
  let d ← getDirty leaf.1
  let n ← getPage d
  let sv ← storeValue v
  let s ← placeEvent d (pageSizeOf w.kw n) pos sv.1 sv.2
  let up ← walkUp evOps leaf.2 (replInfo leaf.1 d) s
  let root ← fixRoot evOps w.eventsRoot up.1 up.2
  modW fun w => { w with eventsRoot := root }

/-- One recorded event: position, stored value, the event, and the pages of its chain. -/
structure EvEnt where
  pos : Nat
  val : EventValue
  rcd : Record
  pg : Multiset (Nat × Node)

structure EvOk (ps : Nat) (e : EvEnt) : Prop where
  valid : ∃ v, validateEvent ps e.rcd = .ok v
  stored : (e.val = .inline e.rcd ∧ e.pg = 0 ∧ 19 + valueSize (.inline e.rcd) ≤ ps) ∨
    (∃ root, e.val = overflowValue e.rcd root ∧ Chain ps root e.pg (payload e.rcd) ∧
      19 + valueSize (overflowStub e.rcd) ≤ ps)

def evNode (es : List EvEnt) : Node := .eventLeaf (es.map (·.pos)) (es.map (·.val))

def epg (es : List EvEnt) : Multiset (Nat × Node) := (es.map (·.pg)).sum

@[simp] theorem epg_nil : epg [] = 0 := rfl
@[simp] theorem epg_cons (e : EvEnt) (es : List EvEnt) : epg (e :: es) = e.pg + epg es := by simp [epg]
@[simp] theorem epg_append (a b : List EvEnt) : epg (a ++ b) = epg a + epg b := by simp [epg]

/-- A leaf with its events. -/
def evKid (id : Nat) (es : List EvEnt) : Kid Nat (Nat × Record) where
  id := id
  pg := {(id, evNode es)} + epg es
  sq := (es.map fun e => (e.pos, e.rcd)).map .ent

def EvLeaf (ps : Nat) (k : Kid Nat (Nat × Record)) : Prop :=
  ∃ es, k = evKid k.id es ∧ (∀ e ∈ es, EvOk ps e) ∧ pageSizeOf 0 (evNode es) ≤ ps

theorem evInner_size (kw : Nat) (keys kids : List Nat) (h : kids.length = keys.length + 1) :
    pageSizeOf kw (.eventInternal keys kids) = 19 + 16 * keys.length := by
  simp [pageSizeOf, pageHeaderSize, nodeSize, h]; omega

/-- The events tree. -/
def evLayout (kw ps : Nat) (hps : 1024 ≤ ps) : Layout Nat (Nat × Record) where
  ops := evOps
  kw := kw
  ps := ps
  Leaf := EvLeaf ps
  kfit _ := True
  fit keys := 1 ≤ keys.length ∧ 19 + 16 * keys.length ≤ ps
  un_inner _ _ := rfl
  inner_leaf _ _ := rfl
  leaf_page k h := by
    obtain ⟨es, e, _, _⟩ := h
    exact ⟨evNode es, epg es, by rw [e]; rfl, rfl⟩
  fit_kfit _ _ _ _ := trivial
  fit_one k _ := by simp; omega
  fit_over _ keys kids hl hf := by
    show pageSizeOf kw (.eventInternal keys kids) ≤ ps
    rw [evInner_size _ _ _ hl]; exact hf.2
  fit_ins a b k kids hl _ _ hs := by
    have hs : pageSizeOf kw (.eventInternal (a ++ k :: b) kids) ≤ ps := hs
    rw [evInner_size _ _ _ hl] at hs
    exact ⟨by simp; omega, hs⟩
  fit_split a b k kids hl hf _ hs := by
    have hs : ps < pageSizeOf kw (.eventInternal (a ++ k :: b) kids) := hs
    rw [evInner_size _ _ _ hl] at hs
    simp only [List.length_append, List.length_cons] at hf hs
    show 3 ≤ (a ++ k :: b).length ∧ (a ++ k :: b).length - 2 < (a ++ k :: b).length ∧
      (1 ≤ ((a ++ k :: b).take ((a ++ k :: b).length - 2)).length ∧
        19 + 16 * ((a ++ k :: b).take ((a ++ k :: b).length - 2)).length ≤ ps) ∧
      (1 ≤ ((a ++ k :: b).drop ((a ++ k :: b).length - 2 + 1)).length ∧
        19 + 16 * ((a ++ k :: b).drop ((a ++ k :: b).length - 2 + 1)).length ≤ ps)
    simp only [List.length_take, List.length_drop, List.length_append, List.length_cons]
    omega

theorem pageSize_evNode (kw : Nat) (es : List EvEnt) : pageSizeOf kw (evNode es) = pageSizeOf 0 (evNode es) := rfl

theorem evNode_push (es : List EvEnt) (e : EvEnt) :
    pushEvent e.pos e.val (evNode es) = .ok ((), evNode (es ++ [e])) := by simp [evNode, pushEvent]

theorem evNode_push_size (es : List EvEnt) (e : EvEnt) :
    pageSizeOf 0 (evNode (es ++ [e])) = pageSizeOf 0 (evNode es) + (8 + valueSize e.val) := by
  simp [evNode, pageSizeOf, pageHeaderSize, nodeSize]; omega

theorem Own.setRoots (h : Own w A X P) (e t k : Nat) :
    Own { w with eventsRoot := e, tagsRoot := t, trackRoot := k } A X P :=
  ⟨h.1, h.2, h.3, h.4, h.5, h.6, h.7, h.8, h.9, h.10⟩

/-- `storeValue` writes what `EvOk` describes. -/
theorem storeValue_spec {ps : Nat} (hps : w.pageSize = ps) (h1 : 1024 ≤ ps) (pos : Nat) {r : Record}
    {v : (EventValue × Nat) × Option (EventValue × Nat)} (hv : validateEvent ps r = .ok v) (hw : Own w A X Q) :
    Run (storeValue v) w fun sv w' => ∃ e : EvEnt, e.pos = pos ∧ e.rcd = r ∧ e.val = sv.1 ∧ sv.2 = 8 + valueSize e.val ∧
      19 + valueSize e.val ≤ ps ∧ EvOk ps e ∧ Own w' A X (e.pg + Q) ∧ Keep Q w w' := by
  have hv0 := hv
  rw [validateEvent_cases] at hv
  split at hv
  · cases hv
  split at hv
  · cases hv
  split at hv
  · next hs =>
    cases hv
    refine .pure ⟨⟨pos, .inline r, r, 0⟩, rfl, rfl, rfl, rfl, by simp only; omega, ⟨⟨_, hv0⟩, .inl ⟨rfl, rfl, by simp only; omega⟩⟩,
      hw.congr (by simp), .refl _ _⟩
  split at hv
  · next hs =>
    cases hv
    unfold overflowStub storeValue
    simp only
    refine (writeChain_spec (payload r) (by omega) hw).andThen ?_
    rintro root w1 ⟨C, hC, h2, k2⟩
    rw [hps] at hC
    have he := overflow_size r root
    refine .pure ⟨⟨pos, overflowValue r root, r, C⟩, rfl, rfl, rfl, ?_, ?_, ⟨⟨_, hv0⟩, .inr ⟨root, rfl, hC, ?_⟩⟩, h2, k2⟩
    · show 8 + valueSize (overflowStub r) = _; rw [← he]
    · show 19 + valueSize (overflowValue r root) ≤ ps; rw [he]; omega
    · show 19 + valueSize (overflowStub r) ≤ ps; omega
  · cases hv

theorem pickLast_ok {κ : Type} : PickOk (pickLast (κ := κ)) := by
  intro keys kids h; unfold pickLast; omega

theorem pickLast_right {κ E : Type} {f : Fr κ E} (h : Picked pickLast f) : f.R = [] := by
  obtain ⟨kids, h1, h2⟩ := h
  unfold pickLast at h2
  simp only [keysOf, List.length_append, List.length_map] at h1
  exact List.eq_nil_of_length_eq_zero (by omega)

theorem zr_rights {κ E : Type} {fs : List (Fr κ E)} (h : ∀ f ∈ fs, f.R = []) : zr fs = [] := by
  induction fs with
  | nil => rfl
  | cons f fs ih => simp [zr, h f (by simp), ih fun g hg => h g (by simp [hg])]

theorem PromoOk.none {κ E : Type} {Y : Layout κ E} : PromoOk Y Option.none :=
  ⟨fun _ hx => (by cases hx), fun _ hx => (by cases hx)⟩

theorem evAppend_spec {kw ps : Nat} {hps : 1024 ≤ ps} {K : Kid Nat (Nat × Record)} (hK : Tr (evLayout kw ps hps) K)
    (hroot : w.eventsRoot = K.id) (hkw : w.kw = kw) (hpz : w.pageSize = ps) {r : Record} (pos : Nat)
    {v : (EventValue × Nat) × Option (EventValue × Nat)} (hv : validateEvent ps r = .ok v) (hw : Own w A X (K.pg + Q)) :
    Run (evAppend v pos) w fun _ w' => ∃ K', Tr (evLayout kw ps hps) K' ∧ w'.eventsRoot = K'.id ∧
      (K'.sq = K.sq ++ [.ent (pos, r)] ∨ K'.sq = K.sq ++ [.sep pos, .ent (pos, r)]) ∧
      Own w' A X (K'.pg + Q) ∧ Keep Q w { w' with eventsRoot := w.eventsRoot } ∧ (Even K → Even K') := by
  unfold evAppend
  refine .get ?_
  have hcard : K.pg.card ≤ w.nextPage := by
    have := hw.card_lt; simp only [Multiset.card_add] at this; omega
  rw [hroot]
  refine (descend_spec pickLast_ok hK w.nextPage [] w Q hcard hw).andThen ?_
  rintro leaf w1 ⟨fs, k, hf, rfl, h1, k1, hl1, hfl⟩
  simp only [List.append_nil]
  obtain ⟨es, hk, hes, hsz⟩ := hf.leaf
  have hR : ∀ f ∈ fs, f.R = [] := fun f hf' => pickLast_right (hf.picked f hf')
  have hKpg : K.pg = k.pg + fpg evOps fs k.id := by rw [← hf.eq]; exact plug_pg _ _ _
  have hKsq : K.sq = zl fs ++ k.sq := by
    rw [← hf.eq]; show (plug evOps fs k).sq = _; rw [plug_sq, zr_rights hR, List.append_nil]
  have hKid : K.id = rootOf fs k.id := by rw [← hf.eq]; exact plug_id _ _ _
  have hkpg : k.pg = {(k.id, evNode es)} + epg es := by rw [hk]; rfl
  have hksq : k.sq = (es.map fun e => (e.pos, e.rcd)).map .ent := by rw [hk]; rfl
  rw [hKpg, hkpg] at h1
  have h1 : Own w1 A X ({(k.id, evNode es)} + (epg es + fpg evOps fs k.id + Q)) := h1.congr (by abel)
  refine (getDirty_spec h1 hl1).andThen ?_
  rintro d w2 ⟨h2, k2, hd2⟩
  refine (getPage_spec h2 (p := d) (n := evNode es) (by simp)).andThen ?_
  rintro n w3 ⟨rfl, h3, k3, _⟩
  have hd3 : IsDirty w3 d := k3.dirty d (by simp) hd2
  have hps3 : w3.pageSize = ps := by rw [k3.step.pageSize, k2.step.pageSize, k1.step.pageSize, hpz]
  refine (storeValue_spec hps3 hps pos hv h3).andThen ?_
  rintro ⟨val, diff⟩ w4 ⟨e, rfl, rfl, rfl, hdiff, hval, heok, h4, k4⟩
  simp only at hdiff ⊢
  have hd4 : IsDirty w4 d := k4.dirty d (by simp) hd3
  -- the leaf and what is promoted
  have hfid : ∀ f ∈ fs, f.id ∈ ids (fpg evOps fs k.id) := by
    intro f hf'
    have : ∀ (fs : List (Fr Nat (Nat × Record))) c, f ∈ fs → f.id ∈ ids (fpg evOps fs c) := by
      intro fs
      induction fs with
      | nil => intro c h; cases h
      | cons g fs ih =>
        intro c h
        simp only [fpg, ids_add, ids_singleton, Multiset.mem_add, Multiset.mem_singleton]
        rcases List.mem_cons.mp h with rfl | h
        · exact .inl (.inl rfl)
        · exact .inr (ih _ h)
    exact this fs k.id hf'
  have hw4 : w4.pageSize = ps := by rw [k4.step.pageSize, hps3]
  have hkw4 : w4.kw = kw := by rw [k4.step.kw, k3.step.kw, k2.step.kw, k1.step.kw, hkw]
  have hload4 : ∀ f ∈ fs, Loaded w4 f.id := by
    intro f hf'
    have hm := hfid f hf'
    exact k4.loaded _ (by simp [hm]) (k3.loaded _ (by simp [hm]) (k2.loaded _ (by simp [hm]) (hfl f hf')))
  refine Run.andThen (Q := fun s w5 => ∃ (t1 : Kid Nat (Nat × Record)) (p : Promo Nat (Nat × Record)),
      s = p.ref ∧ t1.id = d ∧ Tr (evLayout kw ps hps) t1 ∧ PromoOk (evLayout kw ps hps) p ∧
      (t1.sq ++ rsq p.rights = k.sq ++ [.ent (e.pos, e.rcd)] ∨ t1.sq ++ rsq p.rights = k.sq ++ [.sep e.pos, .ent (e.pos, e.rcd)]) ∧
      Own w5 A X (t1.pg + rpg p.rights + fpg evOps fs k.id + Q) ∧ Keep (fpg evOps fs k.id + Q) w4 w5 ∧
      t1.dep = {0} ∧ ∀ x ∈ p.rights, x.2.dep = {0}) ?_ ?_
  · unfold placeEvent
    refine .get ?_
    rw [hw4]
    split
    · next hfit =>
      rw [pageSize_evNode, hdiff, ← evNode_push_size] at hfit
      have h4' : Own w4 A X ({(d, evNode es)} + (e.pg + (epg es + fpg evOps fs k.id + Q))) := h4.congr (by abel)
      refine (modDirty_spec h4' hd4 (evNode_push es e)).andThen ?_
      rintro _ w5 ⟨-, h5, k5, _⟩
      refine .pure ⟨evKid d (es ++ [e]), none, rfl, rfl, .leaf _ ⟨es ++ [e], rfl, ?_, hfit⟩,
        .none, .inl ?_, h5.congr ?_, k5.sub ?_, rfl, by simp [Promo.rights]⟩
      · intro x hx
        rcases List.mem_append.mp hx with hx | hx
        · exact hes x hx
        · cases List.mem_singleton.mp hx; exact heok
      · simp [Promo.rights, evKid, hksq]
      · simp only [Promo.rights, rpg_nil, evKid, epg_append, epg_cons, epg_nil, add_zero]; abel
      · exact le_of_eq_add (e.pg + epg es) (by abel)
    · refine (newPage_spec (evNode [e]) h4).andThen ?_
      rintro c w5 ⟨h5, k5, _⟩
      have hsz1 : pageSizeOf 0 (evNode [e]) ≤ ps := by
        have := evNode_push_size [] e
        simp only [List.nil_append] at this
        rw [this]; simp [evNode, pageSizeOf, nodeSize, pageHeaderSize]; omega
      refine .pure ⟨evKid d es, some (e.pos, evKid c [e]), rfl, rfl, .leaf _ ⟨es, rfl, hes, hsz⟩, ⟨?_, ?_⟩, .inr ?_, h5.congr ?_, k5.sub ?_,
        rfl, by simp [Promo.rights, evKid]⟩
      · intro x hx
        cases List.mem_singleton.mp hx
        exact .leaf _ ⟨[e], rfl, by intro x hx; cases List.mem_singleton.mp hx; exact heok, hsz1⟩
      · intro x _; trivial
      · simp [Promo.rights, evKid, hksq]
      · simp only [Promo.rights, rpg_nil, rpg_cons, evKid, epg_cons, epg_nil, add_zero]; abel
      · exact le_of_eq_add (e.pg + {(d, evNode es)} + epg es) (by abel)
  · rintro s w5 ⟨t1, p, rfl, rfl, ht1, hp, hsq, h5, k5, e1, e2⟩
    refine (walkUp_spec (Y := evLayout kw ps hps) fs w5 Q k.id t1 p hf.frames (fun f hf' _ => hR f hf') ht1 hp
      (by rw [k5.step.kw, hkw4]; rfl) (by rw [k5.step.pageSize, hw4]; rfl) h5
      (fun f hf' => k5.loaded _ (by simp [hfid f hf']) (hload4 f hf'))).andThen ?_
    rintro up w6 ⟨T, S, hT, hS, rfl, hTS, h6, k6, -, hd⟩
    simp only
    rw [hKid]
    refine (fixRoot_spec (Y := evLayout kw ps hps) hT hS (rootOf fs k.id) h6).andThen ?_
    rintro root w7 ⟨U, hU, rfl, hUsq, h7, k7, hd7⟩
    refine .modW ⟨U, hU, rfl, ?_, h7.setRoots _ _ _, ?_, fun he => even_up (hf.eq.symm ▸ he) (by rw [hk]; rfl) e1 e2 hd hd7⟩
    · rw [hUsq, hTS, hKsq, zr_rights hR, List.append_nil]
      rcases hsq with hsq | hsq
      · left; rw [List.append_assoc, hsq, List.append_assoc]
      · right; rw [List.append_assoc, hsq, List.append_assoc]
    · have kk : Keep Q w w7 := by
        refine (k1.sub (Multiset.le_add_left _ _)).trans ((k2.sub (Multiset.le_add_left _ _)).trans ((k3.sub ?_).trans
          ((k4.sub ?_).trans ((k5.sub (Multiset.le_add_left _ _)).trans ((k6.sub (Multiset.le_add_left _ _)).trans (k7.sub (Multiset.le_add_left _ _)))))))
        · rw [← add_assoc]; exact Multiset.le_add_left _ _
        · rw [← add_assoc]; exact Multiset.le_add_left _ _
      exact ⟨⟨⟨kk.step.1, kk.step.2, kk.step.3, kk.step.4, kk.step.5, (hroot.trans hKid).symm, kk.step.7, kk.step.8, kk.step.9, kk.step.10,
        kk.step.11⟩, kk.loaded, kk.dirty, kk.freed⟩, kk.tight⟩

end Uma.Page
