import Verif.Codec.Page

/-! Round trips, sizes and locality of the node formats. -/

namespace Uma.Codec

/-! ## What fits the field widths of the format -/

def U16 (n : Nat) : Prop := n < 2 ^ 16
def U64 (n : Nat) : Prop := n < 2 ^ 64

/-- Lengths of a record that fit their 2-byte fields. -/
structure TagsFit (tags : List String) : Prop where
  count : U16 tags.length
  each : ∀ t ∈ tags, U16 t.utf8ByteSize

structure MetaFit (m : List (String × String)) : Prop where
  count : U16 m.length
  each : ∀ e ∈ m, U16 e.1.utf8ByteSize ∧ U16 e.2.utf8ByteSize

def TrackingFits (t : Tracking) : Prop := U16 t.source.utf8ByteSize ∧ U64 t.position

/-- Values within the widths of the format. -/
def ValueFits : EventValue → Prop
  | .inline r => U16 r.event.eventType.utf8ByteSize ∧ U16 r.event.data.length ∧ TagsFit r.event.tags ∧
      MetaFit r.event.metadata ∧ ∀ t ∈ r.tracking, TrackingFits t
  | .overflow et dataLen tags root _ metaLen tracking => U16 et.utf8ByteSize ∧ U64 dataLen ∧ TagsFit tags ∧ U64 root ∧
      U64 metaLen ∧ ∀ t ∈ tracking, TrackingFits t

def AllU64 (l : List Nat) : Prop := ∀ n ∈ l, U64 n

/-- Nodes within the widths of the format, with matching numbers of keys and values or children. -/
def NodeFits (kw : Nat) : Node → Prop
  | .header h => U64 h.tsn ∧ U64 h.nextPage ∧ U64 h.freeRoot ∧ U64 h.eventsRoot ∧ U64 h.tagsRoot ∧ U64 h.nextPosition ∧
      h.schema < 2 ^ 32 ∧ U64 h.trackRoot
  | .freeLeaf keys values => U16 keys.length ∧ values.length = keys.length ∧ AllU64 keys ∧
      ∀ v ∈ values, U16 v.pageIds.length ∧ AllU64 v.pageIds ∧ U64 v.root
  | .freeInternal keys kids => U16 keys.length ∧ U16 kids.length ∧ AllU64 keys ∧ AllU64 kids
  | .eventLeaf keys values => U16 keys.length ∧ values.length = keys.length ∧ AllU64 keys ∧ ∀ v ∈ values, ValueFits v
  | .eventInternal keys kids => U16 keys.length ∧ kids.length = keys.length + 1 ∧ AllU64 keys ∧ AllU64 kids
  | .eventOverflow next _ => U64 next
  | .tagsLeaf keys values => U16 keys.length ∧ values.length = keys.length ∧ (∀ k ∈ keys, NormalizedTo kw k) ∧
      ∀ v ∈ values, U16 v.positions.length ∧ AllU64 v.positions ∧ U64 v.root
  | .tagsInternal keys kids => U16 keys.length ∧ kids.length = keys.length + 1 ∧ (∀ k ∈ keys, NormalizedTo kw k) ∧
      AllU64 kids
  | .tagLeaf positions => U16 positions.length ∧ AllU64 positions
  | .tagInternal keys kids => U16 keys.length ∧ kids.length = keys.length + 1 ∧ AllU64 keys ∧ AllU64 kids
  | .tsnLeaf ids => U16 ids.length ∧ AllU64 ids
  | .tsnInternal keys kids => U16 keys.length ∧ U16 kids.length ∧ AllU64 keys ∧ AllU64 kids
  | .trackLeaf keys values => U16 keys.length ∧ values.length = keys.length ∧ (∀ k ∈ keys, k.utf8ByteSize < 256) ∧
      AllU64 values
  | .trackInternal keys kids => U16 keys.length ∧ kids.length = keys.length + 1 ∧ (∀ k ∈ keys, k.utf8ByteSize < 256) ∧
      AllU64 kids

/-! ## Round trips -/

theorem decodes_u16 {n : Nat} (h : U16 n) : Decodes (readInt 2) (le 2 n) n := decodes_int (by simpa [U16] using h)
theorem decodes_u64 {n : Nat} (h : U64 n) : Decodes (readInt 8) (le 8 n) n := decodes_int (by simpa [U64] using h)

theorem decodes_str16 {s : String} (h : U16 s.utf8ByteSize) : Decodes decStr16 (str16 s) s :=
  (decodes_u16 h).bind (decodes_string s)

theorem decodes_str8 {s : String} (h : s.utf8ByteSize < 256) : Decodes ((readInt 1).bind readString) (str8 s) s :=
  (decodes_int (by simpa using h)).bind (decodes_string s)

theorem decodes_ints {l : List Nat} (h : AllU64 l) {n : Nat} (hn : l.length = n) : Decodes (decInts n) (ints l) l :=
  decodes_many' hn fun a ha => decodes_u64 (h a ha)

theorem decodes_tags {tags : List String} (h : TagsFit tags) : Decodes decTags (encTags tags) tags :=
  (decodes_u16 h.count).bind (decodes_many tags fun t ht => decodes_str16 (h.each t ht))

theorem Decodes.last {α β} {r : Reader α} {bs : Bytes} {a : α} (h : Decodes r bs a) (g : α → β) :
    Decodes (r.bind fun a => Reader.pure (g a)) bs (g a) := by
  have := h.bind (f := fun a => Reader.pure (g a)) (Decodes.pure (g a))
  simpa using this

theorem decodes_metadata {m : List (String × String)} (h : MetaFit m) : Decodes decMetadata (encMetadata m) m :=
  (decodes_u16 h.count).bind (decodes_many m fun e he =>
    (decodes_str16 (h.each e he).1).bind ((decodes_str16 (h.each e he).2).last fun v => (e.1, v)))

theorem decodes_tracking {t : Tracking} (h : TrackingFits t) :
    Decodes decTracking (str16 t.source ++ le 8 t.position) t :=
  (decodes_str16 h.1).bind ((decodes_u64 h.2).last fun p => (⟨t.source, p⟩ : Tracking))

theorem Decodes.optionally_some {α} {r : Reader α} {bs : Bytes} {a : α} (h : Decodes r bs a) :
    Decodes (optionally true r) bs (some a) := by
  have := h.bind (f := fun a => Reader.pure (some a)) (Decodes.pure (some a))
  simpa [optionally] using this

theorem Decodes.optionally_none {α} (r : Reader α) : Decodes (optionally false r) [] none := Decodes.pure none

theorem flagByte_lt (a b c d : Bool) : flagByte a b c d < 16 := by
  cases a <;> cases b <;> cases c <;> cases d <;> decide

theorem flagSet_flagByte (a b c d : Bool) : flagSet (flagByte a b c d) 0 = a ∧ flagSet (flagByte a b c d) 1 = b ∧
    flagSet (flagByte a b c d) 2 = c ∧ flagSet (flagByte a b c d) 3 = d := by
  cases a <;> cases b <;> cases c <;> cases d <;> decide

theorem decodes_optUuid (u : Option Uuid) : Decodes (optionally u.isSome readUuid) (encUuid u) u := by
  cases u with
  | none => exact Decodes.optionally_none _
  | some u => exact (decodes_uuid u).optionally_some

theorem decodes_optTracking {t : Option Tracking} (h : ∀ x ∈ t, TrackingFits x) :
    Decodes (optionally t.isSome decTracking) (encTracking t) t := by
  cases t with
  | none => exact Decodes.optionally_none _
  | some t => exact (decodes_tracking (h t rfl)).optionally_some

theorem decodes_value {v : EventValue} (h : ValueFits v) : Decodes decValue (encValue v) v := by
  cases v with
  | inline r =>
    obtain ⟨⟨et, data, tags, uuid, md⟩, tr⟩ := r
    obtain ⟨h1, h2, h3, h4, h5⟩ := h
    simp only at h1 h2 h3 h4 h5
    obtain ⟨f0, f1, f2, f3⟩ := flagSet_flagByte false uuid.isSome (!md.isEmpty) tr.isSome
    have hlt := flagByte_lt false uuid.isSome (!md.isEmpty) tr.isSome
    refine Decodes.bind (a := flagByte false uuid.isSome (!md.isEmpty) tr.isSome) (decodes_int (by show flagByte false uuid.isSome (!md.isEmpty) tr.isSome < _; omega)) ?_
    rw [if_neg (by have := flagByte_lt false uuid.isSome (!md.isEmpty) tr.isSome; omega)]
    refine (decodes_str16 h1).bind ?_
    rw [f0]
    simp only [Bool.false_eq_true, if_false, decInline, f1, f2, f3]
    refine (decodes_u16 h2).bind ((decodes_bytes data).bind ((decodes_tags h3).bind ((decodes_optUuid uuid).bind ?_)))
    cases md with
    | nil =>
      refine Decodes.bind (a := none) (Decodes.optionally_none _) ?_
      exact (decodes_optTracking h5).last fun t => EventValue.inline ⟨⟨et, data, tags, uuid, []⟩, t⟩
    | cons e md =>
      refine Decodes.bind (a := some (e :: md)) (decodes_metadata h4).optionally_some ?_
      exact (decodes_optTracking h5).last fun t => EventValue.inline ⟨⟨et, data, tags, uuid, e :: md⟩, t⟩
  | overflow et dataLen tags root uuid metaLen tr =>
    obtain ⟨h1, h2, h3, h4, h5, h6⟩ := h
    obtain ⟨f0, f1, f2, f3⟩ := flagSet_flagByte true uuid.isSome (decide (metaLen > 0)) tr.isSome
    refine (decodes_int (by have := flagByte_lt true uuid.isSome (decide (metaLen > 0)) tr.isSome; omega)).bind ?_
    rw [if_neg (by have := flagByte_lt true uuid.isSome (decide (metaLen > 0)) tr.isSome; omega)]
    refine (decodes_str16 h1).bind ?_
    rw [f0]
    simp only [if_true, decOverflow, f1, f2, f3]
    refine (decodes_u64 h2).bind ((decodes_tags h3).bind ((decodes_u64 h4).bind ((decodes_optUuid uuid).bind ?_)))
    by_cases hm : metaLen > 0
    · simp only [hm, decide_true, if_true]
      refine Decodes.bind (decodes_u64 h5).optionally_some ?_
      exact (decodes_optTracking h6).last fun t => EventValue.overflow et dataLen tags root uuid metaLen t
    · have h0 : metaLen = 0 := by omega
      subst h0
      simp only [gt_iff_lt, Nat.lt_irrefl, decide_false, if_false]
      refine Decodes.bind (a := none) (Decodes.optionally_none _) ?_
      exact (decodes_optTracking h6).last fun t => EventValue.overflow et dataLen tags root uuid 0 t

theorem decode_of_decodes {kw ty : Nat} {r : Reader Node} (hr : nodeReader kw ty = some r) {bs : Bytes} {n : Node}
    (h : Decodes r bs n) : decode kw ty bs = .ok n := by
  unfold decode
  rw [hr]
  have := h []
  rw [List.append_nil] at this
  simp only [this]

theorem decodes_leaf {ν} {mk : List Nat → List ν → Node} {key : Reader Nat} {value : Reader ν} {ek : Nat → Bytes}
    {ev : ν → Bytes} {keys : List Nat} {values : List ν} (hc : U16 keys.length) (hv : values.length = keys.length)
    (h1 : ∀ k ∈ keys, Decodes key (ek k) k) (h2 : ∀ v ∈ values, Decodes value (ev v) v) :
    Decodes (decLeaf mk key value) (le 2 keys.length ++ (keys.flatMap ek ++ values.flatMap ev)) (mk keys values) :=
  (decodes_u16 hc).bind ((decodes_many keys h1).bind ((decodes_many' hv h2).last fun vs => mk keys vs))

theorem decodes_implied {mk : List Nat → List Nat → Node} {key : Reader Nat} {ek : Nat → Bytes} {keys kids : List Nat}
    (hc : U16 keys.length) (hv : kids.length = keys.length + 1) (h1 : ∀ k ∈ keys, Decodes key (ek k) k)
    (h2 : AllU64 kids) :
    Decodes (decImplied mk key) (le 2 keys.length ++ (keys.flatMap ek ++ ints kids)) (mk keys kids) :=
  (decodes_u16 hc).bind ((decodes_many keys h1).bind ((decodes_ints h2 hv).last fun vs => mk keys vs))

theorem decodes_explicit {mk : List Nat → List Nat → Node} {keys kids : List Nat}
    (hc : U16 keys.length) (hv : U16 kids.length) (h1 : AllU64 keys) (h2 : AllU64 kids) :
    Decodes (decExplicit mk) (le 2 keys.length ++ (ints keys ++ (le 2 kids.length ++ ints kids))) (mk keys kids) :=
  (decodes_u16 hc).bind ((decodes_ints h1 rfl).bind ((decodes_u16 hv).bind
    ((decodes_ints h2 rfl).last fun vs => mk keys vs)))

theorem ifRoom_room {α} {n : Nat} {r : Reader α} {d : α} {bs : Bytes} {a : α} (h : Decodes r bs a) (hl : n ≤ bs.length) :
    Decodes (ifRoom n r d) bs a := by
  intro rest
  simp only [ifRoom, Reader.bind, remaining]
  rw [if_pos (by simp; omega)]
  exact h rest

theorem ifRoom_none {α} {n : Nat} {r : Reader α} {d : α} {bs : Bytes} (hl : bs.length < n) :
    ifRoom n r d bs = .ok (d, bs) := by
  simp only [ifRoom, Reader.bind, remaining]
  rw [if_neg (by omega)]
  rfl

theorem decHeader_encHeader {h : Header} (hf : U64 h.tsn ∧ U64 h.nextPage ∧ U64 h.freeRoot ∧ U64 h.eventsRoot ∧
    U64 h.tagsRoot ∧ U64 h.nextPosition ∧ h.schema < 2 ^ 32 ∧ U64 h.trackRoot) :
    decHeader (encHeader h) = .ok (h, []) := by
  obtain ⟨tsn, freeRoot, eventsRoot, tagsRoot, nextPage, nextPosition, schema, trackRoot⟩ := h
  obtain ⟨h1, h2, h3, h4, h5, h6, h7, h8⟩ := hf
  simp only at h1 h2 h3 h4 h5 h6 h7 h8
  have hs : Decodes (ifRoom 4 (readInt 4) 0) (le 4 schema) schema :=
    ifRoom_room (decodes_int (by simpa using h7)) (by simp)
  simp only [decHeader, encHeader, Reader.bind, decodes_u64 h1 _, decodes_u64 h2 _, decodes_u64 h3 _,
    decodes_u64 h4 _, decodes_u64 h5 _, decodes_u64 h6 _, hs _]
  by_cases ht : trackRoot ≠ 0
  · rw [if_pos ht]
    have hfl : Decodes (ifRoom 2 (readInt 2) 0) (le 2 1) 1 := ifRoom_room (decodes_int (by decide)) (by simp)
    have := (decodes_u64 h8).optionally_some []
    rw [List.append_nil] at this
    simp only [hfl _]
    rw [if_neg (by omega)]
    have h0 : flagSet 1 0 = true := by decide
    simp only [h0, Reader.bind, this]
    rfl
  · rw [if_neg ht]
    have h0 : trackRoot = 0 := by simpa using ht
    rw [ifRoom_none (by simp)]
    simp only
    rw [if_neg (by omega)]
    have h1 : flagSet 0 0 = false := by decide
    subst h0
    simp only [h1, optionally, Reader.pure, Reader.bind, Bool.false_eq_true, if_false, Option.getD_none]

/-- Every node within the field widths decodes from its own bytes. -/
theorem decode_encode {kw : Nat} (hk : kw ≤ 16) {n : Node} (h : NodeFits kw n) :
    decode kw (typeByte n) (encode kw n) = .ok n := by
  cases n with
  | header hd =>
    have := decHeader_encHeader h
    have hr : nodeReader kw (typeByte (.header hd)) = some (decHeader.bind fun h => Reader.pure (.header h)) := rfl
    simp only [decode, hr, encode, Reader.bind, this, Reader.pure]
  | freeLeaf keys values =>
    refine decode_of_decodes rfl (decodes_leaf h.1 h.2.1 (fun k hk => decodes_u64 (h.2.2.1 k hk)) fun v hv => ?_)
    obtain ⟨a, b, c⟩ := h.2.2.2 v hv
    exact (decodes_u16 a).bind ((decodes_ints b rfl).bind ((decodes_u64 c).last fun r => (⟨v.pageIds, r⟩ : FreeValue)))
  | freeInternal keys kids => exact decode_of_decodes rfl (decodes_explicit h.1 h.2.1 h.2.2.1 h.2.2.2)
  | eventLeaf keys values =>
    exact decode_of_decodes rfl (decodes_leaf h.1 h.2.1 (fun k hk => decodes_u64 (h.2.2.1 k hk))
      fun v hv => decodes_value (h.2.2.2 v hv))
  | eventInternal keys kids =>
    exact decode_of_decodes rfl (decodes_implied h.1 h.2.1 (fun k hk => decodes_u64 (h.2.2.1 k hk)) h.2.2.2)
  | eventOverflow next data =>
    have hb := decodes_bytes data []
    have hn := decodes_u64 h data
    rw [List.append_nil] at hb
    have hr : nodeReader kw (typeByte (.eventOverflow next data)) = some decEventOverflow := rfl
    simp only [decode, hr, encode, decEventOverflow, Reader.bind, hn, remaining, hb, Reader.pure]
  | tagsLeaf keys values =>
    refine decode_of_decodes rfl (decodes_leaf h.1 h.2.1 (fun k hk' => decodes_tagHash hk (h.2.2.1 k hk')) fun v hv => ?_)
    obtain ⟨a, b, c⟩ := h.2.2.2 v hv
    exact (decodes_u64 c).bind ((decodes_u16 a).bind ((decodes_ints b rfl).last fun r => (⟨v.root, r⟩ : TagsValue)))
  | tagsInternal keys kids =>
    exact decode_of_decodes rfl (decodes_implied h.1 h.2.1 (fun k hk' => decodes_tagHash hk (h.2.2.1 k hk')) h.2.2.2)
  | tagLeaf ps => exact decode_of_decodes rfl ((decodes_u16 h.1).bind ((decodes_ints h.2 rfl).last Node.tagLeaf))
  | tagInternal keys kids =>
    exact decode_of_decodes rfl (decodes_implied h.1 h.2.1 (fun k hk => decodes_u64 (h.2.2.1 k hk)) h.2.2.2)
  | tsnLeaf ids => exact decode_of_decodes rfl ((decodes_u16 h.1).bind ((decodes_ints h.2 rfl).last Node.tsnLeaf))
  | tsnInternal keys kids => exact decode_of_decodes rfl (decodes_explicit h.1 h.2.1 h.2.2.1 h.2.2.2)
  | trackLeaf keys values =>
    refine decode_of_decodes (r := decTrackLeaf) rfl ?_
    refine (decodes_int (n := 1) (by decide)).bind ?_
    simp only [Nat.one_ne_zero, if_false]
    exact (decodes_u16 h.1).bind ((decodes_many keys fun k hk => decodes_str8 (h.2.2.1 k hk)).bind
      ((decodes_ints h.2.2.2 h.2.1).last fun vs => Node.trackLeaf keys vs))
  | trackInternal keys kids =>
    refine decode_of_decodes (r := decTrackInternal) rfl ?_
    refine (decodes_int (n := 1) (by decide)).bind ?_
    simp only [Nat.one_ne_zero, if_false]
    exact (decodes_u16 h.1).bind ((decodes_many keys fun k hk => decodes_str8 (h.2.2.1 k hk)).bind
      ((decodes_ints h.2.2.2 h.2.1).last fun vs => Node.trackInternal keys vs))

/-! ## Sizes -/

theorem length_flatMap_sum {α} (l : List α) (f : α → Bytes) (g : α → Nat) (h : ∀ a ∈ l, (f a).length = g a) :
    (l.flatMap f).length = (l.map g).sum := by
  induction l with
  | nil => rfl
  | cons a l ih =>
    rw [List.flatMap_cons, List.length_append, h a (by simp), ih fun b hb => h b (by simp [hb])]
    simp

theorem ints_length (l : List Nat) : (ints l).length = l.length * 8 := by
  rw [ints, length_flatMap_sum l _ (fun _ => 8) (by simp), List.map_const', List.sum_replicate_nat]

theorem str16_length (s : String) : (str16 s).length = 2 + s.utf8ByteSize := by simp [str16]

theorem str8_length (s : String) : (str8 s).length = 1 + s.utf8ByteSize := by simp [str8]

theorem encTags_length (tags : List String) : (encTags tags).length = tagsSize tags := by
  rw [encTags, tagsSize, List.length_append, length_flatMap_sum tags _ _ fun t _ => str16_length t]
  simp

theorem encMetadata_length (m : List (String × String)) : (encMetadata m).length = metadataSize m := by
  rw [encMetadata, metadataSize, List.length_append,
    length_flatMap_sum m _ (fun e => 2 + e.1.utf8ByteSize + 2 + e.2.utf8ByteSize) fun e _ => by
      rw [List.length_append, str16_length, str16_length]; omega]
  simp

theorem encUuid_length (u : Option Uuid) : (encUuid u).length = if u.isSome then 16 else 0 := by
  cases u <;> simp [encUuid]

/-- Two bytes more are counted than written for tracking info. -/
def trackSlack : Option Tracking → Nat
  | none => 0
  | some _ => 2

theorem encTracking_length (t : Option Tracking) : (encTracking t).length + trackSlack t = trackingSize t := by
  cases t with
  | none => rfl
  | some t => simp only [encTracking, List.length_append, str16_length, le_length, trackingSize, trackSlack]; omega

def valueSlack : EventValue → Nat
  | .inline r => trackSlack r.tracking
  | .overflow _ _ _ _ _ _ t => trackSlack t

theorem encValue_length (v : EventValue) : (encValue v).length + valueSlack v = valueSize v := by
  cases v with
  | inline r =>
    have := encTracking_length r.tracking
    simp only [encValue, List.length_append, le_length, str16_length, encTags_length, encUuid_length, valueSize,
      valueSlack]
    by_cases hm : r.event.metadata.isEmpty
    · simp only [hm, if_true, List.length_nil]; omega
    · simp only [hm, Bool.false_eq_true, if_false, encMetadata_length]; omega
  | overflow et dataLen tags root uuid metaLen tr =>
    have := encTracking_length tr
    simp only [encValue, List.length_append, le_length, str16_length, encTags_length, encUuid_length, valueSize,
      valueSlack]
    by_cases hm : metaLen > 0
    · simp only [hm, if_true, le_length]; omega
    · simp only [hm, if_false, List.length_nil]; omega

theorem values_length (vs : List EventValue) :
    (vs.flatMap encValue).length + (vs.map valueSlack).sum = (vs.map valueSize).sum := by
  induction vs with
  | nil => rfl
  | cons v vs ih =>
    have := encValue_length v
    rw [List.flatMap_cons, List.length_append, List.map_cons, List.sum_cons, List.map_cons, List.sum_cons]
    omega

/-- Shapes for which the tracking internal size, computed from the keys, is that of the children. -/
def ShapeOk : Node → Prop
  | .trackInternal keys kids => kids.length = keys.length + 1
  | _ => True

/-- Two bytes too many are counted for each tracked event of a page. -/
def slack : Node → Nat
  | .eventLeaf _ values => (values.map valueSlack).sum
  | _ => 0

theorem tagKeys_length {kw : Nat} (hk : kw ≤ 16) (keys : List Nat) :
    (keys.flatMap fun k => (be 16 k).take kw).length = keys.length * kw := by
  rw [length_flatMap_sum keys _ (fun _ => kw) (by intro a _; simp [be_length]; omega), List.map_const',
    List.sum_replicate_nat]

/-- The size computed beforehand is the number of bytes written, plus the slack. -/
theorem encode_length {kw : Nat} (hk : kw ≤ 16) {n : Node} (h : ShapeOk n) :
    (encode kw n).length + slack n = nodeSize kw n := by
  cases n with
  | header hd =>
    simp only [encode, encHeader, slack, nodeSize, List.length_append, le_length]
    split <;> simp
  | freeLeaf keys values =>
    simp only [encode, slack, nodeSize, List.length_append, le_length, ints_length]
    rw [length_flatMap_sum values _ (fun v => 2 + v.pageIds.length * 8 + 8) fun v _ => by
      simp only [List.length_append, le_length, ints_length]; omega]
    omega
  | freeInternal keys kids =>
    simp only [encode, slack, nodeSize, List.length_append, le_length, ints_length]; omega
  | eventLeaf keys values =>
    have := values_length values
    simp only [encode, slack, nodeSize, List.length_append, le_length, ints_length]; omega
  | eventInternal keys kids =>
    simp only [encode, slack, nodeSize, List.length_append, le_length, ints_length]; omega
  | eventOverflow next data => simp only [encode, slack, nodeSize, List.length_append, le_length]; omega
  | tagsLeaf keys values =>
    simp only [encode, slack, nodeSize, List.length_append, le_length, tagKeys_length hk]
    rw [length_flatMap_sum values _ (fun v => 8 + 2 + v.positions.length * 8) fun v _ => by
      simp only [List.length_append, le_length, ints_length]; omega]
    omega
  | tagsInternal keys kids =>
    simp only [encode, slack, nodeSize, List.length_append, le_length, tagKeys_length hk, ints_length]; omega
  | tagLeaf ps => simp only [encode, slack, nodeSize, List.length_append, le_length, ints_length]; omega
  | tagInternal keys kids =>
    simp only [encode, slack, nodeSize, List.length_append, le_length, ints_length]; omega
  | tsnLeaf ids => simp only [encode, slack, nodeSize, List.length_append, le_length, ints_length]; omega
  | tsnInternal keys kids =>
    simp only [encode, slack, nodeSize, List.length_append, le_length, ints_length]; omega
  | trackLeaf keys values =>
    simp only [encode, slack, nodeSize, List.length_append, le_length, ints_length]
    rw [length_flatMap_sum keys _ _ fun k _ => str8_length k]; omega
  | trackInternal keys kids =>
    simp only [encode, slack, nodeSize, List.length_append, le_length, ints_length]
    rw [length_flatMap_sum keys _ _ fun k _ => str8_length k]
    simp only [ShapeOk] at h
    omega

/-! ## Whole pages -/

/-- A page that was written reads back as the same node. -/
theorem deserialize_serialize {kw : Nat} (hk : kw ≤ 16) {buf : Bytes} {zero : Bool} {n : Node} (hf : NodeFits kw n)
    (hb : buf.length ≤ 2 ^ 32) {page : Bytes} (h : serializePage kw buf zero n = .ok page) :
    deserializePage kw page = .ok n ∧ page.length = buf.length := by
  unfold serializePage at h
  split at h
  · cases h
  rename_i hl
  have hl : 9 ≤ buf.length := by simpa [pageHeaderSize] using hl
  unfold serializeNode at h
  split at h
  · simp at h
  rename_i hk2
  split at hk2
  · cases hk2
  split at hk2
  · cases hk2
  rename_i hlen
  simp only [Except.ok.injEq] at hk2
  subst hk2
  simp only [Except.ok.injEq] at h
  simp only [pageHeaderSize] at hlen
  constructor
  · have hfr : Framed page (typeByte n) (crc32 (encode kw n)) (encode kw n) :=
      ⟨⟨_, h.symm⟩, by cases n <;> simp [typeByte], crc32_lt _, by omega⟩
    rw [deserialize_framed hfr, if_neg (by simp)]
    exact decode_encode hk hf
  · subst h
    cases zero <;> simp [pageHeaderSize] <;> omega

/-- A node whose computed size fits the buffer can be written. -/
theorem serialize_ok {kw : Nat} (hk : kw ≤ 16) {buf : Bytes} {zero : Bool} {n : Node} (hs : ShapeOk n)
    (hkeys : keysTooLong n = false) (hsize : pageSizeOf kw n ≤ buf.length) :
    ∃ page, serializePage kw buf zero n = .ok page := by
  have := encode_length hk hs
  unfold serializePage
  rw [if_neg (by simp only [pageSizeOf] at hsize; omega)]
  unfold serializeNode
  rw [hkeys]
  simp only [Bool.false_eq_true, if_false]
  rw [if_neg (by simp only [pageSizeOf] at hsize; omega)]
  exact ⟨_, rfl⟩

/-! ## Locality -/

theorem Local.decStr16 : Local decStr16 := (Local.readInt 2).bind Local.readString
theorem Local.decTags : Local decTags := (Local.readInt 2).bind fun n => Local.readMany Local.decStr16 n
theorem Local.decMetadata : Local decMetadata := (Local.readInt 2).bind fun n => Local.readMany
  (Local.decStr16.bind fun _ => Local.decStr16.bind fun _ => Local.pure _) n
theorem Local.decTracking : Local decTracking := Local.decStr16.bind fun _ => (Local.readInt 8).bind fun _ => Local.pure _
theorem Local.optionally {α} {r : Reader α} (h : Local r) (b : Bool) : Local (optionally b r) := by
  cases b
  · exact Local.pure _
  · exact h.bind fun _ => Local.pure _

theorem Local.decValue : Local decValue := (Local.readInt 1).bind fun flags => by
  split
  · exact Local.fail _
  refine Local.decStr16.bind fun et => ?_
  split
  · exact (Local.readInt 8).bind fun _ => Local.decTags.bind fun _ => (Local.readInt 8).bind fun _ =>
      (Local.readUuid.optionally _).bind fun _ => ((Local.readInt 8).optionally _).bind fun _ =>
      (Local.decTracking.optionally _).bind fun _ => Local.pure _
  · exact (Local.readInt 2).bind fun _ => (Local.readBytes _).bind fun _ => Local.decTags.bind fun _ =>
      (Local.readUuid.optionally _).bind fun _ => (Local.decMetadata.optionally _).bind fun _ =>
      (Local.decTracking.optionally _).bind fun _ => Local.pure _

theorem Local.decInts (n : Nat) : Local (decInts n) := Local.readMany (Local.readInt 8) n

theorem Local.decLeaf {ν} {mk : List Nat → List ν → Node} {key : Reader Nat} {value : Reader ν} (hk : Local key)
    (hv : Local value) : Local (decLeaf mk key value) :=
  (Local.readInt 2).bind fun n => (Local.readMany hk n).bind fun _ => (Local.readMany hv n).bind fun _ => Local.pure _

theorem Local.decImplied {mk : List Nat → List Nat → Node} {key : Reader Nat} (hk : Local key) :
    Local (decImplied mk key) :=
  (Local.readInt 2).bind fun n => (Local.readMany hk n).bind fun _ => (Local.decInts _).bind fun _ => Local.pure _

theorem Local.decExplicit {mk : List Nat → List Nat → Node} : Local (decExplicit mk) :=
  (Local.readInt 2).bind fun n => (Local.decInts n).bind fun _ => (Local.readInt 2).bind fun _ =>
  (Local.decInts _).bind fun _ => Local.pure _

theorem Local.narrow {r : Reader Nat} (h : Local r) (m : Nat) : Local (narrow m r) := h.bind fun n => by
  split
  · exact Local.fail _
  · exact Local.pure _

theorem Local.decTrackLeaf : Local decTrackLeaf := (Local.readInt 1).bind fun ver => by
  refine Local.bind ?_ fun count => Local.bind (Local.readMany (Local.bind ?_ Local.readString) _) fun keys =>
    (Local.decInts _).bind fun values => ?_
  · split
    · exact (Local.readInt 4).narrow _
    · exact Local.readInt 2
  · split
    · exact (Local.readInt 4).narrow _
    · exact Local.readInt 1
  · split <;> exact Local.pure _

theorem Local.decTrackInternal : Local decTrackInternal := (Local.readInt 1).bind fun ver => by
  split
  · exact Local.fail _
  · exact (Local.readInt 2).bind fun _ => (Local.readMany ((Local.readInt 1).bind Local.readString) _).bind fun _ =>
      (Local.decInts _).bind fun _ => Local.pure _

theorem ite_some {α} {c : Prop} [Decidable c] {a r : α} {b : Option α} (h : (if c then some a else b) = some r) :
    (c ∧ r = a) ∨ (¬ c ∧ b = some r) := by
  by_cases hc : c
  · rw [if_pos hc] at h; exact .inl ⟨hc, (Option.some.inj h).symm⟩
  · rw [if_neg hc] at h; exact .inr ⟨hc, h⟩

/-- Every node type except headers and overflow pages (whose extent is the recorded body length) is self-delimiting. -/
theorem Local.nodeReader {kw ty : Nat} {r : Reader Node} (h : nodeReader kw ty = some r) (h1 : ty ≠ 0x31)
    (h2 : ty ≠ 0x61) : Local r := by
  unfold Codec.nodeReader at h
  rw [if_neg h1] at h
  rcases ite_some h with ⟨_, rfl⟩ | ⟨_, h⟩
  · exact Local.decLeaf (Local.readInt 8)
      ((Local.readInt 2).bind fun _ => (Local.decInts _).bind fun _ => (Local.readInt 8).bind fun _ => Local.pure _)
  rcases ite_some h with ⟨_, rfl⟩ | ⟨_, h⟩
  · exact Local.decExplicit
  rcases ite_some h with ⟨_, rfl⟩ | ⟨_, h⟩
  · exact Local.decLeaf (Local.readInt 8) Local.decValue
  rcases ite_some h with ⟨_, rfl⟩ | ⟨_, h⟩
  · exact Local.decImplied (Local.readInt 8)
  rcases ite_some h with ⟨_, rfl⟩ | ⟨_, h⟩
  · contradiction
  rcases ite_some h with ⟨_, rfl⟩ | ⟨_, h⟩
  · exact Local.decLeaf (Local.readTagHash kw)
      ((Local.readInt 8).bind fun _ => (Local.readInt 2).bind fun _ => (Local.decInts _).bind fun _ => Local.pure _)
  rcases ite_some h with ⟨_, rfl⟩ | ⟨_, h⟩
  · exact Local.decImplied (Local.readTagHash kw)
  rcases ite_some h with ⟨_, rfl⟩ | ⟨_, h⟩
  · exact (Local.readInt 2).bind fun _ => (Local.decInts _).bind fun _ => Local.pure _
  rcases ite_some h with ⟨_, rfl⟩ | ⟨_, h⟩
  · exact Local.decImplied (Local.readInt 8)
  rcases ite_some h with ⟨_, rfl⟩ | ⟨_, h⟩
  · exact (Local.readInt 2).bind fun _ => (Local.decInts _).bind fun _ => Local.pure _
  rcases ite_some h with ⟨_, rfl⟩ | ⟨_, h⟩
  · exact Local.decExplicit
  rcases ite_some h with ⟨_, rfl⟩ | ⟨_, h⟩
  · exact Local.decTrackLeaf
  rcases ite_some h with ⟨_, rfl⟩ | ⟨_, h⟩
  · exact Local.decTrackInternal
  cases h

/-! ## Failures -/

open FailsCleanly (pure bind fail)

theorem FailsCleanly.decStr16 : FailsCleanly decStr16 := (FailsCleanly.readInt 2).bind FailsCleanly.readString
theorem FailsCleanly.decTags : FailsCleanly decTags :=
  (FailsCleanly.readInt 2).bind fun n => FailsCleanly.readMany FailsCleanly.decStr16 n
theorem FailsCleanly.decMetadata : FailsCleanly decMetadata := (FailsCleanly.readInt 2).bind fun n =>
  FailsCleanly.readMany (FailsCleanly.decStr16.bind fun _ => FailsCleanly.decStr16.bind fun _ => FailsCleanly.pure _) n
theorem FailsCleanly.decTracking : FailsCleanly decTracking :=
  FailsCleanly.decStr16.bind fun _ => (FailsCleanly.readInt 8).bind fun _ => FailsCleanly.pure _
theorem FailsCleanly.optionally {α} {r : Reader α} (h : FailsCleanly r) (b : Bool) : FailsCleanly (optionally b r) := by
  cases b
  · exact FailsCleanly.pure _
  · exact h.bind fun _ => FailsCleanly.pure _

theorem FailsCleanly.decInts (n : Nat) : FailsCleanly (decInts n) := FailsCleanly.readMany (FailsCleanly.readInt 8) n

theorem FailsCleanly.decValue : FailsCleanly decValue := (FailsCleanly.readInt 1).bind fun flags => by
  split
  · exact FailsCleanly.fail _
  refine FailsCleanly.decStr16.bind fun et => ?_
  split
  · exact (FailsCleanly.readInt 8).bind fun _ => FailsCleanly.decTags.bind fun _ => (FailsCleanly.readInt 8).bind fun _ =>
      (FailsCleanly.readUuid.optionally _).bind fun _ => ((FailsCleanly.readInt 8).optionally _).bind fun _ =>
      (FailsCleanly.decTracking.optionally _).bind fun _ => FailsCleanly.pure _
  · exact (FailsCleanly.readInt 2).bind fun _ => (FailsCleanly.readBytes _).bind fun _ => FailsCleanly.decTags.bind fun _ =>
      (FailsCleanly.readUuid.optionally _).bind fun _ => (FailsCleanly.decMetadata.optionally _).bind fun _ =>
      (FailsCleanly.decTracking.optionally _).bind fun _ => FailsCleanly.pure _

theorem FailsCleanly.decLeaf {ν} {mk : List Nat → List ν → Node} {key : Reader Nat} {value : Reader ν}
    (hk : FailsCleanly key) (hv : FailsCleanly value) : FailsCleanly (decLeaf mk key value) :=
  (FailsCleanly.readInt 2).bind fun n => (FailsCleanly.readMany hk n).bind fun _ =>
    (FailsCleanly.readMany hv n).bind fun _ => FailsCleanly.pure _

theorem FailsCleanly.decImplied {mk : List Nat → List Nat → Node} {key : Reader Nat} (hk : FailsCleanly key) :
    FailsCleanly (decImplied mk key) :=
  (FailsCleanly.readInt 2).bind fun n => (FailsCleanly.readMany hk n).bind fun _ =>
    (FailsCleanly.decInts _).bind fun _ => FailsCleanly.pure _

theorem FailsCleanly.decExplicit {mk : List Nat → List Nat → Node} : FailsCleanly (decExplicit mk) :=
  (FailsCleanly.readInt 2).bind fun n => (FailsCleanly.decInts n).bind fun _ => (FailsCleanly.readInt 2).bind fun _ =>
  (FailsCleanly.decInts _).bind fun _ => FailsCleanly.pure _

theorem FailsCleanly.narrow {r : Reader Nat} (h : FailsCleanly r) (m : Nat) : FailsCleanly (narrow m r) :=
  h.bind fun n => by
    split
    · exact FailsCleanly.fail _
    · exact FailsCleanly.pure _

theorem FailsCleanly.ifRoom {α} {r : Reader α} (h : FailsCleanly r) (n : Nat) (d : α) : FailsCleanly (ifRoom n r d) :=
  FailsCleanly.remaining.bind fun k => by
    split
    · exact h
    · exact FailsCleanly.pure _

theorem FailsCleanly.decTrackLeaf : FailsCleanly decTrackLeaf := (FailsCleanly.readInt 1).bind fun ver => by
  refine FailsCleanly.bind ?_ fun count => FailsCleanly.bind
    (FailsCleanly.readMany (FailsCleanly.bind ?_ FailsCleanly.readString) _) fun keys =>
    (FailsCleanly.decInts _).bind fun values => ?_
  · split
    · exact (FailsCleanly.readInt 4).narrow _
    · exact FailsCleanly.readInt 2
  · split
    · exact (FailsCleanly.readInt 4).narrow _
    · exact FailsCleanly.readInt 1
  · split <;> exact FailsCleanly.pure _

theorem FailsCleanly.decTrackInternal : FailsCleanly decTrackInternal := (FailsCleanly.readInt 1).bind fun ver => by
  split
  · exact FailsCleanly.fail _
  · exact (FailsCleanly.readInt 2).bind fun _ =>
      (FailsCleanly.readMany ((FailsCleanly.readInt 1).bind FailsCleanly.readString) _).bind fun _ =>
      (FailsCleanly.decInts _).bind fun _ => FailsCleanly.pure _

theorem FailsCleanly.decHeader : FailsCleanly decHeader :=
  (FailsCleanly.readInt 8).bind fun _ => (FailsCleanly.readInt 8).bind fun _ => (FailsCleanly.readInt 8).bind fun _ =>
  (FailsCleanly.readInt 8).bind fun _ => (FailsCleanly.readInt 8).bind fun _ => (FailsCleanly.readInt 8).bind fun _ =>
  ((FailsCleanly.readInt 4).ifRoom _ _).bind fun _ => ((FailsCleanly.readInt 2).ifRoom _ _).bind fun _ => by
    split
    · exact FailsCleanly.fail _
    · exact ((FailsCleanly.readInt 8).optionally _).bind fun _ => FailsCleanly.pure _

theorem FailsCleanly.nodeReader {kw ty : Nat} {r : Reader Node} (h : nodeReader kw ty = some r) : FailsCleanly r := by
  unfold Codec.nodeReader at h
  rcases ite_some h with ⟨_, rfl⟩ | ⟨_, h⟩
  · exact FailsCleanly.decHeader.bind fun _ => FailsCleanly.pure _
  rcases ite_some h with ⟨_, rfl⟩ | ⟨_, h⟩
  · exact FailsCleanly.decLeaf (FailsCleanly.readInt 8)
      ((FailsCleanly.readInt 2).bind fun _ => (FailsCleanly.decInts _).bind fun _ =>
        (FailsCleanly.readInt 8).bind fun _ => FailsCleanly.pure _)
  rcases ite_some h with ⟨_, rfl⟩ | ⟨_, h⟩
  · exact FailsCleanly.decExplicit
  rcases ite_some h with ⟨_, rfl⟩ | ⟨_, h⟩
  · exact FailsCleanly.decLeaf (FailsCleanly.readInt 8) FailsCleanly.decValue
  rcases ite_some h with ⟨_, rfl⟩ | ⟨_, h⟩
  · exact FailsCleanly.decImplied (FailsCleanly.readInt 8)
  rcases ite_some h with ⟨_, rfl⟩ | ⟨_, h⟩
  · exact (FailsCleanly.readInt 8).bind fun _ => FailsCleanly.remaining.bind fun _ =>
      (FailsCleanly.readBytes _).bind fun _ => FailsCleanly.pure _
  rcases ite_some h with ⟨_, rfl⟩ | ⟨_, h⟩
  · exact FailsCleanly.decLeaf (FailsCleanly.readTagHash kw)
      ((FailsCleanly.readInt 8).bind fun _ => (FailsCleanly.readInt 2).bind fun _ =>
        (FailsCleanly.decInts _).bind fun _ => FailsCleanly.pure _)
  rcases ite_some h with ⟨_, rfl⟩ | ⟨_, h⟩
  · exact FailsCleanly.decImplied (FailsCleanly.readTagHash kw)
  rcases ite_some h with ⟨_, rfl⟩ | ⟨_, h⟩
  · exact (FailsCleanly.readInt 2).bind fun _ => (FailsCleanly.decInts _).bind fun _ => FailsCleanly.pure _
  rcases ite_some h with ⟨_, rfl⟩ | ⟨_, h⟩
  · exact FailsCleanly.decImplied (FailsCleanly.readInt 8)
  rcases ite_some h with ⟨_, rfl⟩ | ⟨_, h⟩
  · exact (FailsCleanly.readInt 2).bind fun _ => (FailsCleanly.decInts _).bind fun _ => FailsCleanly.pure _
  rcases ite_some h with ⟨_, rfl⟩ | ⟨_, h⟩
  · exact FailsCleanly.decExplicit
  rcases ite_some h with ⟨_, rfl⟩ | ⟨_, h⟩
  · exact FailsCleanly.decTrackLeaf
  rcases ite_some h with ⟨_, rfl⟩ | ⟨_, h⟩
  · exact FailsCleanly.decTrackInternal
  cases h

end Uma.Codec
