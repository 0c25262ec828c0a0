import Verif.Net.Wire

/-!
# What is written is read back
-/

namespace Uma.Net

open Uma.Codec (Bytes strBytes bytesStr bytesStr_strBytes)

theorem varint_small {n : Nat} (h : n < 128) : varint n = [UInt8.ofNat n] := by rw [varint]; simp [h]

theorem varint_big {n : Nat} (h : ¬ n < 128) : varint n = UInt8.ofNat (n % 128 + 128) :: varint (n / 128) := by
  rw [varint]; simp [h]

theorem varint_ne_nil (n : Nat) : varint n ≠ [] := by
  by_cases h : n < 128
  · rw [varint_small h]; simp
  · rw [varint_big h]; simp

theorem varint_pos (n : Nat) : 0 < (varint n).length := List.length_pos_iff.mpr (varint_ne_nil n)

theorem readVarint_varint (k : Nat) : ∀ n, n < 2 * 128 ^ k → ∀ rest, readVarint (k + 1) (varint n ++ rest) = some (n, rest) := by
  induction k with
  | zero =>
    intro n hn rest
    have hn : n < 2 := by omega
    rw [varint_small (by omega)]
    have : (UInt8.ofNat n).toNat = n := by simp [UInt8.toNat_ofNat']; omega
    simp only [List.cons_append, List.nil_append, readVarint, this]
    rw [if_pos (by omega), if_neg (by omega)]
  | succ k ih =>
    intro n hn rest
    by_cases h : n < 128
    · rw [varint_small h]
      have : (UInt8.ofNat n).toNat = n := by simp [UInt8.toNat_ofNat']; omega
      simp only [List.cons_append, List.nil_append, readVarint, this]
      rw [if_pos h, if_neg (by omega)]
    · rw [varint_big h]
      have h1 : (UInt8.ofNat (n % 128 + 128)).toNat = n % 128 + 128 := by simp [UInt8.toNat_ofNat']; omega
      have h2 : n / 128 < 2 * 128 ^ k := by
        rw [Nat.pow_succ] at hn; omega
      simp only [List.cons_append]
      rw [readVarint, h1, if_neg (by omega), ih _ h2]
      simp only [Option.some.injEq, Prod.mk.injEq, and_true]
      omega

theorem readVarint_u64 {n : Nat} (h : n < 2 ^ 64) (rest : Bytes) : readVarint 10 (varint n ++ rest) = some (n, rest) :=
  readVarint_varint 9 n (by have : 2 * 128 ^ 9 = 2 ^ 64 := by decide
                            omega) rest

/-- A field that prost can write: number below 2^29, contents below 2^64. -/
def FieldOk (f : Field) : Prop :=
  1 ≤ f.1 ∧ f.1 < 2 ^ 29 ∧ match f.2 with
    | .num n => n < 2 ^ 64
    | .len bs => bs.length < 2 ^ 64

theorem parseField_render {f : Field} (h : FieldOk f) (rest : Bytes) : parseField (renderField f ++ rest) = some (f, rest) := by
  obtain ⟨k, v⟩ := f
  obtain ⟨h1, h2, h3⟩ := h
  simp only at h1 h2
  cases v with
  | num n =>
    simp only [renderField, parseField, List.append_assoc]
    rw [readVarint_u64 (by omega)]
    simp only
    rw [if_neg (by omega), if_pos (by omega), readVarint_u64 h3]
    simp only [Option.some.injEq, Prod.mk.injEq, and_true]
    omega
  | len bs =>
    simp only [renderField, parseField, List.append_assoc]
    rw [readVarint_u64 (by omega)]
    simp only
    rw [if_neg (by omega), if_neg (by omega), if_pos (by omega), readVarint_u64 h3]
    simp only
    rw [if_neg (by simp)]
    have : (8 * k + 2) / 8 = k := by omega
    simp [this]

theorem renderField_length_pos (f : Field) : 0 < (renderField f).length := by
  obtain ⟨k, v⟩ := f
  have := varint_pos (8 * k)
  have := varint_pos (8 * k + 2)
  cases v <;> simp only [renderField, List.length_append] <;> omega

theorem parseN_render (fs : List Field) (h : ∀ f ∈ fs, FieldOk f) : ∀ n, (render fs).length ≤ n → parseN n (render fs) = some fs := by
  induction fs with
  | nil => intro n _; cases n <;> rfl
  | cons f fs ih =>
    intro n hn
    have hp := renderField_length_pos f
    have hr : render (f :: fs) = renderField f ++ render fs := by simp [render]
    rw [hr, List.length_append] at hn
    rw [hr]
    cases hx : renderField f with
    | nil => rw [hx] at hp; simp at hp
    | cons b bs =>
      rw [hx, List.length_cons] at hn
      cases n with
      | zero => omega
      | succ n =>
        have hpf := parseField_render (h f (by simp)) (render fs)
        rw [hx, List.cons_append] at hpf
        rw [List.cons_append, parseN, hpf]
        simp only
        rw [ih (fun f hf => h f (by simp [hf])) n (by omega)]
        rfl

theorem parse_render {fs : List Field} (h : ∀ f ∈ fs, FieldOk f) : parse (render fs) = some fs :=
  parseN_render fs h _ (Nat.le_refl _)

theorem render_mem_length {fs : List Field} {f : Field} (h : f ∈ fs) : (renderField f).length ≤ (render fs).length := by
  induction fs with
  | nil => simp at h
  | cons g fs ih =>
    simp only [render, List.flatMap_cons, List.length_append]
    rcases List.mem_cons.mp h with rfl | h
    · omega
    · have := ih h
      simp only [render] at this
      omega

theorem len_lt_render {fs : List Field} {k : Nat} {bs : Bytes} (h : (k, Wv.len bs) ∈ fs) : bs.length < (render fs).length := by
  have h1 := render_mem_length h
  have := varint_pos (8 * k + 2)
  simp only [renderField, List.length_append] at h1
  omega

/-- Fields whose numbers are as they should be fit when the whole message does. -/
theorem fieldsOk {fs : List Field} (hl : (render fs).length < 2 ^ 64)
    (h : ∀ f ∈ fs, 1 ≤ f.1 ∧ f.1 < 2 ^ 29 ∧ ∀ n, f.2 = .num n → n < 2 ^ 64) : ∀ f ∈ fs, FieldOk f := by
  intro f hf
  obtain ⟨h1, h2, h3⟩ := h f hf
  obtain ⟨k, v⟩ := f
  refine ⟨h1, h2, ?_⟩
  cases v with
  | num n => exact h3 n rfl
  | len bs => have := len_lt_render hf; simp only; omega

theorem mergeAll_append {M : Type} {merge : M → Field → Option M} (a b : List Field) (m : M) :
    mergeAll merge m (a ++ b) = (mergeAll merge m a).bind fun m => mergeAll merge m b := by
  induction a generalizing m with
  | nil => rfl
  | cons f fs ih =>
    simp only [List.cons_append, mergeAll]
    cases merge m f with
    | none => rfl
    | some m => exact ih m

/-- A repeated field. -/
theorem mergeAll_rep {M α : Type} {merge : M → Field → Option M} (g : α → Field) (add : M → List α → M)
    (h0 : ∀ m, add m [] = m) (h1 : ∀ m x xs, add (add m [x]) xs = add m (x :: xs)) :
    ∀ (xs : List α) (_ : ∀ m, ∀ x ∈ xs, merge m (g x) = some (add m [x])) (m : M),
      mergeAll merge m (xs.map g) = some (add m xs) := by
  intro xs
  induction xs with
  | nil => intro _ m; simp [mergeAll, h0]
  | cons x xs ih =>
    intro hm m
    simp only [List.map_cons, mergeAll, hm m x (by simp), Option.bind_some]
    rw [ih (fun m y hy => hm m y (by simp [hy])), h1]

theorem mergeAll_one {M : Type} {merge : M → Field → Option M} (m : M) (f : Field) : mergeAll merge m [f] = merge m f := by
  simp only [mergeAll]; cases merge m f <;> rfl

theorem into_render {M : Type} {merge : M → Field → Option M} {fs : List Field} (h : ∀ f ∈ fs, FieldOk f) (m : M) :
    into merge m (render fs) = mergeAll merge m fs := by
  simp only [into, parse_render h, Option.bind_some]

theorem mergeAll_str {M : Type} {merge : M → Field → Option M} {m m' : M} {k : Nat} {s : String}
    (h0 : s = "" → m = m') (h1 : merge m (k, .len (strBytes s)) = some m') : mergeAll merge m (strField k s) = some m' := by
  simp only [strField]
  split
  · next h => simp [mergeAll, h0 h]
  · rw [mergeAll_one, h1]

theorem mergeAll_num {M : Type} {merge : M → Field → Option M} {m m' : M} {k n : Nat}
    (h0 : n = 0 → m = m') (h1 : merge m (k, .num n) = some m') : mergeAll merge m (numField k n) = some m' := by
  simp only [numField]
  split
  · next h => simp [mergeAll, h0 h]
  · rw [mergeAll_one, h1]

theorem mergeAll_opt {M α : Type} {merge : M → Field → Option M} {m m' : M} {g : α → Field} {o : Option α}
    (h0 : o = none → m = m') (h1 : ∀ x, o = some x → merge m (g x) = some m') :
    mergeAll merge m (o.toList.map g) = some m' := by
  cases o with
  | none => simp [mergeAll, h0 rfl]
  | some x => simp only [Option.toList_some, List.map_cons, List.map_nil, mergeAll_one, h1 x rfl]

/-! ## The messages -/

theorem strField_ok {k : Nat} {s : String} {f : Field} (h : f ∈ strField k s) : f.1 = k ∧ ∀ n, f.2 ≠ .num n := by
  simp only [strField] at h
  split at h
  · simp at h
  · rw [List.mem_singleton] at h; subst h; simp

theorem bytesField_ok {k : Nat} {s : Bytes} {f : Field} (h : f ∈ bytesField k s) : f.1 = k ∧ ∀ n, f.2 ≠ .num n := by
  simp only [bytesField] at h
  split at h
  · simp at h
  · rw [List.mem_singleton] at h; subst h; simp

theorem numField_ok {k m : Nat} {f : Field} (h : f ∈ numField k m) : f.1 = k ∧ ∀ n, f.2 = .num n → n = m := by
  simp only [numField] at h
  split at h
  · simp at h
  · rw [List.mem_singleton] at h; subst h
    exact ⟨rfl, fun n h => by injection h with h; exact h.symm⟩

theorem optNum_ok {k : Nat} {o : Option Nat} {f : Field} (h : f ∈ optNum k o) : f.1 = k ∧ ∀ n, f.2 = .num n → o = some n := by
  cases o with
  | none => simp [optNum] at h
  | some m =>
    simp only [optNum, Option.toList_some, List.map_cons, List.map_nil, List.mem_singleton] at h
    subst h
    exact ⟨rfl, fun n h => by injection h with h; rw [h]⟩

theorem lenMap_ok {α : Type} {k : Nat} {g : α → Bytes} {l : List α} {f : Field} (h : f ∈ l.map (fun a => (k, Wv.len (g a)))) :
    f.1 = k ∧ ∀ n, f.2 ≠ .num n := by
  obtain ⟨a, _, rfl⟩ := List.mem_map.mp h
  simp

theorem into_entry (e : String × String) (hl : (render (entryFields e)).length < 2 ^ 64) :
    into mergeEntry ("", "") (render (entryFields e)) = some e := by
  rw [into_render (fieldsOk hl ?_)]
  · rw [entryFields, mergeAll_append, mergeAll_str (m' := (e.1, "")) (by intro h; rw [h]) (by simp [mergeEntry, bytesStr_strBytes])]
    exact mergeAll_str (by intro h; rw [← h]) (by simp [mergeEntry, bytesStr_strBytes])
  · intro f hf
    simp only [entryFields, List.mem_append] at hf
    rcases hf with hf | hf <;> obtain ⟨h1, h2⟩ := strField_ok hf <;>
      exact ⟨by omega, by omega, fun n hn => absurd hn (h2 n)⟩

theorem into_event (e : PEvent) (hl : (render (eventFields e)).length < 2 ^ 64) :
    into mergeEvent noEvent (render (eventFields e)) = some e := by
  rw [into_render (fieldsOk hl ?_)]
  · have hm : ∀ m ∈ e.metadata, (render (entryFields m)).length < 2 ^ 64 := by
      intro m hm
      have : (5, Wv.len (render (entryFields m))) ∈ eventFields e := by
        simp only [eventFields, List.mem_append]
        exact Or.inr (List.mem_map.mpr ⟨m, hm, rfl⟩)
      have := len_lt_render this
      omega
    rw [eventFields, mergeAll_append, mergeAll_append, mergeAll_append, mergeAll_append,
      mergeAll_str (m' := ⟨e.eventType, [], [], "", []⟩) (by intro h; rw [h]; rfl) (by simp [mergeEvent, bytesStr_strBytes, noEvent]),
      Option.bind_some,
      mergeAll_rep (merge := mergeEvent) (fun t => (2, .len (strBytes t))) (fun m xs => { m with tags := m.tags ++ xs }) (by simp) (by simp) _
        (by intro m x _; simp [mergeEvent, bytesStr_strBytes]), Option.bind_some]
    have h3 : mergeAll mergeEvent ⟨e.eventType, [] ++ e.tags, [], "", []⟩ (bytesField 3 e.data) =
        some ⟨e.eventType, e.tags, e.data, "", []⟩ := by
      simp only [bytesField]
      split
      · next h => simp [mergeAll, h]
      · rw [mergeAll_one]; simp [mergeEvent]
    rw [h3, Option.bind_some, mergeAll_str (m' := ⟨e.eventType, e.tags, e.data, e.uuid, []⟩) (by intro h; rw [h])
      (by simp [mergeEvent, bytesStr_strBytes]), Option.bind_some,
      mergeAll_rep (merge := mergeEvent) (fun m => (5, .len (render (entryFields m)))) (fun m xs => { m with metadata := m.metadata ++ xs }) (by simp) (by simp) _
        (by intro m x hx; simp [mergeEvent, into_entry x (hm x hx)])]
    simp
  · intro f hf
    simp only [eventFields, List.mem_append] at hf
    rcases hf with (((hf | hf) | hf) | hf) | hf
    · obtain ⟨h1, h2⟩ := strField_ok hf
      exact ⟨by omega, by omega, fun n hn => absurd hn (h2 n)⟩
    · obtain ⟨h1, h2⟩ := lenMap_ok hf
      exact ⟨by omega, by omega, fun n hn => absurd hn (h2 n)⟩
    · obtain ⟨h1, h2⟩ := bytesField_ok hf
      exact ⟨by omega, by omega, fun n hn => absurd hn (h2 n)⟩
    · obtain ⟨h1, h2⟩ := strField_ok hf
      exact ⟨by omega, by omega, fun n hn => absurd hn (h2 n)⟩
    · obtain ⟨h1, h2⟩ := lenMap_ok hf
      exact ⟨by omega, by omega, fun n hn => absurd hn (h2 n)⟩

theorem into_tracking (t : PTracking) (hp : t.position < 2 ^ 64) (hl : (render (trackingFields t)).length < 2 ^ 64) :
    into mergeTracking noTracking (render (trackingFields t)) = some t := by
  rw [into_render (fieldsOk hl ?_)]
  · rw [trackingFields, mergeAll_append, mergeAll_str (m' := ⟨t.source, 0⟩) (by intro h; rw [h]; rfl)
      (by simp [mergeTracking, bytesStr_strBytes, noTracking]), Option.bind_some]
    exact mergeAll_num (by intro h; rw [← h]) (by simp [mergeTracking])
  · intro f hf
    simp only [trackingFields, List.mem_append] at hf
    rcases hf with hf | hf
    · obtain ⟨h1, h2⟩ := strField_ok hf
      exact ⟨by omega, by omega, fun n hn => absurd hn (h2 n)⟩
    · obtain ⟨h1, h2⟩ := numField_ok hf
      exact ⟨by omega, by omega, fun n hn => h2 n hn ▸ hp⟩

/-- Positions are 64 bit numbers. -/
structure SeqOk (e : PSeqEvent) : Prop where
  position : e.position < 2 ^ 64
  tracking : ∀ t, e.tracking = some t → t.position < 2 ^ 64

theorem into_seq (e : PSeqEvent) (ho : SeqOk e) (hl : (render (seqFields e)).length < 2 ^ 64) :
    into mergeSeq noSeq (render (seqFields e)) = some e := by
  rw [into_render (fieldsOk hl ?_)]
  · rw [seqFields, mergeAll_append, mergeAll_append,
      mergeAll_num (m' := ⟨e.position, none, none⟩) (by intro h; rw [h]; rfl) (by simp [mergeSeq, noSeq]), Option.bind_some,
      mergeAll_opt (m' := ⟨e.position, e.event, none⟩) (by intro h; rw [h]) (by
        intro x hx
        have : (2, Wv.len (render (eventFields x))) ∈ seqFields e := by
          simp [seqFields, hx]
        have := len_lt_render this
        simp [mergeSeq, into_event x (by omega), hx]), Option.bind_some]
    refine mergeAll_opt (by intro h; rw [← h]) ?_
    intro t ht
    have : (3, Wv.len (render (trackingFields t))) ∈ seqFields e := by
      simp [seqFields, ht]
    have := len_lt_render this
    simp only [mergeSeq, Option.getD_none, into_tracking t (ho.tracking t ht) (by omega), Option.map_some]
    rw [← ht]
  · intro f hf
    simp only [seqFields, List.mem_append] at hf
    rcases hf with (hf | hf) | hf
    · obtain ⟨h1, h2⟩ := numField_ok hf
      exact ⟨by omega, by omega, fun n hn => h2 n hn ▸ ho.position⟩
    · obtain ⟨h1, h2⟩ := lenMap_ok hf
      exact ⟨by omega, by omega, fun n hn => absurd hn (h2 n)⟩
    · obtain ⟨h1, h2⟩ := lenMap_ok hf
      exact ⟨by omega, by omega, fun n hn => absurd hn (h2 n)⟩

structure ResponseOk (r : PResponse) : Prop where
  events : ∀ e ∈ r.events, SeqOk e
  head : ∀ n, r.head = some n → n < 2 ^ 64

theorem into_response (r : PResponse) (ho : ResponseOk r) (hl : (render (responseFields r)).length < 2 ^ 64) :
    into mergeResponse noResponse (render (responseFields r)) = some r := by
  rw [into_render (fieldsOk hl ?_)]
  · rw [responseFields, mergeAll_append,
      mergeAll_rep (merge := mergeResponse) (fun e => (1, .len (render (seqFields e)))) (fun m xs => { m with events := m.events ++ xs }) (by simp) (by simp) _
        (by
          intro m x hx
          have : (1, Wv.len (render (seqFields x))) ∈ responseFields r := by
            simp only [responseFields, List.mem_append]
            exact Or.inl (List.mem_map.mpr ⟨x, hx, rfl⟩)
          have := len_lt_render this
          simp [mergeResponse, into_seq x (ho.events x hx) (by omega)]), Option.bind_some]
    refine mergeAll_opt (by intro h; simp [noResponse, ← h]) ?_
    intro n hn
    simp [mergeResponse, noResponse, ← hn]
  · intro f hf
    simp only [responseFields, List.mem_append] at hf
    rcases hf with hf | hf
    · obtain ⟨h1, h2⟩ := lenMap_ok hf
      exact ⟨by omega, by omega, fun n hn => absurd hn (h2 n)⟩
    · obtain ⟨h1, h2⟩ := optNum_ok hf
      exact ⟨by omega, by omega, fun n hn => ho.head n (h2 n hn)⟩

theorem into_item (i : PQueryItem) (hl : (render (itemFields i)).length < 2 ^ 64) :
    into mergeItem ⟨[], []⟩ (render (itemFields i)) = some i := by
  rw [into_render (fieldsOk hl ?_)]
  · rw [itemFields, mergeAll_append,
      mergeAll_rep (merge := mergeItem) (fun t => (1, .len (strBytes t))) (fun m xs => { m with types := m.types ++ xs }) (by simp) (by simp) _
        (by intro m x _; simp [mergeItem, bytesStr_strBytes]), Option.bind_some,
      mergeAll_rep (merge := mergeItem) (fun t => (2, .len (strBytes t))) (fun m xs => { m with tags := m.tags ++ xs }) (by simp) (by simp) _
        (by intro m x _; simp [mergeItem, bytesStr_strBytes])]
    simp
  · intro f hf
    simp only [itemFields, List.mem_append] at hf
    rcases hf with hf | hf <;> obtain ⟨h1, h2⟩ := lenMap_ok hf <;>
      exact ⟨by omega, by omega, fun n hn => absurd hn (h2 n)⟩

theorem into_query (q : PQuery) (hl : (render (queryFields q)).length < 2 ^ 64) :
    into mergeQuery ⟨[]⟩ (render (queryFields q)) = some q := by
  rw [into_render (fieldsOk hl ?_)]
  · rw [queryFields,
      mergeAll_rep (merge := mergeQuery) (fun i => (1, .len (render (itemFields i)))) (fun m xs => { m with items := m.items ++ xs }) (by simp) (by simp) _
        (by
          intro m x hx
          have : (1, Wv.len (render (itemFields x))) ∈ queryFields q := List.mem_map.mpr ⟨x, hx, rfl⟩
          have := len_lt_render this
          simp [mergeQuery, into_item x (by omega)])]
    simp
  · intro f hf
    simp only [queryFields] at hf
    obtain ⟨h1, h2⟩ := lenMap_ok hf
    exact ⟨by omega, by omega, fun n hn => absurd hn (h2 n)⟩

def CondOk (c : PCondition) : Prop := ∀ n, c.after = some n → n < 2 ^ 64

theorem into_condition (c : PCondition) (ho : CondOk c) (hl : (render (conditionFields c)).length < 2 ^ 64) :
    into mergeCondition ⟨none, none⟩ (render (conditionFields c)) = some c := by
  rw [into_render (fieldsOk hl ?_)]
  · rw [conditionFields, mergeAll_append,
      mergeAll_opt (m' := ⟨c.failIfEventsMatch, none⟩) (by intro h; rw [h]) (by
        intro x hx
        have : (1, Wv.len (render (queryFields x))) ∈ conditionFields c := by simp [conditionFields, hx]
        have := len_lt_render this
        simp [mergeCondition, into_query x (by omega), hx]), Option.bind_some]
    refine mergeAll_opt (by intro h; simp [← h]) ?_
    intro n hn
    simp [mergeCondition, ← hn]
  · intro f hf
    simp only [conditionFields, List.mem_append] at hf
    rcases hf with hf | hf
    · obtain ⟨h1, h2⟩ := lenMap_ok hf
      exact ⟨by omega, by omega, fun n hn => absurd hn (h2 n)⟩
    · obtain ⟨h1, h2⟩ := optNum_ok hf
      exact ⟨by omega, by omega, fun n hn => ho n (h2 n hn)⟩

structure AppendOk (a : PAppend) : Prop where
  condition : ∀ c, a.condition = some c → CondOk c
  tracking : ∀ t, a.tracking = some t → t.position < 2 ^ 64

theorem into_append (a : PAppend) (ho : AppendOk a) (hl : (render (appendFields a)).length < 2 ^ 64) :
    into mergeAppend ⟨[], none, none⟩ (render (appendFields a)) = some a := by
  rw [into_render (fieldsOk hl ?_)]
  · rw [appendFields, mergeAll_append, mergeAll_append,
      mergeAll_rep (merge := mergeAppend) (fun e => (1, .len (render (eventFields e)))) (fun m xs => { m with events := m.events ++ xs }) (by simp) (by simp) _
        (by
          intro m x hx
          have : (1, Wv.len (render (eventFields x))) ∈ appendFields a := by
            simp only [appendFields, List.mem_append]
            exact Or.inl (Or.inl (List.mem_map.mpr ⟨x, hx, rfl⟩))
          have := len_lt_render this
          simp [mergeAppend, into_event x (by omega)]), Option.bind_some,
      mergeAll_opt (m' := ⟨a.events, a.condition, none⟩) (by intro h; simp [h]) (by
        intro x hx
        have : (2, Wv.len (render (conditionFields x))) ∈ appendFields a := by simp [appendFields, hx]
        have := len_lt_render this
        simp [mergeAppend, into_condition x (ho.condition x hx) (by omega), hx]), Option.bind_some]
    refine mergeAll_opt (by intro h; simp [← h]) ?_
    intro t ht
    have : (3, Wv.len (render (trackingFields t))) ∈ appendFields a := by simp [appendFields, ht]
    have := len_lt_render this
    simp only [mergeAppend, Option.getD_none, into_tracking t (ho.tracking t ht) (by omega), Option.map_some]
    rw [← ht]
  · intro f hf
    simp only [appendFields, List.mem_append] at hf
    rcases hf with (hf | hf) | hf <;> obtain ⟨h1, h2⟩ := lenMap_ok hf <;>
      exact ⟨by omega, by omega, fun n hn => absurd hn (h2 n)⟩

/-- Positions have 64 bits, limit and batch size 32. -/
structure ReadOk (r : PRead) : Prop where
  start : ∀ n, r.start = some n → n < 2 ^ 64
  limit : ∀ n, r.limit = some n → n < 2 ^ 32
  batchSize : ∀ n, r.batchSize = some n → n < 2 ^ 32

theorem bit_lt (o : Option Bool) (n : Nat) (h : o.map bit = some n) : n < 2 := by
  cases o with
  | none => simp at h
  | some b => cases b <;> simp [bit] at h <;> omega

theorem bit_ne (b : Bool) : (bit b != 0) = b := by cases b <;> rfl

theorem mergeAll_optNum {M : Type} {merge : M → Field → Option M} {m m' : M} {k : Nat} {o : Option Nat}
    (h0 : o = none → m = m') (h1 : ∀ x, o = some x → merge m (k, .num x) = some m') :
    mergeAll merge m (optNum k o) = some m' := mergeAll_opt h0 h1

theorem into_read (r : PRead) (ho : ReadOk r) (hl : (render (readFields r)).length < 2 ^ 64) :
    into mergeRead ⟨none, none, none, none, none, none⟩ (render (readFields r)) = some r := by
  rw [into_render (fieldsOk hl ?_)]
  · rw [readFields, mergeAll_append, mergeAll_append, mergeAll_append, mergeAll_append, mergeAll_append,
      mergeAll_opt (m' := ⟨r.query, none, none, none, none, none⟩) (by intro h; rw [h]) (by
        intro x hx
        have : (1, Wv.len (render (queryFields x))) ∈ readFields r := by simp [readFields, hx]
        have := len_lt_render this
        simp [mergeRead, into_query x (by omega), hx]), Option.bind_some,
      mergeAll_optNum (m' := ⟨r.query, r.start, none, none, none, none⟩) (by intro h; rw [h])
        (by intro x hx; simp [mergeRead, hx]), Option.bind_some,
      mergeAll_optNum (m' := ⟨r.query, r.start, r.backwards, none, none, none⟩)
        (by intro h; rw [Option.map_eq_none_iff] at h; rw [h])
        (by intro x hx; obtain ⟨b, hb, rfl⟩ := Option.map_eq_some_iff.mp hx; simp [mergeRead, hb, bit_ne]), Option.bind_some,
      mergeAll_optNum (m' := ⟨r.query, r.start, r.backwards, r.limit, none, none⟩) (by intro h; rw [h])
        (by intro x hx; have := ho.limit x hx; simp only [mergeRead, hx]; rw [Nat.mod_eq_of_lt this]), Option.bind_some,
      mergeAll_optNum (m' := ⟨r.query, r.start, r.backwards, r.limit, r.subscribe, none⟩)
        (by intro h; rw [Option.map_eq_none_iff] at h; rw [h])
        (by intro x hx; obtain ⟨b, hb, rfl⟩ := Option.map_eq_some_iff.mp hx; simp [mergeRead, hb, bit_ne]), Option.bind_some]
    exact mergeAll_optNum (by intro h; rw [← h])
        (by intro x hx; have := ho.batchSize x hx; simp only [mergeRead]; rw [Nat.mod_eq_of_lt this, ← hx])
  · intro f hf
    simp only [readFields, List.mem_append] at hf
    rcases hf with ((((hf | hf) | hf) | hf) | hf) | hf
    · obtain ⟨h1, h2⟩ := lenMap_ok hf
      exact ⟨by omega, by omega, fun n hn => absurd hn (h2 n)⟩
    all_goals obtain ⟨h1, h2⟩ := optNum_ok hf
    · exact ⟨by omega, by omega, fun n hn => ho.start n (h2 n hn)⟩
    · exact ⟨by omega, by omega, fun n hn => by have := bit_lt _ n (h2 n hn); omega⟩
    · exact ⟨by omega, by omega, fun n hn => by have := ho.limit n (h2 n hn); omega⟩
    · exact ⟨by omega, by omega, fun n hn => by have := bit_lt _ n (h2 n hn); omega⟩
    · exact ⟨by omega, by omega, fun n hn => by have := ho.batchSize n (h2 n hn); omega⟩

theorem into_subscribe (r : Option PQuery × Option Nat × Option Nat) (h1 : ∀ n, r.2.1 = some n → n < 2 ^ 64)
    (h2 : ∀ n, r.2.2 = some n → n < 2 ^ 32) (hl : (render (subscribeFields r)).length < 2 ^ 64) :
    into mergeSubscribe (none, none, none) (render (subscribeFields r)) = some r := by
  obtain ⟨q, a, b⟩ := r
  simp only at h1 h2
  rw [into_render (fieldsOk hl ?_)]
  · rw [subscribeFields, mergeAll_append, mergeAll_append,
      mergeAll_opt (m' := (q, none, none)) (by intro h; replace h : q = none := h; simp [h]) (by
        intro x hx
        replace hx : q = some x := hx
        have : (1, Wv.len (render (queryFields x))) ∈ subscribeFields (q, a, b) := by simp [subscribeFields, hx]
        have := len_lt_render this
        simp [mergeSubscribe, into_query x (by omega), hx]), Option.bind_some,
      mergeAll_optNum (m' := (q, a, none)) (by intro h; replace h : a = none := h; simp [h])
        (by intro x hx; replace hx : a = some x := hx; simp [mergeSubscribe, hx]), Option.bind_some]
    exact mergeAll_optNum (by intro h; rw [← h])
      (by intro x hx; have := h2 x hx; simp only [mergeSubscribe]; rw [Nat.mod_eq_of_lt this, ← hx])
  · intro f hf
    simp only [subscribeFields, List.mem_append] at hf
    rcases hf with (hf | hf) | hf
    · obtain ⟨h1, h2⟩ := lenMap_ok hf
      exact ⟨by omega, by omega, fun n hn => absurd hn (h2 n)⟩
    · obtain ⟨h3, h4⟩ := optNum_ok hf
      exact ⟨by omega, by omega, fun n hn => h1 n (h4 n hn)⟩
    · obtain ⟨h3, h4⟩ := optNum_ok hf
      exact ⟨by omega, by omega, fun n hn => by have := h2 n (h4 n hn); omega⟩

theorem into_num (n : Nat) (h : n < 2 ^ 64) : into mergeNum 0 (render (numField 1 n)) = some n := by
  rw [into_render ?_]
  · exact mergeAll_num (by intro h; exact h.symm) rfl
  · intro f hf
    simp only [numField] at hf
    split at hf
    · simp at hf
    · rw [List.mem_singleton] at hf; subst hf; exact ⟨by simp, by simp, h⟩

theorem into_optNum (o : Option Nat) (h : ∀ n, o = some n → n < 2 ^ 64) :
    into mergeOptNum none (render (optNum 1 o)) = some o := by
  rw [into_render ?_]
  · exact mergeAll_optNum (by intro h; exact h.symm) (by intro x hx; simp [mergeOptNum, hx])
  · intro f hf
    cases o with
    | none => simp [optNum] at hf
    | some n =>
      simp only [optNum, Option.toList_some, List.map_cons, List.map_nil, List.mem_singleton] at hf
      subst hf; exact ⟨by simp, by simp, h n rfl⟩

theorem into_str (s : String) (hl : (render (strField 1 s)).length < 2 ^ 64) : into mergeStr "" (render (strField 1 s)) = some s := by
  rw [into_render (fieldsOk hl ?_)]
  · exact mergeAll_str (by intro h; exact h.symm) (by simp [mergeStr, bytesStr_strBytes])
  · intro f hf
    obtain ⟨h1, h2⟩ := strField_ok hf
    exact ⟨by omega, by omega, fun n hn => absurd hn (h2 n)⟩

theorem into_error (e : String × Nat) (hp : e.2 < 2 ^ 64) (hl : (render (errorFields e)).length < 2 ^ 64) :
    into mergeError ("", 0) (render (errorFields e)) = some e := by
  rw [into_render (fieldsOk hl ?_)]
  · rw [errorFields, mergeAll_append, mergeAll_str (m' := (e.1, 0)) (by intro h; rw [h])
      (by simp [mergeError, bytesStr_strBytes]), Option.bind_some]
    exact mergeAll_num (by intro h; rw [← h]) (by simp [mergeError])
  · intro f hf
    simp only [errorFields, List.mem_append] at hf
    rcases hf with hf | hf
    · obtain ⟨h1, h2⟩ := strField_ok hf
      exact ⟨by omega, by omega, fun n hn => absurd hn (h2 n)⟩
    · obtain ⟨h1, h2⟩ := numField_ok hf
      exact ⟨by omega, by omega, fun n hn => h2 n hn ▸ hp⟩

end Uma.Net
