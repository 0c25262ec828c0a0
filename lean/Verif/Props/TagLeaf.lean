import Verif.Props.Sizes

/-!
# An overfull leaf of the tag index: C27

One request with 1013 events: 508 with the tag "a", whose positions then move to a tree of their own, 504 with the tag "b", whose
positions are in the leaf, and one with the tag "c".  The leaf is split by count behind the small entry of "a".
-/

namespace Uma.Page
open Uma.Codec Uma.Mvcc Uma.Spec

/-- The page `p` is `n`, beside the events tree. -/
def Has (w : Writer) (p : Nat) (n : Node) : Prop :=
  ∃ A X Q K, Tr (evLayout 16 4096 (by decide)) K ∧ w.eventsRoot = K.id ∧ w.kw = 16 ∧ w.pageSize = 4096 ∧
    Own w A X ({(p, n)} + (K.pg + Q))

/-- The tag index is this leaf. -/
def Leafed (w : Writer) (keys : List Nat) (vals : List TagsValue) : Prop := Has w w.tagsRoot (.tagsLeaf keys vals)

theorem evAppend_has {w : Writer} {p pos : Nat} {n : Node} {r : Record} {v : (EventValue × Nat) × Option (EventValue × Nat)}
    (hv : validateEvent 4096 r = .ok v) (h : Has w p n) :
    Run (evAppend v pos) w fun _ w' => Has w' p n ∧ w'.tagsRoot = w.tagsRoot ∧ w'.nextPos = w.nextPos ∧ (IsDirty w p → IsDirty w' p) := by
  obtain ⟨A, X, Q, K, hK, hr, hkw, hps, hw⟩ := h
  refine (evAppend_spec hK hr hkw hps pos hv (Q := {(p, n)} + Q) (hw.congr (by abel))).mono ?_
  rintro _ w' ⟨K', hK', hr', -, hw', k, -⟩
  refine ⟨⟨A, X, Q, K', hK', hr', k.step.kw.trans hkw, k.step.pageSize.trans hps, hw'.congr (by abel)⟩, k.step.tagsRoot, k.step.nextPos, fun hd => ?_⟩
  exact k.dirty p (by simp [ids]) hd

theorem Has.issue {w : Writer} {p : Nat} {n : Node} (h : Has w p n) : Has (issuePosition w).2 p n := by
  obtain ⟨A, X, Q, K, hK, hr, hkw, hps, hw⟩ := h
  exact ⟨A, X, Q, K, hK, hr, hkw, hps, ⟨hw.1, hw.2, hw.3, hw.4, hw.5, hw.6, hw.7, hw.8, hw.9, hw.10⟩⟩

/-- What the change of the leaf does, whatever else there is. -/
def Changes (bs : List Nat → Nat → Nat) (tag pos : Nat) (keys : List Nat) (vals : List TagsValue) (G : List Nat → List TagsValue → Prop) : Prop :=
  ∀ (A : Nat → Prop) (X : Multiset Nat) (Q : Multiset (Nat × Node)) (w : Writer) (d : Nat), w.kw = 16 → w.pageSize = 4096 →
    Own w A X ({(d, .tagsLeaf keys vals)} + Q) → IsDirty w d →
    Run (tagsChange bs d tag pos) w fun _ w' => ∃ keys' vals' Q', G keys' vals' ∧
      Own w' A X ({(d, .tagsLeaf keys' vals')} + (Q + Q')) ∧ Keep Q w w' ∧ IsDirty w' d

variable {bs : List Nat → Nat → Nat} {tag pos : Nat} {keys : List Nat} {vals : List TagsValue} {G : List Nat → List TagsValue → Prop} {w : Writer}

/-- Up to the split. -/
theorem tagsInsert_leaf {R : Unit → Writer → Prop} (h : Leafed w keys vals) (hch : Changes bs tag pos keys vals G)
    (hR : ∀ (A : Nat → Prop) (X : Multiset Nat) (Q : Multiset (Nat × Node)) (K : Kid Nat (Nat × Record)) (w' : Writer) (d : Nat) (keys' : List Nat) (vals' : List TagsValue),
      Tr (evLayout 16 4096 (by decide)) K → w'.eventsRoot = K.id → w'.kw = 16 → w'.pageSize = 4096 → w'.nextPos = w.nextPos →
      Own w' A X ({(d, .tagsLeaf keys' vals')} + (K.pg + Q)) → IsDirty w' d → G keys' vals' →
      Run (do
        let s ← tagsSplit d
        let root ← (fixRoot tagsOps w.tagsRoot (replInfo w.tagsRoot d) s)
        modW fun w => { w with tagsRoot := root }) w' R) :
    Run (tagsInsert bs tag pos) w R := by
  obtain ⟨A, X, Q, K, hK, hr, hkw, hps, hw⟩ := h
  obtain ⟨n, hn⟩ : ∃ n, w.nextPage = n + 1 := ⟨w.nextPage - 1, by have := hw.limit; omega⟩
  unfold tagsInsert
  refine .get ?_
  rw [hn]
  unfold descend
  refine Run.andThen (Q := fun leaf w' => leaf = (w.tagsRoot, []) ∧ Own w' A X ({(w.tagsRoot, .tagsLeaf keys vals)} + (K.pg + Q)) ∧
    Keep ({(w.tagsRoot, .tagsLeaf keys vals)} + (K.pg + Q)) w w' ∧ Loaded w' w.tagsRoot) ?_ ?_
  · refine (getPage_spec hw (p := w.tagsRoot) (n := .tagsLeaf keys vals) (by simp)).andThen ?_
    rintro _ w1 ⟨rfl, h1, k1, l1⟩
    exact .pure ⟨rfl, h1, k1, l1⟩
  rintro _ w1 ⟨rfl, h1, k1, l1⟩
  refine (getDirty_spec h1 l1).andThen ?_
  rintro d w2 ⟨h2, k2, d2⟩
  have hkw2 : w2.kw = 16 := by rw [k2.step.kw, k1.step.kw, hkw]
  have hps2 : w2.pageSize = 4096 := by rw [k2.step.pageSize, k1.step.pageSize, hps]
  refine (hch A X _ w2 d hkw2 hps2 h2 d2).andThen ?_
  rintro _ w3 ⟨keys', vals', Q', hG, h3, k3, d3⟩
  refine Run.of_eq ?_ (hR A X (Q + Q') K w3 d keys' vals' hK (by rw [k3.step.eventsRoot, k2.step.eventsRoot, k1.step.eventsRoot, hr])
    (by rw [k3.step.kw, hkw2]) (by rw [k3.step.pageSize, hps2]) (by rw [k3.step.nextPos, k2.step.nextPos, k1.step.nextPos])
    (h3.congr (by abel)) d3 hG)
  simp [finish, walkUp, bind, pure]

/-- The leaf fits after the change. -/
theorem tagsInsert_fits (h : Leafed w keys vals) (hch : Changes bs tag pos keys vals G)
    (hfit : ∀ k v, G k v → pageSizeOf 16 (.tagsLeaf k v) ≤ 4096) :
    Run (tagsInsert bs tag pos) w fun _ w' => w'.nextPos = w.nextPos ∧ ∃ k v, G k v ∧ Leafed w' k v := by
  refine tagsInsert_leaf h hch ?_
  intro A X Q K w' d keys' vals' hK hr hkw hps hpos hw hd hG
  refine Run.andThen (Q := fun s w'' => s = none ∧ Own w'' A X ({(d, .tagsLeaf keys' vals')} + (K.pg + Q)) ∧ Keep (K.pg + Q) w' w'') ?_ ?_
  · unfold tagsSplit
    refine .get ?_
    refine (modDirty_spec (a := none) (n' := .tagsLeaf keys' vals') hw hd ?_).andThen ?_
    · unfold tagsCut
      simp only
      rw [hkw, hps, if_neg (by have := hfit _ _ hG; omega)]
    · rintro _ w2 ⟨rfl, h2, k2, -⟩
      exact .pure ⟨rfl, h2, k2⟩
  rintro _ w2 ⟨rfl, h2, k2⟩
  refine Run.bind ⟨d, w2, ?_, .modW ⟨k2.step.nextPos.trans hpos, keys', vals', hG, ?_⟩⟩
  · unfold fixRoot replInfo
    by_cases hdr : d = w.tagsRoot
    · rw [if_neg (by simpa using hdr), hdr]; rfl
    · rw [if_pos hdr]
      simp [bind, pure]
  · exact ⟨A, X, Q, K, hK, k2.step.eventsRoot.trans hr, k2.step.kw.trans hkw, k2.step.pageSize.trans hps, h2.setRoots _ _ _⟩

/-- The leaf is split after the change; the right half. -/
theorem tagsInsert_splits (h : Leafed w keys vals) (hch : Changes bs tag pos keys vals G)
    (hover : ∀ k v, G k v → 4096 < pageSizeOf 16 (.tagsLeaf k v) ∧ 1 ≤ k.length) :
    Run (tagsInsert bs tag pos) w fun _ w' => w'.nextPos = w.nextPos ∧ ∃ k v p, G k v ∧
      Has w' p (.tagsLeaf (k.drop (k.length / 2)) (v.drop (k.length / 2))) ∧ IsDirty w' p := by
  refine tagsInsert_leaf h hch ?_
  intro A X Q K w' d keys' vals' hK hr hkw hps hpos hw hd hG
  obtain ⟨k, right, hkr⟩ : ∃ k right, keys'.drop (keys'.length / 2) = k :: right := by
    cases h : keys'.drop (keys'.length / 2) with
    | nil => rw [List.drop_eq_nil_iff] at h; have := (hover _ _ hG).2; omega
    | cons k r => exact ⟨k, r, rfl⟩
  refine Run.andThen (Q := fun s w'' => ∃ p, s = some (k, p) ∧ Own w'' A X ({(p, .tagsLeaf (k :: right) (vals'.drop (keys'.length / 2)))} +
    ({(d, .tagsLeaf (keys'.take (keys'.length / 2)) (vals'.take (keys'.length / 2)))} + (K.pg + Q))) ∧ Keep (K.pg + Q) w' w'' ∧ IsDirty w'' p) ?_ ?_
  · unfold tagsSplit
    refine .get ?_
    refine (modDirty_spec (a := some (k, k :: right, vals'.drop (keys'.length / 2)))
      (n' := .tagsLeaf (keys'.take (keys'.length / 2)) (vals'.take (keys'.length / 2))) hw hd ?_).andThen ?_
    · unfold tagsCut
      simp only
      rw [hkw, hps, if_pos (hover _ _ hG).1, hkr]
    · rintro _ w2 ⟨rfl, h2, k2, -⟩
      refine (newPage_spec _ h2).andThen ?_
      rintro p w3 ⟨h3, k3, d3⟩
      exact .pure ⟨p, rfl, h3, k2.trans (k3.sub (Multiset.le_add_left _ _)), d3⟩
  rintro _ w2 ⟨p, rfl, h2, k2, d2⟩
  refine Run.andThen (Q := fun r w'' => Own w'' A X ({(r, .tagsInternal [k] [d, p])} + ({(p, .tagsLeaf (k :: right) (vals'.drop (keys'.length / 2)))} +
    ({(d, .tagsLeaf (keys'.take (keys'.length / 2)) (vals'.take (keys'.length / 2)))} + (K.pg + Q)))) ∧ Keep (K.pg + Q) w2 w'' ∧ IsDirty w'' p) ?_ ?_
  · refine Run.of_eq (m := newPage (.tagsInternal [k] [d, p])) ?_ ?_
    · unfold fixRoot replInfo
      by_cases hdr : d = w.tagsRoot
      · rw [if_neg (by simpa using hdr), hdr]; rfl
      · rw [if_pos hdr]
        simp [bind, pure, tagsOps]
    · refine (newPage_spec _ h2).mono ?_
      rintro r w3 ⟨h3, k3, -⟩
      exact ⟨h3, k3.sub ((Multiset.le_add_left _ _).trans (Multiset.le_add_left _ _)), k3.dirty p (by simp) d2⟩
  rintro r w3 ⟨h3, k3, d3⟩
  refine .modW ⟨(k3.step.nextPos.trans k2.step.nextPos).trans hpos, keys', vals', p, hG, ?_, d3⟩
  rw [hkr]
  exact ⟨A, X, {(r, .tagsInternal [k] [d, p])} + ({(d, .tagsLeaf (keys'.take (keys'.length / 2)) (vals'.take (keys'.length / 2)))} + Q), K, hK,
    (k3.step.eventsRoot.trans k2.step.eventsRoot).trans hr, (k3.step.kw.trans k2.step.kw).trans hkw,
    (k3.step.pageSize.trans k2.step.pageSize).trans hps, (h3.setRoots _ _ _).congr (by abel)⟩

/-! ## The changes of the leaf -/

theorem changes_new {i : Nat} (hi : searchIdx keys tag = .error i) (hl : i ≤ vals.length) :
    Changes bs tag pos keys vals fun k v => k = keys.insertIdx i tag ∧ v = vals.insertIdx i ⟨0, [pos]⟩ := by
  intro A X Q w d hkw hps hw hd
  unfold tagsChange
  refine (modDirty_spec (a := .inserted) (n' := .tagsLeaf (keys.insertIdx i tag) (vals.insertIdx i ⟨0, [pos]⟩)) hw hd ?_).andThen ?_
  · unfold tagsFind
    simp only [hi]
    rw [if_neg (by omega)]
  · rintro _ w1 ⟨rfl, h1, k1, d1⟩
    exact .pure ⟨_, _, 0, ⟨rfl, rfl⟩, h1.congr (by simp), k1, d1⟩

theorem changes_inline {i : Nat} {l : List Nat} (hi : searchIdx keys tag = .ok i) (hv : vals[i]? = some ⟨0, l⟩)
    (hfit : pageSizeOf 16 (.tagsLeaf keys (vals.set i ⟨0, l ++ [pos]⟩)) ≤ 4096) :
    Changes bs tag pos keys vals fun k v => k = keys ∧ v = vals.set i ⟨0, l ++ [pos]⟩ := by
  intro A X Q w d hkw hps hw hd
  unfold tagsChange
  refine (modDirty_spec (a := .inline i (l ++ [pos]).length) (n' := .tagsLeaf keys (vals.set i ⟨0, l ++ [pos]⟩)) hw hd ?_).andThen ?_
  · unfold tagsFind
    simp only [hi, hv]
    rfl
  · rintro _ w1 ⟨rfl, h1, k1, d1⟩
    simp only [tagsRest]
    unfold tagsMigrate
    refine (getPage_spec h1 (p := d) (n := .tagsLeaf keys (vals.set i ⟨0, l ++ [pos]⟩)) (by simp)).andThen ?_
    rintro _ w2 ⟨rfl, h2, k2, -⟩
    refine .get ?_
    rw [k2.step.kw, k1.step.kw, hkw, k2.step.pageSize, k1.step.pageSize, hps, if_neg (by omega)]
    exact .pure ⟨_, _, 0, ⟨rfl, rfl⟩, h2.congr (by simp), k1.trans (k2.sub (Multiset.le_add_left _ _)), k2.dirty d (by simp) d1⟩

theorem changes_move {i : Nat} {l : List Nat} (hi : searchIdx keys tag = .ok i) (hv : vals[i]? = some ⟨0, l⟩)
    (hover : 4096 < pageSizeOf 16 (.tagsLeaf keys (vals.set i ⟨0, l ++ [pos]⟩))) (hlen : l.length = 507) :
    Changes bs tag pos keys vals fun k v => k = keys ∧ ∃ r, r ≠ 0 ∧ v = vals.set i ⟨r, []⟩ := by
  intro A X Q w d hkw hps hw hd
  have hil : i < vals.length := (List.getElem?_eq_some_iff.mp hv).1
  unfold tagsChange
  refine (modDirty_spec (a := .inline i (l ++ [pos]).length) (n' := .tagsLeaf keys (vals.set i ⟨0, l ++ [pos]⟩)) hw hd ?_).andThen ?_
  · unfold tagsFind
    simp only [hi, hv]
    rfl
  · rintro _ w1 ⟨rfl, h1, k1, d1⟩
    simp only [tagsRest]
    unfold tagsMigrate
    refine (getPage_spec h1 (p := d) (n := .tagsLeaf keys (vals.set i ⟨0, l ++ [pos]⟩)) (by simp)).andThen ?_
    rintro _ w2 ⟨rfl, h2, k2, -⟩
    have hkw2 : w2.kw = 16 := by rw [k2.step.kw, k1.step.kw, hkw]
    have hps2 : w2.pageSize = 4096 := by rw [k2.step.pageSize, k1.step.pageSize, hps]
    refine .get ?_
    rw [hkw2, hps2, if_pos ⟨hover, by simp [hlen]⟩]
    have d2 : IsDirty w2 d := k2.dirty d (by simp) d1
    unfold tagsMove
    refine (modDirty_spec (a := l ++ [pos]) (n' := .tagsLeaf keys (vals.set i ⟨0, []⟩)) h2 d2 ?_).andThen ?_
    · unfold tagsTake
      simp only [List.getElem?_set_self hil, List.set_set]
    rintro _ w3 ⟨rfl, h3, k3, d3⟩
    refine Run.andThen (Q := fun r w' => Own w' A X ({(r, .tagLeaf (l ++ [pos]))} + ({(d, .tagsLeaf keys (vals.set i ⟨0, []⟩))} + Q)) ∧
      Keep ({(d, .tagsLeaf keys (vals.set i ⟨0, []⟩))} + Q) w3 w') ?_ ?_
    · refine Run.of_eq (m := newPage (.tagLeaf (l ++ [pos]))) ?_ ((newPage_spec _ h3).mono fun r w' h => ⟨h.1, h.2.1⟩)
      unfold perNew
      simp only [getW, bind]
      rw [if_pos]
      rw [tagLeaf_size, k3.step.pageSize, hps2]
      simp [hlen]
    rintro r w4 ⟨h4, k4⟩
    have d4 : IsDirty w4 d := k4.dirty d (by simp) d3
    refine (modDirty_spec (a := ()) (n' := .tagsLeaf keys (vals.set i ⟨r, []⟩)) (p := d)
      (R := {(r, .tagLeaf (l ++ [pos]))} + Q) (h4.congr (by abel)) d4 ?_).mono ?_
    · unfold tagsPutRoot
      simp only [List.getElem?_set_self hil, List.set_set]
    · rintro _ w5 ⟨-, h5, k5, d5⟩
      have hr := (h5.lt (p := r) (by simp)).1
      exact ⟨_, _, {(r, .tagLeaf (l ++ [pos]))}, ⟨rfl, r, by omega, rfl⟩, h5.congr (by abel),
        k1.trans ((k2.sub (Multiset.le_add_left _ _)).trans (k3.trans ((k4.sub (Multiset.le_add_left _ _)).trans
          (k5.sub (Multiset.le_add_left _ _))))), d5⟩

end Uma.Page

namespace Uma.Props
open Uma.Spec Uma.Db Uma.Page Uma.Mvcc Uma.Codec

/-- Three tags, three hashes. -/
def tag3Env : Env := ⟨fun t => if t = "a" then 1 else if t = "b" then 2 else 3, id⟩

theorem tag3Env_width (t : String) : Codec.NormalizedTo 16 (tag3Env.H t) := by
  show Codec.NormalizedTo 16 (if t = "a" then 1 else if t = "b" then 2 else 3)
  split
  · exact ⟨by decide, by decide⟩
  · split <;> exact ⟨by decide, by decide⟩

/-- The tag of the event number `n` (from 0). -/
def tag3 (n : Nat) : String := if n < 508 then "a" else if n < 1012 then "b" else "c"

/-- The event number `n`. -/
def ev3 (n : Nat) : Event := ⟨"T", [], [tag3 n], none, []⟩

/-- What became of the tag index after `n` events. -/
def Phase (n : Nat) (w : Writer) : Prop :=
  if n = 0 then Leafed w [] []
  else if n < 508 then ∃ l, l.length = n ∧ Leafed w [1] [⟨0, l⟩]
  else if n = 508 then ∃ r, r ≠ 0 ∧ Leafed w [1] [⟨r, []⟩]
  else if n < 1013 then ∃ r l, r ≠ 0 ∧ l.length = n - 508 ∧ Leafed w [1, 2] [⟨r, []⟩, ⟨0, l⟩]
  else ∃ p l x, l.length = 504 ∧ Has w p (.tagsLeaf [2, 3] [⟨0, l⟩, ⟨0, [x]⟩]) ∧ IsDirty w p

theorem size1 (v : TagsValue) : pageSizeOf 16 (.tagsLeaf [1] [v]) = 37 + v.positions.length * 8 := by
  simp [pageSizeOf, pageHeaderSize, nodeSize]; omega

theorem size2 (k1 k2 : Nat) (v1 v2 : TagsValue) :
    pageSizeOf 16 (.tagsLeaf [k1, k2] [v1, v2]) = 63 + v1.positions.length * 8 + v2.positions.length * 8 := by
  simp [pageSizeOf, pageHeaderSize, nodeSize]; omega

theorem size3 (k1 k2 k3 : Nat) (v1 v2 v3 : TagsValue) :
    pageSizeOf 16 (.tagsLeaf [k1, k2, k3] [v1, v2, v3]) = 89 + v1.positions.length * 8 + v2.positions.length * 8 + v3.positions.length * 8 := by
  simp [pageSizeOf, pageHeaderSize, nodeSize]; omega

theorem tag3_a {n : Nat} (h : n < 508) : tag3Env.H (tag3 n) = 1 := by
  unfold tag3; rw [if_pos h]; rfl
theorem tag3_b {n : Nat} (h : 508 ≤ n) (h' : n < 1012) : tag3Env.H (tag3 n) = 2 := by
  unfold tag3; rw [if_neg (by omega), if_pos h']; rfl
theorem tag3_c : tag3Env.H (tag3 1012) = 3 := rfl

theorem phase_tag {n : Nat} {w : Writer} (hn : n < 1013) (pos : Nat) (h : Phase n w) :
    Run (tagsInsert exConf.bs (tag3Env.H (tag3 n)) pos) w fun _ w' => w'.nextPos = w.nextPos ∧ Phase (n + 1) w' := by
  unfold Phase at h
  split at h
  · next h0 =>
    subst h0
    rw [tag3_a (by omega)]
    refine (tagsInsert_fits h (changes_new (i := 0) (by decide) (by simp)) ?_).mono ?_
    · rintro k v ⟨rfl, rfl⟩
      show pageSizeOf 16 (.tagsLeaf [1] [⟨0, [pos]⟩]) ≤ 4096
      rw [size1]; simp
    · rintro _ w' ⟨hp, k, v, ⟨rfl, rfl⟩, hl⟩
      refine ⟨hp, ?_⟩
      unfold Phase
      rw [if_neg (by omega), if_pos (by omega)]
      exact ⟨[pos], rfl, hl⟩
  split at h
  · next h0 h1 =>
    rw [tag3_a h1]
    obtain ⟨l, hl, h⟩ := h
    by_cases h2 : n = 507
    · refine (tagsInsert_fits h (changes_move (i := 0) (l := l) (by decide) rfl ?_ (by omega)) ?_).mono ?_
      · show 4096 < pageSizeOf 16 (.tagsLeaf [1] [⟨0, l ++ [pos]⟩])
        rw [size1]; simp; omega
      · rintro k v ⟨rfl, r, -, rfl⟩
        show pageSizeOf 16 (.tagsLeaf [1] [⟨r, []⟩]) ≤ 4096
        rw [size1]; simp
      · rintro _ w' ⟨hp, k, v, ⟨rfl, r, hr, rfl⟩, hl⟩
        refine ⟨hp, ?_⟩
        unfold Phase
        rw [if_neg (by omega), if_neg (by omega), if_pos (by omega)]
        exact ⟨r, hr, hl⟩
    · have hsz : pageSizeOf 16 (.tagsLeaf [1] [⟨0, l ++ [pos]⟩]) ≤ 4096 := by rw [size1]; simp; omega
      refine (tagsInsert_fits h (changes_inline (i := 0) (l := l) (by decide) rfl hsz) ?_).mono ?_
      · rintro k v ⟨rfl, rfl⟩; exact hsz
      · rintro _ w' ⟨hp, k, v, ⟨rfl, rfl⟩, hl'⟩
        refine ⟨hp, ?_⟩
        unfold Phase
        rw [if_neg (by omega), if_pos (by omega)]
        exact ⟨l ++ [pos], by simp; omega, hl'⟩
  split at h
  · next h0 h1 h2 =>
    subst h2
    rw [tag3_b (by omega) (by omega)]
    obtain ⟨r, hr, h⟩ := h
    refine (tagsInsert_fits h (changes_new (i := 1) (by decide) (by simp)) ?_).mono ?_
    · rintro k v ⟨rfl, rfl⟩
      show pageSizeOf 16 (.tagsLeaf [1, 2] [⟨r, []⟩, ⟨0, [pos]⟩]) ≤ 4096
      rw [size2]; simp
    · rintro _ w' ⟨hp, k, v, ⟨rfl, rfl⟩, hl⟩
      refine ⟨hp, ?_⟩
      unfold Phase
      rw [if_neg (by omega), if_neg (by omega), if_neg (by omega), if_pos (by omega)]
      exact ⟨r, [pos], hr, rfl, hl⟩
  · next h0 h1 h2 =>
    obtain ⟨r, l, hr, hl, h⟩ := h
    by_cases h4 : n = 1012
    · subst h4
      rw [tag3_c]
      refine (tagsInsert_splits h (changes_new (i := 2) (by decide) (by simp)) ?_).mono ?_
      · rintro k v ⟨rfl, rfl⟩
        refine ⟨?_, by decide⟩
        show 4096 < pageSizeOf 16 (.tagsLeaf [1, 2, 3] [⟨r, []⟩, ⟨0, l⟩, ⟨0, [pos]⟩])
        rw [size3]; simp; omega
      · rintro _ w' ⟨hp, k, v, p, ⟨rfl, rfl⟩, hl', hd⟩
        refine ⟨hp, ?_⟩
        unfold Phase
        rw [if_neg (by omega), if_neg (by omega), if_neg (by omega), if_neg (by omega)]
        exact ⟨p, l, pos, by omega, hl', hd⟩
    · rw [tag3_b (by omega) (by omega)]
      have hsz : pageSizeOf 16 (.tagsLeaf [1, 2] [⟨r, []⟩, ⟨0, l ++ [pos]⟩]) ≤ 4096 := by rw [size2]; simp; omega
      refine (tagsInsert_fits h (changes_inline (i := 1) (l := l) (by decide) rfl hsz) ?_).mono ?_
      · rintro k v ⟨rfl, rfl⟩; exact hsz
      · rintro _ w' ⟨hp, k, v, ⟨rfl, rfl⟩, hl'⟩
        refine ⟨hp, ?_⟩
        unfold Phase
        rw [if_neg (by omega), if_neg (by omega), if_neg (by omega), if_pos (by omega)]
        exact ⟨r, l ++ [pos], hr, by simp; omega, hl'⟩

theorem Phase.keep {n : Nat} {w w' : Writer} (h : Phase n w) (hr : w'.tagsRoot = w.tagsRoot) (hh : ∀ p m, Has w p m → Has w' p m)
    (hd : ∀ p m, Has w p m → IsDirty w p → IsDirty w' p) : Phase n w' := by
  have hl : ∀ k v, Leafed w k v → Leafed w' k v := fun k v h => by unfold Leafed at h ⊢; rw [hr]; exact hh _ _ h
  unfold Phase at h ⊢
  split
  · next h0 => rw [if_pos h0] at h; exact hl _ _ h
  next h0 =>
  rw [if_neg h0] at h
  split
  · next h1 => rw [if_pos h1] at h; obtain ⟨l, h2, h3⟩ := h; exact ⟨l, h2, hl _ _ h3⟩
  next h1 =>
  rw [if_neg h1] at h
  split
  · next h2 => rw [if_pos h2] at h; obtain ⟨r, h3, h4⟩ := h; exact ⟨r, h3, hl _ _ h4⟩
  next h2 =>
  rw [if_neg h2] at h
  split
  · next h3 => rw [if_pos h3] at h; obtain ⟨r, l, h4, h5, h6⟩ := h; exact ⟨r, l, h4, h5, hl _ _ h6⟩
  next h3 =>
  rw [if_neg h3] at h
  obtain ⟨p, l, x, h4, h5, h6⟩ := h
  exact ⟨p, l, x, h4, hh _ _ h5, hd _ _ h5 h6⟩

theorem Phase.event {n pos : Nat} {w : Writer} {r : Record} {v : (EventValue × Nat) × Option (EventValue × Nat)}
    (hv : validateEvent 4096 r = .ok v) (h : Phase n w) :
    Run (evAppend v pos) w fun _ w' => w'.nextPos = w.nextPos ∧ Phase n w' := by
  obtain ⟨p, m, hm⟩ : ∃ p m, Has w p m := by
    unfold Phase at h
    split at h
    · exact ⟨_, _, h⟩
    split at h
    · obtain ⟨l, h2, h3⟩ := h; exact ⟨_, _, h3⟩
    split at h
    · obtain ⟨r, h3, h4⟩ := h; exact ⟨_, _, h4⟩
    split at h
    · obtain ⟨r, l, h4, h5, h6⟩ := h; exact ⟨_, _, h6⟩
    · obtain ⟨p, l, x, h4, h5, h6⟩ := h; exact ⟨_, _, h5⟩
  obtain ⟨u, w', hrun, -, h2, h3, -⟩ := evAppend_has (pos := pos) hv hm
  have hall : ∀ p m, Has w p m → Has w' p m ∧ (IsDirty w p → IsDirty w' p) := by
    intro p m hm
    obtain ⟨u', w'', hrun', h4, -, -, h5⟩ := evAppend_has (pos := pos) hv hm
    rw [hrun] at hrun'
    cases hrun'
    exact ⟨h4, h5⟩
  exact ⟨u, w', hrun, h3, h.keep h2 (fun p m hm => (hall p m hm).1) fun p m hm => (hall p m hm).2⟩

theorem phase_values {v : Nat → (EventValue × Nat) × Option (EventValue × Nat)} (hv : ∀ i, validateEvent 4096 ⟨ev3 i, none⟩ = .ok (v i)) :
    ∀ (m n last : Nat) (w : PW), n + (m + 1) = 1013 → Phase n w.wr → w.wr.nextPos = n + 1 →
    ∃ w', appendValues (pageBackend exConf) tag3Env.H ((List.range' n (m + 1)).map fun i => (⟨ev3 i, none⟩, v i)) last w = (.ok 1013, { w with wr := w' }) ∧
      Phase 1013 w' := by
  intro m
  induction m with
  | zero =>
    intro n last w hn hP hp
    obtain rfl : n = 1012 := by omega
    have h0 : Phase 1012 (issuePosition w.wr).2 := hP.keep rfl (fun _ _ h => h.issue) fun _ _ _ h => h
    obtain ⟨u, w1, hr1, hp1, h1⟩ := phase_tag (by omega) w.wr.nextPos h0
    obtain ⟨u2, w2, hr2, hp2, h2⟩ := h1.event (pos := w.wr.nextPos) (hv 1012)
    refine ⟨w2, ?_, h2⟩
    simp only [List.range'_succ, List.range'_zero, List.map_cons, List.map_nil, appendValues, ev3, insertTags]
    simp only [pageBackend, PW.run]
    have e1 : (issuePosition w.wr).1 = w.wr.nextPos := rfl
    rw [e1, hr1]
    simp only [hr2]
    rw [hp]
  | succ m ih =>
    intro n last w hn hP hp
    have h0 : Phase n (issuePosition w.wr).2 := hP.keep rfl (fun _ _ h => h.issue) fun _ _ _ h => h
    obtain ⟨u, w1, hr1, hp1, h1⟩ := phase_tag (by omega) w.wr.nextPos h0
    obtain ⟨u2, w2, hr2, hp2, h2⟩ := h1.event (pos := w.wr.nextPos) (hv n)
    obtain ⟨w', g1, g2⟩ := ih (n + 1) w.wr.nextPos { w with wr := w2 } (by omega) h2 (by
      show w2.nextPos = _
      rw [hp2, hp1]; show w.wr.nextPos + 1 = _; omega)
    refine ⟨w', ?_, g2⟩
    rw [List.range'_succ]
    simp only [List.map_cons, appendValues, ev3, insertTags]
    simp only [ev3] at g1
    have e1 : (issuePosition w.wr).1 = w.wr.nextPos := rfl
    simp only [pageBackend, PW.run] at g1 ⊢
    rw [e1, hr1]
    simp only [hr2]
    exact g1

/-- One request with the events numbered 0 to 1012. -/
def job3 : Job := ⟨1, ⟨(List.range 1013).map ev3, none, none⟩, noCancel⟩

theorem ev3_valid (i : Nat) : ∃ v, validateEvent 4096 ⟨ev3 i, none⟩ = .ok v := by
  have h : ∀ t, t = "a" ∨ t = "b" ∨ t = "c" → ∃ v, validateEvent 4096 ⟨⟨"T", [], [t], none, []⟩, none⟩ = .ok v := by
    rintro t (rfl | rfl | rfl) <;> exact ⟨_, rfl⟩
  refine h _ ?_
  unfold tag3
  split
  · exact .inl rfl
  · split
    · exact .inr (.inl rfl)
    · exact .inr (.inr rfl)

theorem validateAll_map {v : Nat → (EventValue × Nat) × Option (EventValue × Nat)} (hv : ∀ i, validateEvent 4096 ⟨ev3 i, none⟩ = .ok (v i)) :
    ∀ l : List Nat, validateAll (pageBackend exConf) (l.map fun i => ⟨ev3 i, none⟩) = .ok (l.map fun i => (⟨ev3 i, none⟩, v i))
  | [] => rfl
  | i :: l => by
    have h : (pageBackend exConf).validate ⟨ev3 i, none⟩ = .ok (v i) := hv i
    simp only [List.map_cons, validateAll, h, validateAll_map hv l]

open Classical in
/-- C27 fails for leaf pages of the tag index: one request with 1013 small events, each with one of three tags, is accepted, but
the commit fails whatever the disk does, because the page with the tags "b" and "c" (4103 bytes) is larger than the page size
(4096). -/
theorem C27_tags_leaf_false : ∃ (d : PDb) (b : Batch PW), (pageLawful exConf_ok tag3Env_width).RepD d Spec.Db.empty ∧
    Builds (pageBackend exConf) tag3Env 2048 0 d job3 [] b [] ∧
    b.abort = none ∧ b.results = [.ok 1013] ∧ ∀ io : Page.IO, ∃ e d', PW.commit exConf io b.w = (.error e, d') := by
  obtain ⟨m, f, hcr, h2, -, -, h5⟩ := Props.C47_create (g := exConf.g) ⟨by decide, by decide⟩ false
  obtain ⟨m', f', hcr', hl⟩ := create_live exConf_ok tag3Env.H
  rw [show create exConf.g exConf.zeroFill emptyFile = (.ok m, f) from hcr] at hcr'
  cases hcr'
  have hd : (pageLawful exConf_ok tag3Env_width).RepD (.fresh f m f [] none) Spec.Db.empty := hl none
  obtain ⟨w, hb, hreused, T⟩ := (live_initial exConf_ok tag3Env.H h2 h5 f [] none).begin
  choose v hv using ev3_valid
  have hP : Phase 0 w := by
    obtain ⟨K, hK, he, hPE, -⟩ := T.trees.events
    obtain ⟨K2, hK2, he2, hPT, -⟩ := T.trees.tags
    obtain ⟨n, hn, -⟩ := hK2.tr.root
    rw [← hPT, Multiset.mem_singleton] at hn
    have hroot : w.tagsRoot = 4 := by rw [he2]; exact congrArg Prod.fst hn
    unfold Phase
    rw [if_pos rfl]
    refine ⟨_, _, {(2, .freeLeaf [] [])} + 0, K, hK.tr, he, T.inv.wkw, T.inv.wps, T.inv.own.congr ?_⟩
    rw [hroot, ← hPE]
    abel
  obtain ⟨w', hval, hP'⟩ := phase_values hv 1012 0 0 ⟨.fresh f m f [] none, ⟨0, .header initialHeader⟩, w⟩ rfl hP T.nextPos
  have hs : stepJob (pageBackend exConf) tag3Env (Batch.new ⟨.fresh f m f [] none, ⟨0, .header initialHeader⟩, w⟩) job3 =
      .ok ⟨⟨.fresh f m f [] none, ⟨0, .header initialHeader⟩, w'⟩, [1], [.ok 1013], none, 1013⟩ := by
    have h1 : processAppend (pageBackend exConf) tag3Env job3.req job3.cancel ⟨.fresh f m f [] none, ⟨0, .header initialHeader⟩, w⟩ =
        (.ok 1013, ⟨.fresh f m f [] none, ⟨0, .header initialHeader⟩, w'⟩) := by
      unfold processAppend
      have : ∀ x, checkCondition tag3Env x job3.req job3.cancel = none := fun _ => rfl
      rw [this]
      simp only [job3, List.map_map, Function.comp_def]
      rw [validateAll_map hv]
      simp only [applyRequest]
      rw [if_neg (by simp), List.range_eq_range']
      exact hval
    unfold stepJob
    simp only [Batch.new, h1]
    simp [job3]
  have hB : Builds (pageBackend exConf) tag3Env 2048 0 (.fresh f m f [] none) job3 []
      ⟨⟨.fresh f m f [] none, ⟨0, .header initialHeader⟩, w'⟩, [1], [.ok 1013], none, 1013⟩ [] := ⟨_, _, hb, hs, rfl⟩
  refine ⟨_, _, hd, hB, rfl, rfl, ?_⟩
  have ha : AfterOkAll [.append job3] := by
    intro j hj cc hcc
    simp only [appendJobs, List.mem_singleton] at hj
    subst hj
    cases hcc
  unfold Phase at hP'
  rw [if_neg (by decide), if_neg (by decide), if_neg (by decide), if_neg (by decide)] at hP'
  obtain ⟨p, l, x, hl3, hhas, hdirty⟩ := hP'
  obtain ⟨A, X, Q, K, -, -, -, -, hown⟩ := hhas
  refine commit_overfull exConf_ok tag3Env_width ⟨fun l => List.Perm.refl l⟩ hd ha hB rfl (n := .tagsLeaf [2, 3] [⟨0, l⟩, ⟨0, [x]⟩])
    (hown.dirty_eq (by simp) hdirty) ?_ ?_
  · have : l ≠ [] := by rintro rfl; simp at hl3
    simp [splitByCount, this]
  · rw [size2, hl3]
    show 4096 < 63 + 504 * 8 + 1 * 8
    omega

end Uma.Props
