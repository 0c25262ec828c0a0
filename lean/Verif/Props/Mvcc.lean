import Verif.Mvcc.Registry
import Verif.Mvcc.Extents
import Verif.Mvcc.Open

/-!
# Properties of the storage layer: C28, C41, C42, C22, C43 (width), C47
-/

namespace Uma.Props
open Uma.Codec Uma.Mvcc

/-! ## C28 -/

/-- What happens to the registry: a reader at some transaction number is opened or closed. -/
inductive RegOp where
  | opened (tsn : Nat)
  | closed (tsn : Nat)

/-- The live readers' transaction numbers, as a bag. -/
def liveReaders : List RegOp → List Nat
  | [] => []
  | .opened t :: ops => t :: liveReaders ops
  | .closed t :: ops => (liveReaders ops).erase t

/-- The registry after the same operations (latest first). -/
def registryAfter : List RegOp → Registry
  | [] => []
  | .opened t :: ops => Registry.register t (registryAfter ops)
  | .closed t :: ops => Registry.unregister t (registryAfter ops)

theorem registry_tracks (ops : List RegOp) :
    (registryAfter ops).WF ∧ ∀ t, Registry.count t (registryAfter ops) = (liveReaders ops).count t := by
  induction ops with
  | nil => exact ⟨Registry.WF.nil, fun t => rfl⟩
  | cons op ops ih =>
    obtain ⟨hw, hc⟩ := ih
    cases op with
    | opened t =>
      refine ⟨hw.register t, fun s => ?_⟩
      simp only [registryAfter, liveReaders]
      rw [Registry.count_register hw, hc s, List.count_cons]
      by_cases h : s = t <;> simp [h, Ne.symm]
    | closed t =>
      refine ⟨hw.unregister t, fun s => ?_⟩
      simp only [registryAfter, liveReaders]
      rw [Registry.count_unregister hw, hc s, List.count_erase]
      by_cases h : s = t <;> simp [h, Ne.symm]

/-- C28: after every sequence of opens and closes the registry's minimum is the least transaction number among the live
readers, `none` if there are none; readers at the same number are counted separately. -/
theorem C28 (ops : List RegOp) :
    (registryAfter ops).min = (liveReaders ops).min? ∧
    ∀ t, Registry.count t (registryAfter ops) = (liveReaders ops).count t := by
  obtain ⟨hw, hc⟩ := registry_tracks ops
  refine ⟨?_, hc⟩
  rcases Registry.min_spec hw with ⟨h1, h2⟩ | ⟨t, h1, h2, h3⟩
  · rw [h1]
    have : liveReaders ops = [] := by
      cases hl : liveReaders ops with
      | nil => rfl
      | cons a l =>
        have := (hc a).symm.trans (h2 a)
        rw [hl] at this
        simp at this
    rw [this]; rfl
  · rw [h1]
    symm
    rw [List.min?_eq_some_iff]
    refine ⟨?_, fun b hb => h3 b ?_⟩
    · rw [hc] at h2; exact List.count_pos_iff.mp h2
    · rw [hc]; exact List.count_pos_iff.mpr hb

/-- Two readers at 5: closing one keeps 5 the minimum. -/
example : (registryAfter [.closed 5, .opened 7, .opened 5, .opened 5]).min = some 5 ∧
    (registryAfter [.closed 5, .closed 5, .opened 7, .opened 5, .opened 5]).min = some 7 := by decide +kernel

/-! ## C41 -/

/-- Consecutive page ids, at least one. -/
def Consecutive (e : List (Nat × Nat)) : Prop :=
  e ≠ [] ∧ ∀ i a b, e[i]? = some a → e[i + 1]? = some b → b.1 = a.1 + 1

/-- C41: the recyclable pages are handed out as a rearrangement of exactly the recyclable pages, cut into runs of
consecutive ids, longer runs first (lower start first among equals), and no two runs could be joined. -/
theorem C41 (pages : List (Nat × Nat)) (hn : (pages.map (·.1)).Nodup) :
    (optimize pages).Perm pages ∧
    ∃ runs : List (List (Nat × Nat)), optimize pages = runs.flatten ∧
      (∀ r ∈ runs, Consecutive r) ∧
      runs.Pairwise (fun a b => b.length < a.length ∨
        (a.length = b.length ∧ ∀ x ∈ a.head?, ∀ y ∈ b.head?, x.1 ≤ y.1)) ∧
      ∀ a ∈ runs, ∀ b ∈ runs, ∀ x ∈ a, ∀ y ∈ b, y.1 = x.1 + 1 → a = b := by
  refine ⟨optimize_perm pages, extents pages, rfl, ?_, ?_, ?_⟩
  · intro r hr
    have := (sortBy_perm extentLe _).mem_iff.mp hr
    exact groupExtents_run [] [] _ (by simp) (.inl rfl) r this
  · have hs := sortBy_sorted extentLe_trans extentLe_total (groupExtents [] [] (sortBy byPage pages))
    refine hs.imp ?_
    intro a b hab
    unfold extentLe at hab
    split at hab
    · rename_i h
      refine .inr ⟨h, fun x hx y hy => ?_⟩
      simpa [startOf, Option.mem_def.mp hx, Option.mem_def.mp hy] using hab
    · exact .inl (by simpa using hab)
  · have hle : (sortBy byPage pages).Pairwise (fun a b => a.1 ≤ b.1) := by
      have := sortBy_sorted (le := byPage) (fun a b c h1 h2 => by simp [byPage] at *; omega)
        (fun a b => by simp [byPage]; omega) pages
      exact this.imp fun h => by simpa [byPage] using h
    have hne : (sortBy byPage pages).Pairwise (fun a b => a.1 ≠ b.1) := by
      have := ((sortBy_perm byPage pages).map (·.1)).nodup_iff.mpr hn
      exact List.pairwise_map.mp this
    have hlt : (sortBy byPage pages).Pairwise (fun a b => a.1 < b.1) := by
      have := hle.and hne
      exact this.imp fun h => by omega
    have hgap := groupExtents_gap [] [] (sortBy byPage pages) (by simpa using hlt) .nil (by simp) (.inr rfl)
    intro a ha b hb x hx y hy hxy
    have ha' := (sortBy_perm extentLe _).mem_iff.mp ha
    have hb' := (sortBy_perm extentLe _).mem_iff.mp hb
    apply Classical.byContradiction
    intro hab
    obtain ⟨i, hi, rfl⟩ := List.mem_iff_getElem.mp ha'
    obtain ⟨j, hj, rfl⟩ := List.mem_iff_getElem.mp hb'
    rcases Nat.lt_trichotomy i j with h | h | h
    · have := List.pairwise_iff_getElem.mp hgap i j hi hj h x hx y hy
      omega
    · subst h; exact hab rfl
    · have := List.pairwise_iff_getElem.mp hgap j i hj hi h y hy x hx
      omega

example : optimize [(9, 1), (4, 2), (20, 1), (5, 1), (10, 3), (6, 2)] =
    [(4, 2), (5, 1), (6, 2), (9, 1), (10, 3), (20, 1)] := by decide +kernel
example : optimize [(3, 1), (8, 1), (7, 1)] = [(7, 1), (8, 1), (3, 1)] := by decide +kernel

/-! ## C42 -/

/-- C42: the bytes of the file outside the slots of the batch's pages are never touched, even if serializing a page fails
halfway; the file never shrinks. -/
theorem C42_nothing_else (g : Pager) (kw : Nat) (zero : Bool) (pages : List (Nat × Node)) (f : File) (hz : f.Zeroed)
    (hn : (pages.map (·.1)).Nodup) (i : Nat)
    (hi : ∀ p ∈ pages, ¬ (p.1 * g.pageSize ≤ i ∧ i < p.1 * g.pageSize + g.pageSize)) :
    (writePages g kw zero pages f).2.byte i = f.byte i ∧ f.len ≤ (writePages g kw zero pages f).2.len := by
  have hp : (chunkBy adjacent (sortBy byId pages)).flatten.Perm pages := by
    rw [chunkBy_flatten]; exact sortBy_perm _ _
  obtain ⟨h1, -, h3, -⟩ := writeChunks_spec g kw zero (chunkBy adjacent (sortBy byId pages)) 0 f hz
    (chunkBy_chunk _) ((hp.map (·.1)).nodup_iff.mpr hn)
  refine ⟨h1 i ?_, h3⟩
  rw [covered_perm hp]
  rintro ⟨p, hpm, h⟩
  exact hi p hpm h

/-- C42: if every page of the batch fits, the write succeeds, reports the number of pages, and every page reads back at
its own page id. -/
theorem C42_all_written {g : Pager} {kw : Nat} (hk : kw ≤ 16) (hps : g.pageSize ≤ 2 ^ 32) (zero : Bool)
    (pages : List (Nat × Node)) (f : File) (hz : f.Zeroed) (hn : (pages.map (·.1)).Nodup)
    (hfit : ∀ p ∈ pages, NodeFits kw p.2 ∧ pageSizeOf kw p.2 ≤ g.pageSize) :
    (writePages g kw zero pages f).1 = .ok pages.length ∧
    ∀ p ∈ pages, readPage g kw p.1 (writePages g kw zero pages f).2 = .ok p.2 := by
  have hp : (chunkBy adjacent (sortBy byId pages)).flatten.Perm pages := by
    rw [chunkBy_flatten]; exact sortBy_perm _ _
  obtain ⟨-, -, -, h4⟩ := writeChunks_spec g kw zero (chunkBy adjacent (sortBy byId pages)) 0 f hz
    (chunkBy_chunk _) ((hp.map (·.1)).nodup_iff.mpr hn)
  have hser : ∀ p ∈ pages, ∃ b, serializePage kw (List.replicate g.pageSize 0) zero p.2 = .ok b := by
    intro p hpm
    obtain ⟨h1, h2⟩ := hfit p hpm
    exact serialize_ok hk (shapeOk_of_fits h1) (keysTooLong_of_fits h1) (by simpa using h2)
  obtain ⟨h5, h6⟩ := h4 fun p hpm => hser p (hp.mem_iff.mp hpm)
  refine ⟨by rw [writePages, h5, hp.length_eq, Nat.zero_add], fun p hpm => ?_⟩
  obtain ⟨b, hb, hs⟩ := h6 p (hp.mem_iff.mpr hpm)
  obtain ⟨hd, hl⟩ := deserialize_serialize hk (hfit p hpm).1 (by simpa using hps) hb
  exact deserialize_slot (by simpa using hl) hs hd

/-- Three pages, two of them adjacent, given out of order. -/
example : (writePages ⟨64, 8⟩ 16 true [(5, .tagLeaf [1]), (2, .tagLeaf []), (4, .tagLeaf [7, 8])] emptyFile).1 = .ok 3 ∧
    readPage ⟨64, 8⟩ 16 4 (writePages ⟨64, 8⟩ 16 true
      [(5, .tagLeaf [1]), (2, .tagLeaf []), (4, .tagLeaf [7, 8])] emptyFile).2 = .ok (.tagLeaf [7, 8]) := by
  decide +kernel

/-! ## C22: opening and the headers -/

/-- A page other than a header page that can be read and is of a certain kind. -/
def Holds (g : Pager) (kw : Nat) (f : File) (id : Nat) (P : Node → Prop) : Prop :=
  2 ≤ id ∧ ∃ n, readPage g kw id f = .ok n ∧ P n

/-- What opening requires of a header: a known schema, and root pages of the right kinds, decoded with the tag key width
the schema calls for. -/
structure Usable (g : Pager) (f : File) (h : Header) (kw : Nat) : Prop where
  schema : (h.schema = 0 ∧ kw = 8) ∨ (h.schema = 1 ∧ kw = 16)
  free : Holds g kw f h.freeRoot fun n => (∃ k v, n = .freeLeaf k v) ∨ ∃ k c, n = .freeInternal k c
  tags : Holds g kw f h.tagsRoot fun n => (∃ k v, n = .tagsLeaf k v) ∨ ∃ k c, n = .tagsInternal k c
  events : Holds g kw f h.eventsRoot fun n => (∃ k v, n = .eventLeaf k v) ∨ ∃ k c, n = .eventInternal k c
  tracking : h.trackRoot = 0 ∨
    Holds g kw f h.trackRoot fun n => (∃ k v, n = .trackLeaf k v) ∨ ∃ k c, n = .trackInternal k c

theorem checkRoot_ok {g : Pager} {kw : Nat} {f : File} {id : Nat} {ok : Node → Bool} {P : Node → Prop}
    (hP : ∀ n, ok n = true ↔ P n) : checkRoot g kw f id ok = .ok () ↔ Holds g kw f id P := by
  unfold checkRoot readBodyPage Holds
  simp only [bind, Except.bind]
  by_cases h : id = 0 ∨ id = 1
  · rw [if_pos h]
    simp
    omega
  · rw [if_neg h]
    cases hr : readPage g kw id f with
    | error e => simp
    | ok n =>
      simp only [Except.ok.injEq, exists_eq_left', ← hP]
      by_cases hn : ok n = true
      · simp [hn]; omega
      · simp [hn]

theorem isFreePage_iff (n : Node) : isFreePage n = true ↔ (∃ k v, n = .freeLeaf k v) ∨ ∃ k c, n = .freeInternal k c := by
  cases n <;> simp [isFreePage]
theorem isTagsPage_iff (n : Node) : isTagsPage n = true ↔ (∃ k v, n = .tagsLeaf k v) ∨ ∃ k c, n = .tagsInternal k c := by
  cases n <;> simp [isTagsPage]
theorem isEventsPage_iff (n : Node) :
    isEventsPage n = true ↔ (∃ k v, n = .eventLeaf k v) ∨ ∃ k c, n = .eventInternal k c := by
  cases n <;> simp [isEventsPage]
theorem isTrackingPage_iff (n : Node) :
    isTrackingPage n = true ↔ (∃ k v, n = .trackLeaf k v) ∨ ∃ k c, n = .trackInternal k c := by
  cases n <;> simp [isTrackingPage]

theorem bind_ok_iff {α β} {x : Except Err α} {k : α → Except Err β} {b : β} :
    (x >>= k) = .ok b ↔ ∃ a, x = .ok a ∧ k a = .ok b := by
  cases x <;> simp [bind, Except.bind]

theorem checkDatabase_ok {g : Pager} {f : File} {h : Header} {kw : Nat} :
    checkDatabase g f h = .ok kw ↔ Usable g f h kw := by
  unfold checkDatabase
  by_cases hs : h.schema > dbSchemaVersion
  · rw [if_pos hs]
    simp only [reduceCtorEq, false_iff]
    intro hu
    have := hu.schema
    simp only [dbSchemaVersion] at hs
    omega
  rw [if_neg hs]
  simp only [dbSchemaVersion] at hs
  by_cases ht : h.schema = 1 ∧ (readBodyPage g tagHashLen h.tagsRoot f).toOption.isNone
  · simp only
    rw [if_pos ht]
    simp only [reduceCtorEq, false_iff]
    intro hu
    obtain ⟨h1, h2⟩ := ht
    have hk : kw = 16 := by have := hu.schema; omega
    subst hk
    obtain ⟨ht1, n, ht2, -⟩ := hu.tags
    unfold readBodyPage at h2
    rw [if_neg (by omega)] at h2
    simp only [tagHashLen] at h2
    rw [ht2] at h2
    simp [Except.toOption] at h2
  · simp only
    rw [if_neg ht]
    simp only [bind_ok_iff]
    have key : ∀ w, ((h.schema = 0 ∧ w = 8) ∨ (h.schema = 1 ∧ w = 16)) ↔ widthFor h.schema = w := by
      intro w
      unfold widthFor tagHashLen
      split <;> omega
    constructor
    · rintro ⟨_, h1, _, h2, _, h3, _, h4, h5⟩
      simp only [Except.ok.injEq] at h5
      rw [h5] at h1 h2 h3 h4
      refine ⟨(key kw).mpr h5, (checkRoot_ok isFreePage_iff).mp h1, (checkRoot_ok isTagsPage_iff).mp h2,
        (checkRoot_ok isEventsPage_iff).mp h3, ?_⟩
      by_cases h0 : h.trackRoot = 0
      · exact .inl h0
      · unfold checkTracking at h4
        rw [if_pos h0] at h4
        exact .inr ((checkRoot_ok isTrackingPage_iff).mp h4)
    · rintro ⟨h1, h2, h3, h4, h5⟩
      have h1 := (key kw).mp h1
      rw [h1]
      refine ⟨(), (checkRoot_ok isFreePage_iff).mpr h2, (), (checkRoot_ok isTagsPage_iff).mpr h3, (),
        (checkRoot_ok isEventsPage_iff).mpr h4, (), ?_, rfl⟩
      unfold checkTracking
      by_cases h0 : h.trackRoot = 0
      · rw [if_neg (by simpa using h0)]
      · rw [if_pos h0]
        exact (checkRoot_ok isTrackingPage_iff).mpr (h5.resolve_left h0)

/-- The state in use: the header last found or committed is `h`, it is the one in slot `i` of the file, and the tag key
width is that of its schema. -/
structure Current (g : Pager) (f : File) (m : Opened) (i : Nat) (h : Header) : Prop where
  slot : i = 0 ∨ i = 1
  pinned : latestPage m.h0 m.h1 = .ok ⟨i, .header h⟩
  onDisk : readPage g m.kw i f = .ok (.header h)
  width : m.kw = if h.schema = 0 then 8 else 16
  zeroed : f.Zeroed

/-- C22: both headers intact: the one with the higher transaction number is used, and nothing is written. -/
theorem C22_newest (g : Pager) (kw0 : Nat) (zero : Bool) (f : File) (hz : f.Zeroed) {a b : Header}
    (h0 : readPage g kw0 0 f = .ok (.header a)) (h1 : readPage g kw0 1 f = .ok (.header b)) :
    (openExisting g kw0 zero f).2 = f ∧
    (∀ m, (openExisting g kw0 zero f).1 = .ok m →
      if b.tsn > a.tsn then Current g f m 1 b else Current g f m 0 a) ∧
    ((∃ m, (openExisting g kw0 zero f).1 = .ok m) ↔ ∃ kw, Usable g f (if b.tsn > a.tsn then b else a) kw) := by
  have e : openExisting g kw0 zero f = (do
      let p ← latestPage ⟨0, .header a⟩ ⟨1, .header b⟩
      let h ← asHeader p.node
      let kw ← checkDatabase g f h
      .ok ⟨⟨0, .header a⟩, ⟨1, .header b⟩, kw⟩, f) := by
    unfold openExisting openHeaders
    rw [h0, h1]
  rw [e]
  have hl : latestPage ⟨0, .header a⟩ ⟨1, .header b⟩ =
      .ok (if b.tsn > a.tsn then ⟨1, .header b⟩ else ⟨0, .header a⟩) := by
    simp only [latestPage, asHeader, bind, Except.bind]
    split <;> rfl
  simp only [hl, bind_ok_iff]
  by_cases hc : b.tsn > a.tsn
  · simp only [hc, if_true, asHeader, Except.ok.injEq, exists_eq_left', checkDatabase_ok]
    refine ⟨trivial, ?_, ?_⟩
    · rintro m ⟨kw, hu, rfl⟩
      refine ⟨.inr rfl, ?_, readPage_header_width h1 _, ?_, hz⟩
      · rw [hl, if_pos hc]
      · have := hu.schema
        simp only
        split <;> omega
    · constructor
      · rintro ⟨m, kw, hu, -⟩; exact ⟨kw, hu⟩
      · rintro ⟨kw, hu⟩; exact ⟨_, kw, hu, rfl⟩
  · simp only [hc, if_false, asHeader, Except.ok.injEq, exists_eq_left', checkDatabase_ok]
    refine ⟨trivial, ?_, ?_⟩
    · rintro m ⟨kw, hu, rfl⟩
      refine ⟨.inl rfl, ?_, readPage_header_width h0 _, ?_, hz⟩
      · rw [hl, if_neg hc]
      · have := hu.schema
        simp only
        split <;> omega
    · constructor
      · rintro ⟨m, kw, hu, -⟩; exact ⟨kw, hu⟩
      · rintro ⟨kw, hu⟩; exact ⟨_, kw, hu, rfl⟩

/-- C22: one header damaged: the other one is used, it is copied over the damaged one, and no other byte changes. -/
theorem C22_repair {g : Pager} (hps : 71 ≤ g.pageSize ∧ g.pageSize ≤ 2 ^ 32) {kw0 : Nat} (hk : kw0 ≤ 16) (zero : Bool)
    (f : File) (hz : f.Zeroed) {good bad : Nat} (hgb : (good = 0 ∧ bad = 1) ∨ (good = 1 ∧ bad = 0)) {a : Header} {e : Err}
    (h0 : readPage g kw0 good f = .ok (.header a)) (h1 : readPage g kw0 bad f = .error e) :
    ∃ f', (openExisting g kw0 zero f).2 = f' ∧
      (∀ kw, readPage g kw good f' = .ok (.header a) ∧ readPage g kw bad f' = .ok (.header a)) ∧
      (∀ i, i < bad * g.pageSize ∨ bad * g.pageSize + g.pageSize ≤ i → f'.byte i = f.byte i) ∧
      (∀ m, (openExisting g kw0 zero f).1 = .ok m → Current g f' m good a) ∧
      ((∃ m, (openExisting g kw0 zero f).1 = .ok m) ↔ ∃ kw, Usable g f' a kw) ∧
      (∀ kw, Usable g f a kw → Usable g f' a kw) ∧ f.len ≤ f'.len := by
  have hfit := readPage_header_fits h0 kw0
  have hne : good ≠ bad := by omega
  have main : ∃ f', Wrote g kw0 bad (.header a) f f' ∧ openExisting g kw0 zero f = (do
      let p ← latestPage ⟨good, .header a⟩ ⟨good, .header a⟩
      let h ← asHeader p.node
      let kw ← checkDatabase g f' h
      .ok ⟨⟨good, .header a⟩, ⟨good, .header a⟩, kw⟩, f') := by
    obtain ⟨b, hb⟩ := header_serializes hk (buf := List.replicate g.pageSize 0) (by simp; exact hps.1) zero a
    rcases hgb with ⟨rfl, rfl⟩ | ⟨rfl, rfl⟩
    · obtain ⟨f', hw, hwr⟩ := writeOnePage_spec (id := 1) hk (by simp) hps.2 hz hfit hb
      refine ⟨f', hwr, ?_⟩
      unfold openExisting openHeaders
      rw [h0, h1]
      simp only [hw]
    · have hbl : b.length = g.pageSize := by rw [serializePage_length hb]; simp
      obtain ⟨b', hb'⟩ := header_serializes hk (buf := b) (by omega) zero a
      obtain ⟨f', hw, hwr⟩ := writeOnePage_spec (id := 0) hk hbl hps.2 hz hfit hb'
      refine ⟨f', hwr, ?_⟩
      unfold openExisting openHeaders
      rw [h0, h1]
      simp only [hb, hw]
  obtain ⟨f', hwr, he⟩ := main
  have hl : latestPage ⟨good, .header a⟩ ⟨good, .header a⟩ = .ok ⟨good, .header a⟩ := by
    simp [latestPage, asHeader, bind, Except.bind]
  have hgood : ∀ kw, readPage g kw good f' = .ok (.header a) := fun kw => readPage_header_width (hwr.keep hne h0) kw
  refine ⟨f', by rw [he], fun kw => ⟨hgood kw, readPage_header_width hwr.read kw⟩, hwr.other, ?_, ?_, ?_, hwr.len⟩
  · intro m hm
    rw [he] at hm
    simp only [hl, bind_ok_iff, asHeader, Except.ok.injEq, exists_eq_left', checkDatabase_ok] at hm
    obtain ⟨kw, hu, rfl⟩ := hm
    refine ⟨by omega, hl, hgood _, ?_, hwr.zeroed⟩
    have := hu.schema
    simp only
    split <;> omega
  · rw [he]
    simp only [hl, bind_ok_iff, asHeader, Except.ok.injEq, exists_eq_left', checkDatabase_ok]
    constructor
    · rintro ⟨m, kw, hu, -⟩; exact ⟨kw, hu⟩
    · rintro ⟨kw, hu⟩; exact ⟨_, kw, hu, rfl⟩
  · intro kw hu
    have keep : ∀ {id P}, Holds g kw f id P → Holds g kw f' id P := by
      rintro id P ⟨h2, n, hr, hp⟩
      exact ⟨h2, n, hwr.keep (by omega) hr, hp⟩
    exact ⟨hu.schema, keep hu.free, keep hu.tags, keep hu.events, hu.tracking.imp id keep⟩

/-- C22: both headers damaged: opening fails and nothing is written. -/
theorem C22_both_damaged (g : Pager) (kw0 : Nat) (zero : Bool) (f : File) {e e' : Err}
    (h0 : readPage g kw0 0 f = .error e) (h1 : readPage g kw0 1 f = .error e') :
    openExisting g kw0 zero f = (.error e, f) := by
  unfold openExisting openHeaders
  rw [h0, h1]

theorem latestPage_error_left {h0 h1 : HPage} (h : ¬ IsHeader h0.node) : ∃ e, latestPage h0 h1 = .error e := by
  unfold latestPage
  cases hn : h0.node <;> simp [hn, IsHeader] at h <;> exact ⟨_, rfl⟩

theorem latestPage_error_right {h0 h1 : HPage} (h : ¬ IsHeader h1.node) : ∃ e, latestPage h0 h1 = .error e := by
  unfold latestPage
  cases asHeader h0.node with
  | error e => exact ⟨e, rfl⟩
  | ok a => cases hn : h1.node <;> simp [hn, IsHeader] at h <;> exact ⟨_, rfl⟩

/-- C22: a slot holding an intact page that is not a header makes opening fail, whatever the other slot holds. -/
theorem C22_not_a_header (g : Pager) (kw0 : Nat) (zero : Bool) (f : File) {i : Nat} (hi : i = 0 ∨ i = 1) {n : Node}
    (hn : ∀ h, n ≠ .header h) (hr : readPage g kw0 i f = .ok n) : ∃ e, (openExisting g kw0 zero f).1 = .error e := by
  have hnh : ¬ IsHeader n := by
    cases n <;> first | exact id | exact absurd rfl (hn _)
  have hbad : ∀ h0 h1 f', (¬ IsHeader h0.node ∨ ¬ IsHeader h1.node) → ∃ e, (do
      let p ← latestPage h0 h1
      let h ← asHeader p.node
      let kw ← checkDatabase g f' h
      .ok (⟨h0, h1, kw⟩ : Opened)) = Except.error (ε := Err) e := by
    intro h0 h1 f' hor
    obtain ⟨e, he⟩ := hor.elim latestPage_error_left latestPage_error_right
    exact ⟨e, by rw [he]; rfl⟩
  unfold openExisting openHeaders
  rcases hi with rfl | rfl
  · rw [hr]
    cases h1 : readPage g kw0 1 f with
    | ok n1 => exact hbad _ _ _ (.inl hnh)
    | error e =>
      simp only
      rcases hw : writeOnePage g kw0 (List.replicate g.pageSize 0) zero 1 n f with ⟨r, f'⟩
      cases r with
      | error e => exact ⟨e, rfl⟩
      | ok u => exact hbad _ _ _ (.inl hnh)
  · cases h0 : readPage g kw0 0 f with
    | ok n0 => rw [hr]; exact hbad _ _ _ (.inr hnh)
    | error e =>
      rw [hr]
      simp only
      cases hs : serializePage kw0 (List.replicate g.pageSize 0) zero n with
      | error e => exact ⟨e, rfl⟩
      | ok buf =>
        simp only
        rcases hw : writeOnePage g kw0 buf zero 0 n f with ⟨r, f'⟩
        cases r with
        | error e => exact ⟨e, rfl⟩
        | ok u => exact hbad _ _ _ (.inl hnh)

/-- The header a transaction writes. -/
def nextHeader (h : Header) (w : NewRoots) : Header :=
  ⟨w.tsn, w.freeRoot, w.eventsRoot, w.tagsRoot, w.nextPage, w.nextPosition, h.schema, w.trackRoot⟩

/-- C22: committing a transaction with a higher number writes its header to the slot that does not hold the current one,
leaves every other byte alone - in particular the current header -, and makes it current. -/
theorem C22_alternates {g : Pager} (hps : 71 ≤ g.pageSize ∧ g.pageSize ≤ 2 ^ 32) {f : File} {m : Opened} {i : Nat}
    {h : Header} (hc : Current g f m i h) {buf : Bytes} (hb : buf.length = g.pageSize) (zero : Bool) {w : NewRoots}
    (hw : h.tsn < w.tsn) (hf : NodeFits 16 (.header (nextHeader h w))) :
    ∃ m' f', commitHeader g buf zero w m f = (.ok m', f') ∧ Current g f' m' (1 - i) (nextHeader h w) ∧
      readPage g m'.kw i f' = .ok (.header h) ∧
      ∀ j, j < (1 - i) * g.pageSize ∨ (1 - i) * g.pageSize + g.pageSize ≤ j → f'.byte j = f.byte j := by
  have hk : m.kw ≤ 16 := by rw [hc.width]; split <;> omega
  obtain ⟨b, hbs⟩ := header_serializes hk (by omega : 71 ≤ buf.length) zero (nextHeader h w)
  obtain ⟨f', hwo, hwr⟩ := writeOnePage_spec (id := 1 - i) (n := .header (nextHeader h w)) hk hb hps.2 hc.zeroed hf hbs
  have hid : (if i = 0 then 1 else 0) = 1 - i := by rcases hc.slot with rfl | rfl <;> rfl
  have hcow : (do let p ← latestPage m.h0 m.h1; cowHeader p w) = .ok ⟨1 - i, .header (nextHeader h w)⟩ := by
    rw [hc.pinned]
    simp only [bind, Except.bind, cowHeader, asHeader, hid]
    rfl
  have hne : i ≠ 1 - i := by rcases hc.slot with rfl | rfl <;> decide
  have hkeep := hwr.keep hne hc.onDisk
  have hkw : ∀ p, (pinHeader p m).kw = m.kw := by intro p; unfold pinHeader; split <;> rfl
  refine ⟨pinHeader ⟨1 - i, .header (nextHeader h w)⟩ m, f', ?_, ⟨?_, ?_, ?_, ?_, hwr.zeroed⟩, ?_, hwr.other⟩
  · unfold commitHeader
    rw [hcow]
    simp only [hwo]
  · rcases hc.slot with rfl | rfl <;> simp
  · have hp := hc.pinned
    unfold latestPage at hp
    cases e0 : asHeader m.h0.node with
    | error e => rw [e0] at hp; cases hp
    | ok a =>
      cases e1 : asHeader m.h1.node with
      | error e => rw [e0, e1] at hp; cases hp
      | ok c =>
        rw [e0, e1] at hp
        simp only [bind, Except.bind] at hp
        have hmax : a.tsn ≤ h.tsn ∧ c.tsn ≤ h.tsn := by
          split at hp
          · simp only [Except.ok.injEq] at hp
            rw [hp] at e1
            simp only [asHeader, Except.ok.injEq] at e1
            subst e1
            omega
          · simp only [Except.ok.injEq] at hp
            rw [hp] at e0
            simp only [asHeader, Except.ok.injEq] at e0
            subst e0
            omega
        rcases hc.slot with rfl | rfl
        · simp only [pinHeader, latestPage, bind, Except.bind]
          rw [if_neg (by simp), e0]
          simp only [asHeader]
          rw [if_pos (show (nextHeader h w).tsn > a.tsn by simp only [nextHeader]; omega)]
        · simp only [pinHeader, latestPage, bind, Except.bind]
          rw [if_pos (by simp), e1]
          simp only [asHeader]
          rw [if_neg (show ¬ c.tsn > (nextHeader h w).tsn by simp only [nextHeader]; omega)]
  · rw [hkw]; exact hwr.read
  · rw [hkw, hc.width]; rfl
  · rw [hkw]; exact hkeep

/-! ## C43: tag key width, C47: creation -/

/-- C43: an opened database uses the tag key width of its schema version, and (`C22_alternates`) commits keep the schema
version and the width. -/
theorem C43_width {g : Pager} {f : File} {m : Opened} {i : Nat} {h : Header} (hc : Current g f m i h) :
    (h.schema = 0 → m.kw = 8) ∧ (h.schema ≠ 0 → m.kw = 16) := by
  rw [hc.width]
  exact ⟨fun h => if_pos h, fun h => if_neg h⟩

theorem initial_fits : ∀ p ∈ initialPages, NodeFits tagHashLen p.2 ∧ pageSizeOf tagHashLen p.2 ≤ 71 := by
  intro p hp
  simp only [initialPages, List.mem_cons, List.not_mem_nil, or_false] at hp
  rcases hp with rfl | rfl | rfl <;>
    exact ⟨by simp [NodeFits, U16, AllU64], by simp [pageSizeOf, pageHeaderSize, nodeSize]⟩

theorem initialHeader_fits (kw : Nat) : NodeFits kw (.header initialHeader) := by
  simp [NodeFits, U64, initialHeader, dbSchemaVersion]

theorem createPages_spec {g : Pager} (hps : 71 ≤ g.pageSize ∧ g.pageSize ≤ 2 ^ 32) (zero : Bool) :
    (createPages g zero emptyFile).1 = .ok 3 ∧ (createPages g zero emptyFile).2.Zeroed ∧
    ∀ p ∈ initialPages, readPage g 16 p.1 (createPages g zero emptyFile).2 = .ok p.2 := by
  have hz : emptyFile.Zeroed := fun _ _ => rfl
  have hn : (initialPages.map (·.1)).Nodup := by decide
  obtain ⟨h1, h2⟩ := C42_all_written (kw := tagHashLen) (by decide) hps.2 zero initialPages emptyFile hz hn
    fun p hp => ⟨(initial_fits p hp).1, by have := (initial_fits p hp).2; omega⟩
  refine ⟨h1, ?_, h2⟩
  have hp : (chunkBy adjacent (sortBy byId initialPages)).flatten.Perm initialPages := by
    rw [chunkBy_flatten]; exact sortBy_perm _ _
  exact (writeChunks_spec g tagHashLen zero (chunkBy adjacent (sortBy byId initialPages)) 0 emptyFile hz
    (chunkBy_chunk _) ((hp.map (·.1)).nodup_iff.mpr hn)).2.1

theorem initial_usable {g : Pager} {f : File} (h : ∀ p ∈ initialPages, readPage g 16 p.1 f = .ok p.2) :
    Usable g f initialHeader 16 where
  schema := .inr ⟨rfl, rfl⟩
  free := ⟨by decide, _, h (2, .freeLeaf [] []) (by simp [initialPages]), .inl ⟨_, _, rfl⟩⟩
  tags := ⟨by decide, _, h (4, .tagsLeaf [] []) (by simp [initialPages]), .inl ⟨_, _, rfl⟩⟩
  events := ⟨by decide, _, h (3, .eventLeaf [] []) (by simp [initialPages]), .inl ⟨_, _, rfl⟩⟩
  tracking := .inl rfl

/-- Creating a database that is not interrupted succeeds with the empty state, at width 16. -/
theorem C47_create {g : Pager} (hps : 71 ≤ g.pageSize ∧ g.pageSize ≤ 2 ^ 32) (zero : Bool) :
    ∃ m f, create g zero emptyFile = (.ok m, f) ∧ Current g f m 0 initialHeader ∧
      readPage g 16 1 f = .ok (.header initialHeader) ∧ Usable g f initialHeader 16 ∧
      ∀ p ∈ initialPages, readPage g 16 p.1 f = .ok p.2 := by
  obtain ⟨h1, hz, h2⟩ := createPages_spec hps zero
  rcases hcp : createPages g zero emptyFile with ⟨r, f1⟩
  rw [hcp] at h1 hz h2
  simp only at h1 hz h2
  subst h1
  obtain ⟨b, hb⟩ := header_serializes (kw := tagHashLen) (by decide) (buf := List.replicate g.pageSize 0)
    (by simp; exact hps.1) zero initialHeader
  have hbl : b.length = g.pageSize := by rw [serializePage_length hb]; simp
  obtain ⟨f2, hw2, hwr2⟩ := writeOnePage_spec (id := 1) (kw := tagHashLen) (by decide) (by simp) hps.2 hz
    (initialHeader_fits _) hb
  obtain ⟨b', hb'⟩ := header_serializes (kw := tagHashLen) (by decide) (buf := b) (by omega) zero initialHeader
  obtain ⟨f3, hw3, hwr3⟩ := writeOnePage_spec (id := 0) (kw := tagHashLen) (by decide) hbl hps.2 hwr2.zeroed
    (initialHeader_fits _) hb'
  have hkeep := hwr3.keep (by decide) hwr2.read
  have hpages : ∀ p ∈ initialPages, readPage g 16 p.1 f3 = .ok p.2 := by
    intro p hp
    have hne : p.1 ≠ 0 ∧ p.1 ≠ 1 := by
      simp only [initialPages, List.mem_cons, List.not_mem_nil, or_false] at hp
      rcases hp with rfl | rfl | rfl <;> decide
    exact hwr3.keep hne.1 (hwr2.keep hne.2 (h2 p hp))
  refine ⟨⟨⟨0, .header initialHeader⟩, ⟨1, .header initialHeader⟩, tagHashLen⟩, f3, ?_,
    ⟨.inl rfl, rfl, hwr3.read, rfl, hwr3.zeroed⟩, hkeep, initial_usable hpages, hpages⟩
  unfold create
  rw [hcp]
  simp only [createHeaders, hw2, hb, hw3]

/-- C47, what holds: if the crash came after the first `fsync`, so that the three root pages are on disk, and one of the
headers made it to disk intact while the other is intact or damaged, opening gives the empty database.  Missing: a crash
before that point leaves a file that cannot be opened (`C47_false`). -/
theorem C47_partial {g : Pager} (hps : 71 ≤ g.pageSize ∧ g.pageSize ≤ 2 ^ 32) {kw0 : Nat} (hk : kw0 ≤ 16) (zero : Bool)
    {f : File} (hz : f.Zeroed) (hlen : 5 * g.pageSize ≤ f.len)
    (hsync : ∀ i, 2 * g.pageSize ≤ i → i < 5 * g.pageSize → f.byte i = (createPages g zero emptyFile).2.byte i)
    {good bad : Nat} (hgb : (good = 0 ∧ bad = 1) ∨ (good = 1 ∧ bad = 0))
    (h0 : readPage g kw0 good f = .ok (.header initialHeader))
    (h1 : readPage g kw0 bad f = .ok (.header initialHeader) ∨ ∃ e, readPage g kw0 bad f = .error e) :
    ∃ m f' i, openExisting g kw0 zero f = (.ok m, f') ∧ Current g f' m i initialHeader := by
  obtain ⟨-, -, hread⟩ := createPages_spec hps zero
  have hroots : ∀ p ∈ initialPages, readPage g 16 p.1 f = .ok p.2 := by
    intro p hp
    have hr := hread p hp
    have hrange : 2 ≤ p.1 ∧ p.1 ≤ 4 := by
      simp only [initialPages, List.mem_cons, List.not_mem_nil, or_false] at hp
      rcases hp with rfl | rfl | rfl <;> decide
    have hin : ∀ j, j < g.pageSize → 2 * g.pageSize ≤ p.1 * g.pageSize + j ∧ p.1 * g.pageSize + j < 5 * g.pageSize := by
      intro j hj
      have a1 : 2 * g.pageSize ≤ p.1 * g.pageSize := Nat.mul_le_mul_right _ hrange.1
      have a2 : p.1 * g.pageSize ≤ 4 * g.pageSize := Nat.mul_le_mul_right _ hrange.2
      omega
    -- compare with a file that is long enough
    have e : readPage g 16 p.1 f = readPage g 16 p.1 (createPages g zero emptyFile).2 := by
      have hl2 : ¬ ((createPages g zero emptyFile).2.readAt (p.1 * g.pageSize) g.pageSize).length < g.pageSize := by
        intro hc
        unfold readPage readPageBytes at hr
        rw [if_pos hc] at hr
        cases hr
      have hf2 : g.pageSize ≤ (createPages g zero emptyFile).2.len - p.1 * g.pageSize := by
        simp [File.readAt] at hl2; omega
      have hf1 : g.pageSize ≤ f.len - p.1 * g.pageSize := by
        have a2 : p.1 * g.pageSize ≤ 4 * g.pageSize := Nat.mul_le_mul_right _ hrange.2
        omega
      have : f.readAt (p.1 * g.pageSize) g.pageSize =
          (createPages g zero emptyFile).2.readAt (p.1 * g.pageSize) g.pageSize := by
        unfold File.readAt
        rw [Nat.min_eq_left hf1, Nat.min_eq_left hf2]
        refine List.map_congr_left fun j hj => ?_
        have := hin j (by simpa using hj)
        exact hsync _ this.1 this.2
      unfold readPage readPageBytes
      rw [this]
    rw [e, hr]
  have hu := initial_usable hroots
  rcases h1 with h1 | ⟨e, h1⟩
  · have h00 : readPage g kw0 0 f = .ok (.header initialHeader) ∧ readPage g kw0 1 f = .ok (.header initialHeader) := by
      rcases hgb with ⟨rfl, rfl⟩ | ⟨rfl, rfl⟩
      · exact ⟨h0, h1⟩
      · exact ⟨h1, h0⟩
    obtain ⟨c1, c2, c3⟩ := C22_newest g kw0 zero f hz h00.1 h00.2
    rw [if_neg (by omega)] at c3
    obtain ⟨m, hm⟩ := c3.mpr ⟨16, hu⟩
    have := c2 m hm
    rw [if_neg (by omega)] at this
    exact ⟨m, f, 0, Prod.ext hm c1, this⟩
  · obtain ⟨f', c1, -, -, c4, c5, c6, -⟩ := C22_repair hps hk zero f hz hgb h0 h1
    obtain ⟨m, hm⟩ := c5.mpr ⟨16, c6 16 hu⟩
    exact ⟨m, f', good, Prod.ext hm c1, c4 m hm⟩

/-- C47 does not hold as stated: a crash right after the file was created leaves an empty file, and a crash after the
first `fsync` leaves one without headers; neither can be opened. -/
theorem C47_false :
    (openExisting ⟨128, 8⟩ 16 true emptyFile).1 = .error (.io "Page not found") ∧
    (openExisting ⟨128, 8⟩ 16 true (createPages ⟨128, 8⟩ true emptyFile).2).1 =
      .error (.databaseCorrupted "Invalid node type") := by decide +kernel

/-- Every page size: an empty file cannot be opened. -/
theorem C47_empty_file_false {g : Pager} (hps : 0 < g.pageSize) (kw0 : Nat) (zero : Bool) :
    openExisting g kw0 zero emptyFile = (.error (.io "Page not found"), emptyFile) := by
  have h : ∀ i, readPage g kw0 i emptyFile = .error (.io "Page not found") := by
    intro i
    unfold readPage readPageBytes
    rw [if_pos (by simp [File.readAt, emptyFile]; exact hps)]
  exact C22_both_damaged g kw0 zero emptyFile (h 0) (h 1)

/-! ### Examples -/

/-- A small database file: headers with transactions 4 and 3, fresh root pages. -/
def exampleFile : File :=
  (writePages ⟨128, 8⟩ 16 true ((0, .header { initialHeader with tsn := 4 }) :: (1, .header { initialHeader with tsn := 3 })
    :: initialPages) emptyFile).2

def stateOf (r : Except Err Opened) : Option (Nat × Nat × Nat) :=
  match r with
  | .error _ => none
  | .ok m =>
    match latestPage m.h0 m.h1 with
    | .ok ⟨i, .header h⟩ => some (i, h.tsn, m.kw)
    | _ => none

example : stateOf (openExisting ⟨128, 8⟩ 8 true exampleFile).1 = some (0, 4, 16) := by decide +kernel

/-- Slot 0 damaged: transaction 3 is used and copied. -/
example : stateOf (openExisting ⟨128, 8⟩ 8 true (exampleFile.writeAt 20 [99])).1 = some (1, 3, 16) ∧
    readPage ⟨128, 8⟩ 16 0 (openExisting ⟨128, 8⟩ 8 true (exampleFile.writeAt 20 [99])).2 =
      .ok (.header { initialHeader with tsn := 3 }) := by decide +kernel

/-- A commit on the opened database goes to the other slot. -/
example : (match openExisting ⟨128, 8⟩ 8 true exampleFile with
    | (.ok m, f) =>
      match commitHeader ⟨128, 8⟩ (List.replicate 128 7) false ⟨5, 2, 3, 4, 9, 1, 0⟩ m f with
      | (.ok m', f') => (stateOf (.ok m'), (readPage ⟨128, 8⟩ 16 0 f').toOption.map isFreePage,
          stateOf (openExisting ⟨128, 8⟩ 8 true f').1)
      | _ => (none, none, none)
    | _ => (none, none, none)) = (some (1, 5, 16), some false, some (1, 5, 16)) := by decide +kernel

/-- The type byte is not covered by the checksum: damage to it alone can turn a header into another intact page, and then
opening fails although the other header is intact. -/
example : (readPage ⟨128, 8⟩ 16 1 (exampleFile.writeAt 0 [0x61])).toOption =
      some (.header { initialHeader with tsn := 3 }) ∧
    (openExisting ⟨128, 8⟩ 16 true (exampleFile.writeAt 0 [0x61])).1.toOption.isNone = true := by decide +kernel

example : stateOf (create ⟨128, 8⟩ false emptyFile).1 = some (0, 0, 16) := by decide +kernel

end Uma.Props
