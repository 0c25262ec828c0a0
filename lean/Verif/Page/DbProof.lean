import Verif.Page.Content

/-!
# The page-level backend keeps a database

`LiveAt`: the pinned headers, the page cache and the file together hold a database.  `TxAt`: what a write transaction
holds.  With these the operations of `pageBackend` satisfy `Lawful`.
-/

namespace Uma.Page
open Uma.Codec Uma.Mvcc Uma.Spec

/-! ## Files -/

/-- The file changed only in the slots of the pages `l`. -/
structure Touched (ps : Nat) (l : List Nat) (f f' : File) : Prop where
  zeroed : f'.Zeroed
  len : f.len ≤ f'.len
  other : ∀ i, (∀ p ∈ l, ¬ (p * ps ≤ i ∧ i < p * ps + ps)) → f'.byte i = f.byte i

theorem Touched.read {g : Pager} {l : List Nat} {f f' : File} (h : Touched g.pageSize l f f') {kw p : Nat} {n : Node}
    (hp : p ∉ l) (hr : readPage g kw p f = .ok n) : readPage g kw p f' = .ok n := by
  refine readPage_congr hr h.len fun j hj => h.other _ fun q hq hc => ?_
  have := slot_unique (a := p) (b := q) (i := p * g.pageSize + j) (ps := g.pageSize) (by omega) (by omega) hc.1 hc.2
  exact hp (this ▸ hq)

theorem Touched.refl {ps : Nat} {l : List Nat} {f : File} (h : f.Zeroed) : Touched ps l f f := ⟨h, Nat.le_refl _, fun _ _ => rfl⟩

theorem Touched.trans {ps : Nat} {l : List Nat} {f f' f'' : File} (h : Touched ps l f f') (k : Touched ps l f' f'') :
    Touched ps l f f'' := ⟨k.1, Nat.le_trans h.2 k.2, fun i hi => (k.3 i hi).trans (h.3 i hi)⟩

theorem Touched.mono {ps : Nat} {l l' : List Nat} {f f' : File} (h : Touched ps l f f') (hl : ∀ p ∈ l, p ∈ l') :
    Touched ps l' f f' := ⟨h.1, h.2, fun i hi => h.3 i fun p hp => hi p (hl p hp)⟩

theorem scramble_touched {ps : Nat} (l : List Nat) (junk : File) {f : File} (h : f.Zeroed) :
    Touched ps l f (scramble ps l junk f) := by
  refine ⟨fun i hi => ?_, by simp only [scramble]; omega, fun i hi => ?_⟩
  · simp only [scramble] at hi ⊢
    rw [if_neg (by omega)]
    exact h i (by omega)
  · simp only [scramble]
    rw [if_neg]
    rintro ⟨-, p, hp, h1⟩
    exact hi p hp h1

/-- Errors of serialization. -/
theorem serializePage_error {kw : Nat} {buf : Bytes} {zero : Bool} {n : Node} {e : Err} (hb : 9 ≤ buf.length)
    (h : serializePage kw buf zero n = .error e) : Db.Fatal e := by
  unfold serializePage at h
  rw [if_neg (by simp only [pageHeaderSize]; omega)] at h
  unfold serializeNode at h
  split at h
  · next he =>
    cases h
    split at he
    · cases he; exact ⟨rfl, rfl, rfl⟩
    split at he
    · cases he; exact ⟨rfl, rfl, rfl⟩
    cases he
  · cases h

theorem serializeChunk_result {kw ps : Nat} (hps : 9 ≤ ps) {zero : Bool} : ∀ c : List DirtyPage,
    (∃ b, serializeChunk kw ps zero c = .ok b ∧ ∀ p ∈ c, ∃ b, serializePage kw (List.replicate ps 0) zero p.2 = .ok b) ∨
    ∃ e, serializeChunk kw ps zero c = .error e ∧ Db.Fatal e
  | [] => .inl ⟨[], rfl, by simp⟩
  | (i, n) :: c => by
    unfold serializeChunk
    cases hs : serializePage kw (List.replicate ps 0) zero n with
    | error e => exact .inr ⟨e, rfl, serializePage_error (by simpa using hps) hs⟩
    | ok b =>
      rcases serializeChunk_result hps c with ⟨b', h1, h2⟩ | ⟨e, h1, h2⟩
      · rw [h1]
        refine .inl ⟨_, rfl, fun p hp => ?_⟩
        rcases List.mem_cons.mp hp with rfl | hp
        · exact ⟨b, hs⟩
        · exact h2 p hp
      · rw [h1]; exact .inr ⟨e, rfl, h2⟩

theorem writeChunks_result {g : Pager} (hps : 9 ≤ g.pageSize) {kw : Nat} {zero : Bool} : ∀ (cs : List (List DirtyPage)) (k : Nat) (f : File),
    (∃ m, (Mvcc.writeChunks g kw zero cs k f).1 = .ok m ∧
      ∀ p ∈ cs.flatten, ∃ b, serializePage kw (List.replicate g.pageSize 0) zero p.2 = .ok b) ∨
    ∃ e, (Mvcc.writeChunks g kw zero cs k f).1 = .error e ∧ Db.Fatal e
  | [], k, f => .inl ⟨k, rfl, by simp⟩
  | c :: cs, k, f => by
    unfold Mvcc.writeChunks
    rcases serializeChunk_result (kw := kw) hps (zero := zero) c with ⟨b, h1, h2⟩ | ⟨e, h1, h2⟩
    · rw [h1]
      simp only
      rcases writeChunks_result hps cs (k + c.length) (writeContiguous g ((c.head?.map (·.1)).getD 0) b f) with
        ⟨m, h3, h4⟩ | ⟨e, h3, h4⟩
      · refine .inl ⟨m, h3, fun p hp => ?_⟩
        rw [List.flatten_cons, List.mem_append] at hp
        exact hp.elim (h2 p) (h4 p)
      · exact .inr ⟨e, h3, h4⟩
    · rw [h1]; exact .inr ⟨e, rfl, h2⟩

/-- `write_pages` writes the pages, or fails; in any case only their slots change. -/
theorem writePages_spec {g : Pager} (hps : 9 ≤ g.pageSize) (hbig : g.pageSize ≤ 2 ^ 32) {kw : Nat} (hkw : kw ≤ 16) (zero : Bool)
    {pages : Pages} (hn : pages.ids.Nodup) (hfit : ∀ x ∈ pages, NodeFits kw x.2) {f : File} (hz : f.Zeroed) :
    Touched g.pageSize pages.ids f (writePages g kw zero pages f).2 ∧
    ((∃ m, (writePages g kw zero pages f).1 = .ok m ∧
        ∀ p n, pages.get p = some n → readPage g kw p (writePages g kw zero pages f).2 = .ok n) ∨
      ∃ e, (writePages g kw zero pages f).1 = .error e ∧ Db.Fatal e) := by
  have hperm : (sortBy byId pages).Perm pages := sortBy_perm _ _
  have hflat := chunkBy_flatten adjacent (sortBy byId pages)
  obtain ⟨h1, h2, h3, h4⟩ := Mvcc.writeChunks_spec g kw zero (chunkBy adjacent (sortBy byId pages)) 0 f hz (chunkBy_chunk _)
    (by rw [hflat]; exact (hperm.map _).nodup_iff.mpr hn)
  rw [hflat] at h1 h4
  refine ⟨⟨h2, h3, fun i hi => h1 i ?_⟩, ?_⟩
  · rintro ⟨p, hp, hc⟩
    exact hi p.1 (List.mem_map.mpr ⟨p, hperm.mem_iff.mp hp, rfl⟩) hc
  · rcases writeChunks_result hps (kw := kw) (zero := zero) (chunkBy adjacent (sortBy byId pages)) 0 f with ⟨m, h5, h6⟩ | ⟨e, h5, h6⟩
    · rw [hflat] at h6
      refine .inl ⟨m, h5, fun p n hp => ?_⟩
      have hmem : (p, n) ∈ pages := by
        clear * - hp
        induction pages with
        | nil => cases hp
        | cons x l ih =>
          obtain ⟨a, m⟩ := x
          unfold Pages.get at hp
          rw [List.lookup_cons] at hp
          by_cases e : p = a
          · subst e; simp at hp; simp [hp]
          · rw [show (p == a) = false by simpa using e] at hp
            exact .tail _ (ih hp)
      obtain ⟨b, hb, hslot⟩ := (h4 h6).2 (p, n) (hperm.mem_iff.mpr hmem)
      obtain ⟨hd, hl⟩ := deserialize_serialize hkw (hfit _ hmem) (by simpa using hbig) hb
      exact deserialize_slot (by simpa using hl) hslot hd
    · exact .inr ⟨e, h5, h6⟩

theorem writeOnePage_result {g : Pager} (hps : 9 ≤ g.pageSize) (hbig : g.pageSize ≤ 2 ^ 32) {kw : Nat} (hkw : kw ≤ 16) {buf : Bytes}
    (hbuf : buf.length = g.pageSize) (zero : Bool) (id : Nat) {n : Node} (hfit : NodeFits kw n) {f : File} (hz : f.Zeroed) :
    (∃ f', writeOnePage g kw buf zero id n f = (.ok (), f') ∧ Touched g.pageSize [id] f f' ∧ readPage g kw id f' = .ok n) ∨
    ∃ e, writeOnePage g kw buf zero id n f = (.error e, f) ∧ Db.Fatal e := by
  cases hs : serializePage kw buf zero n with
  | error e =>
    refine .inr ⟨e, ?_, serializePage_error (by omega) hs⟩
    unfold writeOnePage; rw [hs]
  | ok b =>
    obtain ⟨f', h1, h2⟩ := writeOnePage_spec hkw hbuf hbig (id := id) hz hfit hs
    exact .inl ⟨f', h1, ⟨h2.zeroed, h2.len, fun i hi => h2.other i (by have := hi id (by simp); omega)⟩, h2.read⟩

/-! ## The committed state -/

structure ConfOk (c : Conf) (kw : Nat) : Prop where
  ps : 1024 ≤ c.g.pageSize
  big : c.g.pageSize ≤ 2 ^ 32
  kw : kw ≤ 16
  bs : Bs c.bs

/-- The committed database `d` with newest header `h` holds `s`.  `PE`, `PT`, `PK`, `PF` are the pages of the events,
tags, tracking and free-list trees; `F` is the content of the free list. -/
structure LiveAt (c : Conf) {kw : Nat} (hc : ConfOk c kw) (H : String → Db.TagHash) (d : PDb) (hp : HPage) (h : Header)
    (PE PT PK PF : Multiset (Nat × Node)) (ix : Nat → List Nat) (F : Multiset (Nat × Nat)) (s : Spec.Db) : Prop where
  latest : latestPage d.m.h0 d.m.h1 = .ok hp
  node : hp.node = .header h
  slot : hp.id = 0 ∨ hp.id = 1
  width : d.m.kw = kw
  trees : Trees kw c.g.pageSize hc.ps hc.kw h.eventsRoot h.tagsRoot h.trackRoot PE PT PK s.log ix s.track
  index : ∀ t, ix t = Db.idxOf H s.log t
  free : ∃ es, FreeTree kw c.g.pageSize hc.ps h.freeRoot PF es ∧ F = freeSet es
  freeLe : ∀ x ∈ F, x.2 ≤ h.tsn
  file : ∀ p n, (p, n) ∈ PF + (PE + PT + PK) → readPage c.g kw p d.file = .ok n
  cache : ∀ p n m, (p, n) ∈ PF + (PE + PT + PK) → d.cache p = some m → m = n
  account : ids (PF + (PE + PT + PK)) + F.map (·.1) = bodyIds h.nextPage
  limit : 2 ≤ h.nextPage
  next : h.nextPosition = s.log.length + 1
  zeroed : d.file.Zeroed

variable {c : Conf} {kw : Nat} {hc : ConfOk c kw} {H : String → Db.TagHash} {d : PDb} {hp : HPage} {h : Header}
  {PE PT PK PF : Multiset (Nat × Node)} {ix : Nat → List Nat} {F : Multiset (Nat × Nat)} {s : Spec.Db}

theorem LiveAt.header_eq (L : LiveAt c hc H d hp h PE PT PK PF ix F s) : d.header = .ok h := by
  unfold PDb.header
  rw [L.latest]
  show asHeader hp.node = _
  rw [L.node]; rfl

theorem LiveAt.body (L : LiveAt c hc H d hp h PE PT PK PF ix F s) {p : Nat} (hp : p ∈ ids (PF + (PE + PT + PK))) :
    2 ≤ p ∧ p < h.nextPage := by
  have : p ∈ bodyIds h.nextPage := by rw [← L.account]; exact Multiset.mem_add.mpr (.inl hp)
  exact mem_bodyIds.mp this

theorem LiveAt.nodup (L : LiveAt c hc H d hp h PE PT PK PF ix F s) :
    (ids (PF + (PE + PT + PK)) + F.map (·.1)).Nodup := by rw [L.account]; exact bodyIds_nodup _

theorem LiveAt.sees (L : LiveAt c hc H d hp h PE PT PK PF ix F s) : Sees (d.base c) (PF + (PE + PT + PK)) := by
  intro p n hpn
  have hb := L.body (mem_ids_of hpn)
  unfold PDb.base PDb.read
  rw [if_neg (by omega)]
  cases hcache : d.cache p with
  | some m => rw [L.cache p n m hpn hcache]; rfl
  | none => simp only [L.width, L.file p n hpn]; rfl

theorem LiveAt.card (L : LiveAt c hc H d hp h PE PT PK PF ix F s) :
    PF.card + (PE.card + PT.card + PK.card) ≤ h.nextPage := by
  have := congrArg Multiset.card L.account
  simp only [Multiset.card_add, card_ids, card_bodyIds] at this
  omega

theorem LiveAt.refines (L : LiveAt c hc H d hp h PE PT PK PF ix F s) : Db.Refines H (d.snap c) s.log := by
  unfold PDb.snap
  rw [L.header_eq]
  have hs := L.sees
  have hcard := L.card
  exact L.trees.refines rfl hc.bs L.index (hs.sub (Multiset.le_add_left _ _)) (by omega)
    (fun p hp => by
      have := L.body (p := p) (by simp only [ids_add, Multiset.mem_add]; tauto)
      omega) (by rw [L.next]; omega)

theorem turns_ge {nextPos nextPage : Nat} : nextPage ≤ turns c nextPos nextPage := by
  unfold turns
  have : nextPage * 1 ≤ nextPage * (c.g.pageSize + 2) := Nat.mul_le_mul_left _ (by omega)
  omega

theorem LiveAt.track_eq (L : LiveAt c hc H d hp h PE PT PK PF ix F s) (src : String) : d.track c src = .ok (s.track src) := by
  unfold PDb.track
  rw [L.header_eq]
  have hcard := L.card
  have := turns_ge (c := c) (nextPos := h.nextPosition) (nextPage := h.nextPage)
  exact trackLookup_spec L.trees.track (L.sees.sub (le_of_eq_add (PF + (PE + PT)) (by abel)))
    (fun p hp => by
      have := L.body (p := p) (by simp only [ids_add, Multiset.mem_add]; tauto)
      omega) (by omega) src

/-- Changes to the file and the cache outside the pages of the database. -/
theorem LiveAt.elsewhere (L : LiveAt c hc H d hp h PE PT PK PF ix F s) {d' : PDb} (hm : d'.m = d.m) {l : List Nat}
    (hf : Touched c.g.pageSize l d.file d'.file) (hl : ∀ p ∈ l, p ∉ ids (PF + (PE + PT + PK)))
    (hcache : ∀ p n, (p, n) ∈ PF + (PE + PT + PK) → ∀ m, d'.cache p = some m → m = n) :
    LiveAt c hc H d' hp h PE PT PK PF ix F s where
  latest := hm ▸ L.latest
  node := L.node
  slot := L.slot
  width := hm ▸ L.width
  trees := L.trees
  index := L.index
  free := L.free
  freeLe := L.freeLe
  file p n hpn := hf.read (fun hm => hl p hm (mem_ids_of hpn)) (L.file p n hpn)
  cache p n m hpn hm := hcache p n hpn m hm
  account := L.account
  limit := L.limit
  next := L.next
  zeroed := hf.zeroed

/-- Reading pages into the cache and dropping pages from it. -/
theorem LiveAt.recache (L : LiveAt c hc H d hp h PE PT PK PF ix F s) {cache : Nat → Option Node}
    (hcache : ∀ p m, cache p = some m → d.cache p = some m ∨ readPage c.g kw p d.file = .ok m) (o : Option Nat) :
    LiveAt c hc H { d with cache := cache, oldest := o } hp h PE PT PK PF ix F s := by
  refine L.elsewhere rfl (l := []) (.refl L.zeroed) (by simp) (fun p n hpn m hm => ?_)
  rcases hcache p m hm with h1 | h1
  · exact L.cache p n m hpn h1
  · rw [L.file p n hpn] at h1; cases h1; rfl

/-! ## What a crash can bring back -/

/-- Nothing can be read from this slot. -/
def Unreadable (g : Pager) (f : File) (k : Nat) : Prop := ∀ kw, ∃ e, readPage g kw k f = .error e

/-- The slot that does not hold the current header `h`: unreadable, or an older header, or a copy. -/
def OtherOk (g : Pager) (f : File) (k : Nat) (h : Header) : Prop :=
  Unreadable g f k ∨ ∃ h', (∀ kw, readPage g kw k f = .ok (.header h')) ∧ (h'.tsn < h.tsn ∨ h' = h)

/-- The disk holds the pages `P` and the header `h` of page `hp`. -/
structure SafeAt (c : Conf) (kw : Nat) (d : PDb) (hp : HPage) (h : Header) (P : Multiset (Nat × Node)) : Prop where
  schema : (h.schema = 0 ∧ kw = 8) ∨ (h.schema = 1 ∧ kw = 16)
  touched : Touched c.g.pageSize d.loose d.disk d.file
  apart : ∀ p ∈ d.loose, p ∉ ids P ∧ p ≠ hp.id
  len : 2 * c.g.pageSize ≤ d.disk.len
  zeroed : d.disk.Zeroed
  head : ∀ kw, readPage c.g kw hp.id d.disk = .ok (.header h)
  pages : ∀ p n, (p, n) ∈ P → readPage c.g kw p d.disk = .ok n
  other : d.doubt = false → OtherOk c.g d.file (1 - hp.id) h ∧ OtherOk c.g d.disk (1 - hp.id) h

/-- Slots of whole pages read the same if their bytes are the same. -/
theorem readPage_same {g : Pager} {k : Nat} {f f' : File} (hl : k * g.pageSize + g.pageSize ≤ f.len) (hl' : f.len ≤ f'.len)
    (hb : ∀ j, j < g.pageSize → f'.byte (k * g.pageSize + j) = f.byte (k * g.pageSize + j)) (kw : Nat) :
    readPage g kw k f' = readPage g kw k f := by
  have : f'.readAt (k * g.pageSize) g.pageSize = f.readAt (k * g.pageSize) g.pageSize := by
    unfold File.readAt
    rw [Nat.min_eq_left (by omega), Nat.min_eq_left (by omega)]
    exact List.map_congr_left fun j hj => hb j (by simpa using hj)
  unfold readPage readPageBytes
  rw [this]

theorem Touched.same {g : Pager} {l : List Nat} {f f' : File} (h : Touched g.pageSize l f f') {k : Nat} (hk : k ∉ l)
    (hl : k * g.pageSize + g.pageSize ≤ f.len) (kw : Nat) : readPage g kw k f' = readPage g kw k f := by
  refine readPage_same hl h.len (fun j hj => h.other _ fun q hq hc => ?_) kw
  have := slot_unique (a := k) (b := q) (i := k * g.pageSize + j) (ps := g.pageSize) (by omega) (by omega) hc.1 hc.2
  exact hk (this ▸ hq)

theorem OtherOk.congr {g : Pager} {f f' : File} {k : Nat} {h : Header} (ho : OtherOk g f k h)
    (he : ∀ kw, readPage g kw k f' = readPage g kw k f) : OtherOk g f' k h := by
  rcases ho with ho | ⟨h', h1, h2⟩
  · exact .inl fun kw => by rw [he]; exact ho kw
  · exact .inr ⟨h', fun kw => by rw [he]; exact h1 kw, h2⟩

theorem slot_len {ps k n : Nat} (hk : k = 0 ∨ k = 1) (hn : 2 * ps ≤ n) : k * ps + ps ≤ n := by
  rcases hk with rfl | rfl <;> omega

theorem synced_touched {ps : Nat} {l : List Nat} {disk f : File} (hz : f.Zeroed) : Touched ps l (synced ps l disk f) f := by
  refine ⟨hz, Nat.le_refl _, fun i hi => ?_⟩
  simp only [synced]
  rw [if_neg]
  rintro ⟨p, hp, h1⟩
  exact hi p hp h1

theorem synced_read {g : Pager} {l : List Nat} {disk f : File} {k : Nat} (hk : k ∉ l) (kw : Nat) :
    readPage g kw k (synced g.pageSize l disk f) = readPage g kw k f := by
  have : (synced g.pageSize l disk f).readAt (k * g.pageSize) g.pageSize = f.readAt (k * g.pageSize) g.pageSize := by
    unfold File.readAt
    refine List.map_congr_left fun j hj => ?_
    have hj : j < g.pageSize := by
      simp only [List.mem_range] at hj; omega
    simp only [synced]
    rw [if_neg]
    rintro ⟨q, hq, h1, h2⟩
    have := slot_unique (a := k) (b := q) (i := k * g.pageSize + j) (ps := g.pageSize) (by omega) (by omega) h1 h2
    exact hk (this ▸ hq)
  unfold readPage readPageBytes
  rw [this]

theorem synced_zeroed {ps : Nat} {l l' : List Nat} {disk f : File} (ht : Touched ps l' disk f) (hz : disk.Zeroed) :
    (synced ps l disk f).Zeroed := by
  intro i hi
  have hi : f.len ≤ i := hi
  simp only [synced]
  split
  · exact hz i (Nat.le_trans ht.len hi)
  · exact ht.zeroed i hi

/-- Writing outside the pages and headers in use, not relied upon later. -/
theorem SafeAt.loosen {P : Multiset (Nat × Node)} (S : SafeAt c kw d hp h P) {d' : PDb} {l : List Nat}
    (ht : Touched c.g.pageSize l d.file d'.file) (hl : ∀ p ∈ l, p ∉ ids P ∧ p ≠ hp.id) (hdisk : d'.disk = d.disk)
    (hloose : d'.loose = d.loose ++ l) (hd : d'.doubt = d.doubt ∧ (∀ p ∈ l, 2 ≤ p) ∨ d'.doubt = true) :
    SafeAt c kw d' hp h P := by
  have hlen : 2 * c.g.pageSize ≤ d.file.len := Nat.le_trans S.len S.touched.len
  refine ⟨S.schema, ?_, ?_, by rw [hdisk]; exact S.len, by rw [hdisk]; exact S.zeroed, by rw [hdisk]; exact S.head,
    by rw [hdisk]; exact S.pages, fun hno => ?_⟩
  · rw [hdisk, hloose]
    exact (S.touched.mono fun p hp => List.mem_append_left _ hp).trans (ht.mono fun p hp => List.mem_append_right _ hp)
  · intro p hp
    rw [hloose, List.mem_append] at hp
    exact hp.elim (S.apart p) (hl p)
  · rcases hd with ⟨hd, h2⟩ | hd
    · obtain ⟨h3, h4⟩ := S.other (hd ▸ hno)
      refine ⟨h3.congr (ht.same (fun hm => ?_) (slot_len (by omega) hlen)), hdisk ▸ h4⟩
      have := h2 _ hm
      omega
    · rw [hd] at hno; cases hno

/-! ## Transactions -/

/-- Pages a transaction may write: those beyond the old limit and those taken from the free list. -/
def May (h : Header) (F : Multiset (Nat × Nat)) (o : Option Nat) (p : Nat) : Prop :=
  h.nextPage ≤ p ∨ ∃ t, (p, t) ∈ F ∧ oldEnough o t = true

theorem LiveAt.not_may (L : LiveAt c hc H d hp h PE PT PK PF ix F s) {p : Nat} (hp : p ∈ ids (PF + (PE + PT + PK))) {o : Option Nat} :
    ¬ May h F o p := by
  rintro (h1 | ⟨t, h1, -⟩)
  · have := L.body hp; omega
  · have := (Multiset.nodup_add.mp L.nodup).2.2
    exact Multiset.disjoint_left.mp this hp (Multiset.mem_map.mpr ⟨_, h1, rfl⟩)

/-- Pages in use by the database with header `h` and free list `F`. -/
def Rests (h : Header) (F : Multiset (Nat × Nat)) (p : Nat) : Prop := 2 ≤ p ∧ p < h.nextPage ∧ p ∉ F.map (·.1)

/-- The transaction `w`, started from `d` with header `h` and free list `F`, holds `a`. -/
structure TxAt (c : Conf) {kw : Nat} (hc : ConfOk c kw) (d : PDb) (h : Header) (F : Multiset (Nat × Nat)) (w : Writer)
    (PE PT PK PF : Multiset (Nat × Node)) (ix : Nat → List Nat) (a : Db.Abs) : Prop where
  base : ∀ p, Rests h F p → w.base p = d.base c p
  tsn : w.tsn = h.tsn + 1
  inv : FreeInv kw c.g.pageSize hc.ps (fun t => oldEnough d.oldest t = true ∧ t < h.tsn + 1) (May h F d.oldest) (PE + PT + PK) w PF
    (F.filter fun x => ¬ oldEnough d.oldest x.2 = true) []
  queue : ((w.reused ++ w.reusable : List (Nat × Nat)) : Multiset (Nat × Nat)) = F.filter fun x => oldEnough d.oldest x.2 = true
  trees : Trees kw c.g.pageSize hc.ps hc.kw w.eventsRoot w.tagsRoot w.trackRoot PE PT PK a.log ix a.track
  index : ∀ t, ix t = a.idx t
  bound : ∀ t, ∀ p ∈ a.idx t, p ≤ a.log.length + 1
  nextPos : w.nextPos = a.next
  room : a.log.length ≤ a.next
  grows : h.nextPage ≤ w.nextPage

variable {w : Writer} {F0 : Multiset (Nat × Nat)} {a : Db.Abs}

theorem TxAt.nextPage_card (T : TxAt c hc d h F0 w PE PT PK PF ix a) :
    PF.card + (PE.card + PT.card + PK.card) ≤ w.nextPage := by
  have := T.inv.own.card_lt
  simp only [Multiset.card_add] at this
  omega

theorem TxAt.refines (T : TxAt c hc d h F0 w PE PT PK PF ix a) (hidx : a.idx = Db.idxOf H a.log) :
    Db.Refines H (snapOf c w.view (turns c w.nextPos w.nextPage) w.eventsRoot w.tagsRoot) a.log := by
  have hs : Sees w.view (PF + (PE + PT + PK)) := T.inv.own.sees
  have hcard := T.nextPage_card
  refine T.trees.refines rfl hc.bs (fun t => by rw [T.index, hidx]) (hs.sub (Multiset.le_add_left _ _)) (by omega)
    (fun p hp => ?_) (by rw [T.nextPos]; exact T.room)
  have := T.inv.own.lt (p := p) (by simp only [ids_add, Multiset.mem_add]; tauto)
  omega

theorem FreeTree.ne_nil {ps : Nat} {hps : 1024 ≤ ps} {root : Nat} {P : Multiset (Nat × Node)} {es : List FreeEnt}
    (h : FreeTree kw ps hps root P es) : ∀ e ∈ es, e.pids ≠ [] := by
  rcases h with ⟨K, hK, -, -, rfl, -⟩ | ⟨rfl, -⟩
  · refine hK.ents_all (P := fun e => e.pids ≠ []) fun k hk e he => ?_
    obtain ⟨es, -, h1, h2, -⟩ := hk
    rw [h1] at he
    have he : e ∈ es := by simpa [frKid] using he
    rcases h2 e he with ⟨-, -, -, h3⟩ | ⟨-, -, h3⟩
    · exact h3
    · exact h3.ne_nil
  · simp

theorem LiveAt.mem_of_rests (L : LiveAt c hc H d hp h PE PT PK PF ix F s) {p : Nat} (hp : Rests h F p) :
    p ∈ ids (PF + (PE + PT + PK)) := by
  have : p ∈ bodyIds h.nextPage := mem_bodyIds.mpr ⟨hp.1, hp.2.1⟩
  rw [← L.account, Multiset.mem_add] at this
  exact this.resolve_right hp.2.2

/-- A writer at the committed roots, reading the pages in any way that shows those in use, starts a transaction that holds
what is committed. -/
theorem LiveAt.beginAt (L : LiveAt c hc H d hp h PE PT PK PF ix F s) {b ds : Nat → Option Node} (hb : Sees b (PF + (PE + PT + PK)))
    (hds : ∀ p n, ds p = some n → b p = some n) :
    ∃ w, findReusable d.oldest { newWriter c d h with base := b, deser := ds } = (.ok (), w) ∧ w.reused = [] ∧
      TxAt c hc d h F w PE PT PK PF ix (Db.Abs.of H s) := by
  obtain ⟨w0, hw0⟩ : ∃ w0 : Writer, w0 = { newWriter c d h with base := b, deser := ds } := ⟨_, rfl⟩
  rw [← hw0]
  have hown : Own w0 (May h F d.oldest) (F.map (·.1)) (PF + (PE + PT + PK)) := by
    rw [hw0]
    refine ⟨hb, ?_, L.limit, by simp [newWriter, Pages.ids], by simp [newWriter, Pages.ids], hds,
      by simp [newWriter, Pages.ids], by simp [newWriter], fun p hp => .inl hp, fun p hp => .inr (L.not_may hp)⟩
    have := L.account
    simpa [newWriter] using this
  obtain ⟨es, hes, hF⟩ := L.free
  have hrep : FreeRep kw c.g.pageSize hc.ps (fun _ => False) w0 PF F := by
    rw [hw0]
    refine ⟨es, hes, fun e he => ⟨fun ht => ?_, fun hf => hf.elim⟩, hF⟩
    exfalso
    obtain ⟨p, hp⟩ := List.exists_mem_of_ne_nil _ (hes.ne_nil e he)
    have := L.freeLe (p, e.tsn) (by rw [hF]; exact mem_freeSet.mpr ⟨e, he, rfl, hp⟩)
    simp only [newWriter] at ht
    omega
  obtain ⟨u, w, hrun, l, hl, hreused, hreus, hkeep, hrep', hown'⟩ := findReusable_spec (small := d.oldest) hrep (by rw [hw0]; exact ⟨rfl, rfl⟩)
    (fun x hx ho => .inr ⟨x.2, hx, ho⟩) hown
  refine ⟨w, hrun, hreused, ?_⟩
  have hq : ((w.reused ++ w.reusable : List (Nat × Nat)) : Multiset (Nat × Nat)) = F.filter fun x => oldEnough d.oldest x.2 = true := by
    rw [hreused, hreus, List.nil_append, ← hl]
    exact Multiset.coe_eq_coe.mpr (optimize_perm l)
  have hsplit : ((w.reused ++ w.reusable : List (Nat × Nat)) : Multiset (Nat × Nat)) +
      (F.filter fun x => ¬ oldEnough d.oldest x.2 = true) = F := by
    rw [hq]; exact Multiset.filter_add_not _ _
  have htsn : w.tsn = h.tsn + 1 := by rw [hkeep.step.tsn, hw0]; rfl
  have hkw : w0.kw = kw := by rw [hw0]; exact L.width
  have hwps : w0.pageSize = c.g.pageSize := by rw [hw0]; rfl
  refine ⟨fun p hr => ?_, htsn, ⟨?_, by simpa using hown', ?_, ?_, ?_, ?_, hkeep.step.kw.trans hkw, hkeep.step.pageSize.trans hwps⟩, hq,
    ?_, L.index, ?_, ?_, by simp [Db.Abs.of], ?_⟩
  · obtain ⟨n, hn⟩ := mem_ids.mp (L.mem_of_rests hr)
    rw [L.sees p n hn, ← hb p n hn, congrFun hkeep.step.base p, hw0]
  · rw [hsplit]
    obtain ⟨es, h1, h2, h3⟩ := hrep'
    exact ⟨es, h1, fun e he => ⟨(h2 e he).cur, fun ho => (h2 e he).old ho.1⟩, h3⟩
  · rw [hsplit]
    exact Multiset.Nodup.of_map _ (Multiset.nodup_add.mp L.nodup).2.1
  · intro x hx
    have := L.freeLe x (Multiset.mem_filter.mp hx).1
    omega
  · intro x hx
    have hx : x ∈ F.filter fun x => oldEnough d.oldest x.2 = true := by rw [← hq]; exact Multiset.mem_coe.mpr hx
    obtain ⟨h1, h2⟩ := Multiset.mem_filter.mp hx
    have := L.freeLe x h1
    exact ⟨h2, by omega⟩
  · intro t ht; rw [htsn]; exact ht.2
  · rw [show w.eventsRoot = h.eventsRoot by rw [hkeep.step.eventsRoot, hw0]; rfl, show w.tagsRoot = h.tagsRoot by rw [hkeep.step.tagsRoot, hw0]; rfl,
      show w.trackRoot = h.trackRoot by rw [hkeep.step.trackRoot, hw0]; rfl]
    exact L.trees
  · intro t p hp
    obtain ⟨r, hr, -⟩ := Db.mem_idxOf.mp hp
    have := (Db.mem_numberFrom.mp hr).2
    have := (List.getElem?_eq_some_iff.mp this).1
    have := (Db.mem_numberFrom.mp hr).1
    simp only [Db.Abs.of]
    omega
  · rw [show w.nextPos = h.nextPosition by rw [hkeep.step.nextPos, hw0]; rfl]; exact L.next
  · have := hkeep.step.grows
    rw [hw0] at this
    exact this

/-- `Mvcc::writer` starts a transaction that holds what is committed. -/
theorem LiveAt.begin (L : LiveAt c hc H d hp h PE PT PK PF ix F s) :
    ∃ w, d.writer c = .ok ⟨d, hp, w⟩ ∧ w.reused = [] ∧ TxAt c hc d h F w PE PT PK PF ix (Db.Abs.of H s) := by
  obtain ⟨w, hrun, h1, h2⟩ := L.beginAt (ds := fun _ => none) L.sees (by simp)
  have hrun : findReusable d.oldest (newWriter c d h) = (.ok (), w) := hrun
  refine ⟨w, ?_, h1, h2⟩
  unfold PDb.writer
  rw [L.latest]
  show (asHeader hp.node >>= _) = _
  rw [L.node]
  show (match findReusable d.oldest (newWriter c d h) with
    | (.error e, _) => Except.error e
    | (.ok (), w) => .ok (PW.mk d hp w)) = _
  rw [hrun]

/-- Frame rule for the free list: operations on the other trees keep `FreeInv`. -/
theorem FreeInv.keep {ps : Nat} {hps : 1024 ≤ ps} {Old A : Nat → Prop} {Q Q' R : Multiset (Nat × Node)} {w w' w'' : Writer}
    {P : Multiset (Nat × Node)} {Rest : Multiset (Nat × Nat)} {l : List Nat} (h : FreeInv kw ps hps Old A Q w P Rest l)
    (hk : Keep0 R w w'') (hle : P ≤ R) (hown : Own w' A (Rest.map (·.1) + (l : Multiset Nat)) (P + Q'))
    (e1 : w''.reused = w'.reused) (e2 : w''.reusable = w'.reusable) (e3 : w''.tsn = w'.tsn) (e4 : w''.kw = w'.kw)
    (e5 : w''.pageSize = w'.pageSize) (e6 : w''.freeRoot = w'.freeRoot) (e7 : w''.dirty = w'.dirty) (e8 : w''.deser = w'.deser) :
    FreeInv kw ps hps Old A Q' w' P Rest l := by
  have hq : w'.reused ++ w'.reusable = w.reused ++ w.reusable := by rw [← e1, ← e2]; exact hk.step.queue
  have ht : w'.tsn = w.tsn := e3 ▸ hk.step.tsn
  refine ⟨?_, hown, by rw [hq]; exact h.nodup, fun x hx => by rw [ht]; exact h.le x hx, fun x hx => h.old x (hq ▸ hx),
    fun t ho => by rw [ht]; exact h.older t ho, by rw [← e4, hk.step.kw]; exact h.wkw, by rw [← e5, hk.step.pageSize]; exact h.wps⟩
  rw [hq]
  obtain ⟨es, h1, h2, h3⟩ := h.rep.keep hk hle
  refine ⟨es, e6 ▸ h1, fun e he => ⟨fun hte p hp => ?_, fun ho p hp => ?_⟩, h3⟩
  · have := (h2 e he).cur (hte.trans e3.symm) p hp
    unfold IsDirty at this ⊢
    rwa [e7] at this
  · have := (h2 e he).old ho p hp
    unfold Loaded IsDirty at this ⊢
    rwa [e7, e8] at this

/-- `issue_position`. -/
theorem TxAt.issue (T : TxAt c hc d h F0 w PE PT PK PF ix a) :
    TxAt c hc d h F0 (issuePosition w).2 PE PT PK PF ix { a with next := a.next + 1 } := by
  refine ⟨T.base, T.tsn, ?_, T.queue, T.trees, T.index, T.bound, ?_, Nat.le_succ_of_le T.room, T.grows⟩
  · have o := T.inv.own
    obtain ⟨es, h1, h2, h3⟩ := T.inv.rep
    exact ⟨⟨es, h1, fun e he => ⟨(h2 e he).cur, (h2 e he).old⟩, h3⟩, ⟨o.1, o.2, o.3, o.4, o.5, o.6, o.7, o.8, o.9, o.10⟩, T.inv.nodup, T.inv.le, T.inv.old, T.inv.older, T.inv.wkw,
      T.inv.wps⟩
  · simp only [issuePosition]; rw [T.nextPos]

/-- `tags_tree_insert`. -/
theorem TxAt.tagInsert (T : TxAt c hc d h F0 w PE PT PK PF ix a) {tag : Nat} (htag : NormalizedTo kw tag) :
    Run (tagsInsert c.bs tag (a.log.length + 1)) w fun _ w' => ∃ PT' ix', TxAt c hc d h F0 w' PE PT' PK PF ix'
      { a with idx := fun t => if t = tag then a.idx t ++ [a.log.length + 1] else a.idx t } := by
  refine (tagsInsert_spec hc.bs T.trees.tags T.inv.wkw T.inv.wps htag (Q := PF + (PE + PK)) (pos := a.log.length + 1)
    (fun q hq => T.bound _ _ (T.index _ ▸ hq)) (T.inv.own.congr (by abel))).mono ?_
  rintro _ w' ⟨PT', hrep, hown, hk⟩
  refine ⟨PT', _, fun p hp => (congrFun hk.step.base p).trans (T.base p hp), hk.step.tsn.trans T.tsn,
    T.inv.keep hk.toKeep0 (Multiset.le_add_right _ _) (hown.congr (by abel)) rfl rfl rfl rfl rfl rfl rfl rfl, ?_,
    ⟨?_, hrep, ?_⟩, ?_, ?_, ?_, T.room, Nat.le_trans T.grows hk.step.grows⟩
  · rw [← T.queue]; exact congrArg _ hk.step.queue
  · rw [show w'.eventsRoot = w.eventsRoot from hk.step.eventsRoot]; exact T.trees.events
  · rw [show w'.trackRoot = w.trackRoot from hk.step.trackRoot]; exact T.trees.track
  · intro t
    by_cases e : t = tag
    · subst e
      rw [if_pos rfl, T.index]
      simp
    · rw [if_neg e, T.index]
      simp [e]
  · intro t p hp
    simp only at hp
    split at hp
    · rcases List.mem_append.mp hp with hp | hp
      · exact T.bound t p hp
      · rw [List.mem_singleton.mp hp]
    · exact T.bound t p hp
  · exact hk.step.nextPos.trans T.nextPos

/-- `event_tree_append_event_value`. -/
theorem TxAt.eventAppend (T : TxAt c hc d h F0 w PE PT PK PF ix a) {r : Record}
    {v : (EventValue × Nat) × Option (EventValue × Nat)} (hv : validateEvent c.g.pageSize r = .ok v) (hn : a.log.length + 1 ≤ a.next) :
    Run (evAppend v (a.log.length + 1)) w fun _ w' => ∃ PE', TxAt c hc d h F0 w' PE' PT PK PF ix { a with log := a.log ++ [r] } := by
  obtain ⟨K, hK, hroot, rfl, hq⟩ := T.trees.events
  refine (evAppend_spec hK hroot T.inv.wkw T.inv.wps (a.log.length + 1) hv (Q := PF + (PT + PK)) (T.inv.own.congr (by abel))).mono ?_
  rintro _ w' ⟨K', hK', hroot', hsq, hown, hk, hev⟩
  refine ⟨K'.pg, fun p hp => (congrFun hk.step.base p).trans (T.base p hp), hk.step.tsn.trans T.tsn,
    T.inv.keep hk.toKeep0 (Multiset.le_add_right _ _) (hown.congr (by abel)) rfl rfl rfl rfl rfl rfl rfl rfl, ?_,
    ⟨⟨K', ⟨hK', hev hK.even, by
      rcases hsq with e | e <;> rw [e]
      · exact hK.full.append trivial
      · exact hK.full.append ⟨⟨_, _, rfl⟩, trivial⟩⟩, hroot', rfl, hq.append r hsq⟩, ?_, ?_⟩, T.index, ?_, hk.step.nextPos.trans T.nextPos, ?_, Nat.le_trans T.grows hk.step.grows⟩
  · rw [← T.queue]; exact congrArg _ hk.step.queue
  · rw [show w'.tagsRoot = w.tagsRoot from hk.step.tagsRoot]; exact T.trees.tags
  · rw [show w'.trackRoot = w.trackRoot from hk.step.trackRoot]; exact T.trees.track
  · intro t p hi
    have := T.bound t p hi
    simp only [List.length_append, List.length_singleton]
    omega
  · simp only [List.length_append, List.length_singleton]; exact hn

/-- `tracking_upsert`. -/
theorem TxAt.trackUpsert (T : TxAt c hc d h F0 w PE PT PK PF ix a) (src : String) (pos : Nat) (hsrc : src.utf8ByteSize ≤ 255) :
    (∃ w', TxAt c hc d h F0 w' PE PT PK PF ix a ∧ (∃ p, a.track src = some p ∧ pos ≤ p) ∧
      ∃ m, trackUpsert src pos w = (.error (.integrity m), w')) ∨
    ((∀ p, a.track src = some p → p < pos) ∧ Run (Uma.Page.trackUpsert src pos) w fun _ w' => ∃ PK',
      TxAt c hc d h F0 w' PE PT PK' PF ix { a with track := setTrack a.track ⟨src, pos⟩ }) := by
  rcases trackUpsert_spec T.trees.track T.inv.wkw T.inv.wps src pos hsrc (Q := PF + (PE + PT)) (T.inv.own.congr (by abel)) with
    ⟨w', hown, hk, h1, h2⟩ | ⟨h1, h2⟩
  · refine .inl ⟨w', ⟨fun p hp => (congrFun hk.step.base p).trans (T.base p hp), hk.step.tsn.trans T.tsn,
      T.inv.keep hk.toKeep0 (le_of_eq_add (PK + (PE + PT)) (by abel)) (hown.congr (by abel)) rfl rfl rfl rfl rfl rfl rfl rfl, ?_, ?_,
      T.index, T.bound, hk.step.nextPos.trans T.nextPos, T.room, Nat.le_trans T.grows hk.step.grows⟩, h1, h2⟩
    · rw [← T.queue]; exact congrArg _ hk.step.queue
    · rw [hk.step.eventsRoot, hk.step.tagsRoot, hk.step.trackRoot]; exact T.trees
  · refine .inr ⟨h1, h2.mono ?_⟩
    rintro _ w' ⟨PK', hrep, hown, hk⟩
    refine ⟨PK', fun p hp => (congrFun hk.step.base p).trans (T.base p hp), hk.step.tsn.trans T.tsn,
      T.inv.keep hk.toKeep0 (Multiset.le_add_right _ _) (hown.congr (by abel)) rfl rfl rfl rfl rfl rfl rfl rfl, ?_,
      ⟨?_, ?_, ?_⟩, T.index, T.bound, hk.step.nextPos.trans T.nextPos, T.room, Nat.le_trans T.grows hk.step.grows⟩
    · rw [← T.queue]; exact congrArg _ hk.step.queue
    · rw [show w'.eventsRoot = w.eventsRoot from hk.step.eventsRoot]; exact T.trees.events
    · rw [show w'.tagsRoot = w.tagsRoot from hk.step.tagsRoot]; exact T.trees.tags
    · exact hrep

/-! ## Committing -/

/-- Headers as `latestPage` sees them. -/
theorem latestPage_ok {h0 h1 p : HPage} {hd : Header} (hl : latestPage h0 h1 = .ok p) (hn : p.node = .header hd) :
    ∃ a b, h0.node = .header a ∧ h1.node = .header b ∧ a.tsn ≤ hd.tsn ∧ b.tsn ≤ hd.tsn := by
  unfold latestPage at hl
  cases e0 : asHeader h0.node with
  | error e => rw [e0] at hl; cases hl
  | ok a =>
    cases e1 : asHeader h1.node with
    | error e => rw [e0, e1] at hl; cases hl
    | ok b =>
      rw [e0, e1] at hl
      have h0n : h0.node = .header a := by
        unfold asHeader at e0; split at e0 <;> cases e0; assumption
      have h1n : h1.node = .header b := by
        unfold asHeader at e1; split at e1 <;> cases e1; assumption
      refine ⟨a, b, h0n, h1n, ?_⟩
      have hl : (if b.tsn > a.tsn then Except.ok h1 else .ok h0 : Except Err HPage) = .ok p := hl
      split at hl
      · cases hl; rw [h1n] at hn; cases hn; omega
      · cases hl; rw [h0n] at hn; cases hn; omega

/-- Pinning a newer header makes it the latest. -/
theorem latestPage_pin {m : Opened} {p p' : HPage} {hd hd' : Header} (hl : latestPage m.h0 m.h1 = .ok p) (hn : p.node = .header hd)
    (hn' : p'.node = .header hd') (ht : hd.tsn < hd'.tsn) : latestPage (pinHeader p' m).h0 (pinHeader p' m).h1 = .ok p' := by
  obtain ⟨a, b, h0, h1, ha, hb⟩ := latestPage_ok hl hn
  unfold pinHeader latestPage
  split
  · simp only [hn', h1]
    show (if b.tsn > hd'.tsn then Except.ok m.h1 else .ok p') = .ok p'
    rw [if_neg (by omega)]
  · simp only [hn', h0]
    show (if hd'.tsn > a.tsn then Except.ok p' else .ok m.h0) = .ok p'
    rw [if_pos (by omega)]

/-- Pages that are not dirty come from the old database. -/
theorem LiveAt.clean (L : LiveAt c hc H d hp h PE PT PK PF ix F s) {o : Option Nat} {X : Multiset Nat} {P : Multiset (Nat × Node)}
    (hown : Own w (May h F o) X P) (hX : ∀ x ∈ F, ¬ oldEnough o x.2 = true → x.1 ∈ X) (hb : ∀ p, Rests h F p → w.base p = d.base c p) {p : Nat} {n : Node}
    (hpn : (p, n) ∈ P) (hd : p ∉ w.dirty.ids) : (p, n) ∈ PF + (PE + PT + PK) := by
  have hm : ¬ May h F o p := (hown.clean p (mem_ids_of hpn)).resolve_left hd
  have hlt := hown.lt (mem_ids_of hpn)
  have hbody : p ∈ bodyIds h.nextPage := by
    refine mem_bodyIds.mpr ⟨hlt.1, ?_⟩
    by_contra hge
    exact hm (.inl (by omega))
  rw [← L.account, Multiset.mem_add] at hbody
  rcases hbody with hin | hfr
  · obtain ⟨m, hpm⟩ := mem_ids.mp hin
    have h1 := L.sees p m hpm
    have h2 := hown.sees p n hpn
    unfold Writer.view at h2
    cases hg : w.dirty.get p with
    | some k => exact absurd (Pages.mem_ids.mpr ⟨k, hg⟩) hd
    | none =>
      rw [hg, hb p ⟨(L.body hin).1, (L.body hin).2, Multiset.disjoint_left.mp (Multiset.nodup_add.mp L.nodup).2.2 hin⟩, h1] at h2
      cases h2; exact hpm
  · obtain ⟨⟨q, t⟩, hx, rfl⟩ := Multiset.mem_map.mp hfr
    exfalso
    by_cases ho : oldEnough o t = true
    · exact hm (.inr ⟨t, hx, ho⟩)
    · have h1 := hX _ hx ho
      have h2 := hown.nodup
      rw [add_assoc, add_assoc] at h2
      exact Multiset.disjoint_left.mp (Multiset.nodup_add.mp h2).2.2 (mem_ids_of hpn) (by simp [h1])

/-- From the database `d` to `d'` by a commit that could reuse pages freed up to `o`. -/
structure CommitAt (c : Conf) (o : Option Nat) (d : PDb) (hp : HPage) (h : Header) (P : Multiset (Nat × Node)) (F : Multiset (Nat × Nat))
    (d' : PDb) (hp' : HPage) (h' : Header) (P' : Multiset (Nat × Node)) (F' : Multiset (Nat × Nat)) : Prop where
  tsn : h'.tsn = h.tsn + 1
  grows : h.nextPage ≤ h'.nextPage
  /-- Pages of the old state are still in use or now free, freed by this transaction. -/
  kept : ∀ x ∈ P, x ∈ P' ∨ (x.1, h'.tsn) ∈ F'
  /-- What was free and too new to be taken is still free. -/
  later : ∀ x ∈ F, ¬ oldEnough o x.2 = true → x ∈ F'
  /-- Entries of the free list are old ones or made by this transaction. -/
  entries : ∀ x ∈ F', x ∈ F ∨ x.2 = h'.tsn
  other : hp'.id ≠ hp.id
  pinned : d'.m = pinHeader hp' d.m
  stored : readPage c.g d.m.kw hp'.id d'.file = .ok hp'.node
  touched : ∃ l, (∀ p ∈ l, May h F o p ∧ 2 ≤ p ∧ p ∈ ids P') ∧ Touched c.g.pageSize (hp'.id :: l) d.file d'.file

/-- The header a transaction writes, mvcc.rs 2412-2436. -/
def newHeader (w : Writer) (schema : Nat) : Header :=
  ⟨w.tsn, w.freeRoot, w.eventsRoot, w.tagsRoot, w.nextPage, w.nextPos, schema, w.trackRoot⟩

/-- The free list after a transaction that freed the pages `N`. -/
def newFree (w : Writer) (N : Multiset Nat) (F : Multiset (Nat × Nat)) (o : Option Nat) : Multiset (Nat × Nat) :=
  (w.reusable : Multiset (Nat × Nat)) + (N.map (fun p => (p, w.tsn)) + F.filter fun x => ¬ oldEnough o x.2 = true)

/-- A transaction with settled free list, ready to be written. -/
structure Ready (c : Conf) {kw : Nat} (hc : ConfOk c kw) (H : String → Db.TagHash) (d : PDb) (h : Header) (F : Multiset (Nat × Nat))
    (o : Option Nat) (w : Writer) (PE PT PK PF : Multiset (Nat × Node)) (ix : Nat → List Nat) (N : Multiset Nat) (s : Spec.Db) :
    Prop where
  base : ∀ p, Rests h F p → w.base p = d.base c p
  tsn : w.tsn = h.tsn + 1
  inv : ∃ Old, FreeInv kw c.g.pageSize hc.ps Old (May h F o) (PE + PT + PK) w PF
    (N.map (fun p => (p, w.tsn)) + F.filter fun x => ¬ oldEnough o x.2 = true) []
  freed : w.freed = []
  reused : w.reused = []
  queue : ∀ x ∈ w.reusable, x ∈ F
  trees : Trees kw c.g.pageSize hc.ps hc.kw w.eventsRoot w.tagsRoot w.trackRoot PE PT PK s.log ix s.track
  index : ∀ t, ix t = Db.idxOf H s.log t
  next : w.nextPos = s.log.length + 1
  grows : h.nextPage ≤ w.nextPage

variable {o : Option Nat} {PE' PT' PK' PF' : Multiset (Nat × Node)} {ix' : Nat → List Nat} {N : Multiset Nat} {s' : Spec.Db}

theorem Ready.own (R : Ready c hc H d h F o w PE' PT' PK' PF' ix' N s') : Own w (May h F o)
    ((N.map (fun p => (p, w.tsn)) + F.filter fun x => ¬ oldEnough o x.2 = true).map (·.1)) (PF' + (PE' + PT' + PK')) := by
  obtain ⟨Old, hi⟩ := R.inv
  simpa using hi.own

theorem Ready.width (R : Ready c hc H d h F o w PE' PT' PK' PF' ix' N s') : w.kw = kw := by
  obtain ⟨Old, hi⟩ := R.inv
  exact hi.wkw

theorem Ready.not_dirty (R : Ready c hc H d h F o w PE' PT' PK' PF' ix' N s') (L : LiveAt c hc H d hp h PE PT PK PF ix F s) :
    ∀ p ∈ w.dirty.ids, p ∉ ids (PF + (PE + PT + PK)) := fun p hp hp' => L.not_may hp' (R.own.mayDirty p hp)

theorem Ready.clean (R : Ready c hc H d h F o w PE' PT' PK' PF' ix' N s') (L : LiveAt c hc H d hp h PE PT PK PF ix F s) {p : Nat}
    {n : Node} (hpn : (p, n) ∈ PF' + (PE' + PT' + PK')) (hd : p ∉ w.dirty.ids) : (p, n) ∈ PF + (PE + PT + PK) :=
  L.clean R.own (fun x hx ho => Multiset.mem_map.mpr ⟨x, Multiset.mem_add.mpr (.inr (Multiset.mem_filter.mpr ⟨hx, ho⟩)), rfl⟩)
    R.base hpn hd

/-- The new database, given a file with the dirty pages and the undisturbed old ones. -/
theorem Ready.live (R : Ready c hc H d h F o w PE' PT' PK' PF' ix' N s') (L : LiveAt c hc H d hp h PE PT PK PF ix F s)
    {d' : PDb} {hp' : HPage} {schema : Nat} (hl : latestPage d'.m.h0 d'.m.h1 = .ok hp') (hn : hp'.node = .header (newHeader w schema))
    (hs : hp'.id = 0 ∨ hp'.id = 1) (hkw : d'.m.kw = kw)
    (hread : ∀ p n, w.dirty.get p = some n → readPage c.g kw p d'.file = .ok n)
    (hkeep : ∀ p n, (p, n) ∈ PF + (PE + PT + PK) → readPage c.g kw p d'.file = .ok n)
    (hcache1 : ∀ p n m, w.dirty.get p = some n → d'.cache p = some m → m = n)
    (hcache2 : ∀ p n m, (p, n) ∈ PF + (PE + PT + PK) → d'.cache p = some m → m = n) (hz : d'.file.Zeroed) :
    LiveAt c hc H d' hp' (newHeader w schema) PE' PT' PK' PF' ix' (newFree w N F o) s' := by
  obtain ⟨Old, hinv⟩ := R.inv
  have hown := R.own
  refine ⟨hl, hn, hs, hkw, R.trees, R.index, ?_, ?_, ?_, ?_, ?_, hown.limit, R.next, hz⟩
  · obtain ⟨es, h1, -, h3⟩ := hinv.rep
    rw [R.reused, List.nil_append] at h3
    exact ⟨es, h1, h3⟩
  · intro x hx
    rcases Multiset.mem_add.mp hx with hx | hx
    · exact Nat.le_of_lt (hinv.older _ (hinv.old x (by rw [R.reused, List.nil_append]; exact Multiset.mem_coe.mp hx)))
    · exact hinv.le x hx
  · intro p n hpn
    by_cases hd : p ∈ w.dirty.ids
    · exact hread p n (hown.dirty_eq hpn (Pages.mem_ids.mp hd))
    · exact hkeep p n (R.clean L hpn hd)
  · intro p n m hpn hm
    by_cases hd : p ∈ w.dirty.ids
    · exact hcache1 p n m (hown.dirty_eq hpn (Pages.mem_ids.mp hd)) hm
    · exact hcache2 p n m (R.clean L hpn hd) hm
  · have := hown.account
    rw [R.freed] at this
    unfold newFree
    rw [Multiset.map_add, ← add_assoc]
    simpa [newHeader] using this

/-- What happens to the old pages. -/
theorem Ready.kept (R : Ready c hc H d h F o w PE' PT' PK' PF' ix' N s') (L : LiveAt c hc H d hp h PE PT PK PF ix F s) :
    ∀ x ∈ PF + (PE + PT + PK), x ∈ PF' + (PE' + PT' + PK') ∨ (x.1, w.tsn) ∈ newFree w N F o := by
  rintro ⟨p, n⟩ hpn
  have hlt := L.body (mem_ids_of hpn)
  have hg := R.grows
  have hbody : p ∈ bodyIds w.nextPage := mem_bodyIds.mpr ⟨hlt.1, by omega⟩
  rw [← R.own.account, R.freed] at hbody
  simp only [Multiset.coe_nil, add_zero, Multiset.map_add, Multiset.mem_add, Multiset.mem_coe, List.mem_map] at hbody
  have hnotF : ∀ t, (p, t) ∉ F := fun t htF => Multiset.disjoint_left.mp (Multiset.nodup_add.mp L.nodup).2.2 (mem_ids_of hpn)
    (Multiset.mem_map.mpr ⟨_, htF, rfl⟩)
  rcases hbody with (hin | ⟨⟨q, t⟩, hq, rfl⟩) | hN | hR
  · left
    obtain ⟨m, hm⟩ := mem_ids.mp hin
    have hd : p ∉ w.dirty.ids := fun hd => R.not_dirty L p hd (mem_ids_of hpn)
    have h1 := L.sees p m (R.clean L hm hd)
    rw [L.sees p n hpn] at h1
    cases h1; exact hm
  · exact absurd (R.queue _ hq) (hnotF t)
  · right
    refine Multiset.mem_add.mpr (.inr (Multiset.mem_add.mpr (.inl ?_)))
    obtain ⟨⟨q, t⟩, hq, rfl⟩ := Multiset.mem_map.mp hN
    obtain ⟨q', hq', e⟩ := Multiset.mem_map.mp hq
    cases e
    exact Multiset.mem_map.mpr ⟨_, hq', rfl⟩
  · obtain ⟨⟨q, t⟩, hq, rfl⟩ := Multiset.mem_map.mp hR
    exact absurd (Multiset.mem_filter.mp hq).1 (hnotF t)

theorem SafeAt.cached {P : Multiset (Nat × Node)} (S : SafeAt c kw d hp h P) (cache : Nat → Option Node) :
    SafeAt c kw { d with cache := cache } hp h P := ⟨S.1, S.2, S.3, S.4, S.5, S.6, S.7, S.8⟩

/-- After the data pages are written, in whatever way, and synced. -/
theorem Ready.settled (R : Ready c hc H d h F o w PE' PT' PK' PF' ix' N s') (L : LiveAt c hc H d hp h PE PT PK PF ix F s)
    (S : SafeAt c kw d hp h (PF + (PE + PT + PK))) {f : File} (htouch : Touched c.g.pageSize w.dirty.ids d.file f) :
    SafeAt c kw (PDb.fsync c w.dirty.ids { d with file := f }) hp h (PF + (PE + PT + PK)) ∧
    (∀ p ∈ (PDb.fsync c w.dirty.ids { d with file := f }).loose, p ∉ w.dirty.ids) ∧
    (∀ k, readPage c.g k hp.id f = .ok (.header h)) ∧ (d.doubt = false → OtherOk c.g f (1 - hp.id) h) := by
  have hown := R.own
  have hmay := R.not_dirty L
  have hdirty2 : ∀ p ∈ w.dirty.ids, 2 ≤ p := fun p hp => (hown.lt (hown.dirtyIn p hp)).1
  have hslot0 := L.slot
  obtain ⟨d1, hd1⟩ : ∃ d1, d1 = PDb.fsync c w.dirty.ids { d with file := f } := ⟨_, rfl⟩
  rw [← hd1]
  have e1 : d1.m = d.m := by rw [hd1]; rfl
  have e2 : d1.file = f := by rw [hd1]; rfl
  have e3 : d1.cache = d.cache := by rw [hd1]; rfl
  have e4 : d1.loose = d.loose.filter (· ∉ w.dirty.ids) := by rw [hd1]; rfl
  have e5 : d1.disk = synced c.g.pageSize d1.loose d.disk f := by rw [hd1]; rfl
  have e6 : d1.doubt = d.doubt := by rw [hd1]; rfl
  have hlen : 2 * c.g.pageSize ≤ f.len := Nat.le_trans S.len (Nat.le_trans S.touched.len htouch.len)
  have hbig : Touched c.g.pageSize (d.loose ++ w.dirty.ids) d.disk f :=
    (S.touched.mono fun p hp => List.mem_append_left _ hp).trans (htouch.mono fun p hp => List.mem_append_right _ hp)
  have hfile : ∀ p n, (p, n) ∈ PF + (PE + PT + PK) → readPage c.g kw p f = .ok n := fun p n hpn =>
    htouch.read (fun hm => hmay p hm (mem_ids_of hpn)) (L.file p n hpn)
  have hapart1 : ∀ p ∈ d1.loose, p ∉ ids (PF + (PE + PT + PK)) ∧ p ≠ hp.id ∧ p ∉ w.dirty.ids := by
    intro p hp
    rw [e4] at hp
    obtain ⟨h1, h2⟩ := List.mem_filter.mp hp
    exact ⟨(S.apart p h1).1, (S.apart p h1).2, by simpa using h2⟩
  have hheadf : ∀ kw, readPage c.g kw hp.id f = .ok (.header h) := fun k =>
    htouch.read (fun hm => by have := hdirty2 _ hm; omega) (S.touched.read (fun hm => (S.apart _ hm).2 rfl) (S.head k))
  have hother : d.doubt = false → OtherOk c.g f (1 - hp.id) h := fun hno =>
    (S.other hno).1.congr (htouch.same (fun hm => by have := hdirty2 _ hm; omega)
      (slot_len (by omega) (Nat.le_trans S.len S.touched.len)))
  refine ⟨?_, fun p hp => (hapart1 p hp).2.2, hheadf, hother⟩
  refine ⟨S.schema, ?_, fun p hp => ⟨(hapart1 p hp).1, (hapart1 p hp).2.1⟩, by rw [e5]; exact hlen, ?_, ?_, ?_, ?_⟩
  · rw [e5, e2]; exact synced_touched htouch.zeroed
  · rw [e5]; exact synced_zeroed hbig S.zeroed
  · intro k
    rw [e5, synced_read fun hm => (hapart1 _ hm).2.1 rfl]
    exact hheadf k
  · intro p n hpn
    rw [e5, synced_read fun hm => (hapart1 _ hm).1 (mem_ids_of hpn)]
    exact hfile p n hpn
  · intro hno
    rw [e2]
    refine ⟨hother (e6 ▸ hno), ?_⟩
    by_cases hj : 1 - hp.id ∈ d1.loose
    · refine (S.other (e6 ▸ hno)).2.congr fun k => readPage_same ?_ ?_ ?_ k
      · exact slot_len (by omega) S.len
      · rw [e5]; exact Nat.le_trans S.touched.len htouch.len
      · intro j hj'
        rw [e5]
        simp only [synced]
        rw [if_pos ⟨_, hj, by omega, by omega⟩]
    · refine (hother (e6 ▸ hno)).congr fun k => ?_
      rw [e5]; exact synced_read hj k

/-- After `write_pages`. -/
theorem Ready.written (R : Ready c hc H d h F o w PE' PT' PK' PF' ix' N s') (L : LiveAt c hc H d hp h PE PT PK PF ix F s)
    (hfit : ∀ x ∈ w.dirty, NodeFits kw x.2) {n : Nat} {f : File}
    (hwr : writePages c.g w.kw c.zeroFill w.dirty d.file = (.ok n, f)) :
    Touched c.g.pageSize w.dirty.ids d.file f ∧ ∀ p n, w.dirty.get p = some n → readPage c.g kw p f = .ok n := by
  have ps9 : 9 ≤ c.g.pageSize := by have := hc.ps; omega
  obtain ⟨htouch, hres⟩ := writePages_spec ps9 hc.big hc.kw c.zeroFill R.own.dirtyNodup hfit L.zeroed
  rw [← R.width, hwr] at htouch hres
  rcases hres with ⟨m, -, hread⟩ | ⟨e, herr, -⟩
  · exact ⟨htouch, fun p n hpn => by rw [← R.width]; exact hread p n hpn⟩
  · cases herr

/-- After the header is written too, in whatever way, synced and pinned, and the pages put in the cache. -/
theorem Ready.headed (R : Ready c hc H d h F o w PE' PT' PK' PF' ix' N s') (L : LiveAt c hc H d hp h PE PT PK PF ix F s)
    (S : SafeAt c kw d hp h (PF + (PE + PT + PK))) (keep : Nat → Bool) {f f' : File}
    (htouch : Touched c.g.pageSize w.dirty.ids d.file f) (hread : ∀ p n, w.dirty.get p = some n → readPage c.g kw p f = .ok n)
    (ht1 : Touched c.g.pageSize [1 - hp.id] f f') (hr1 : readPage c.g kw (1 - hp.id) f' = .ok (.header (newHeader w h.schema))) :
    LiveAt c hc H { PDb.fsync c [1 - hp.id] { { PDb.fsync c w.dirty.ids { d with file := f } with
        cache := cacheAfter keep w.dirty d.cache } with file := f' } with
        m := pinHeader ⟨1 - hp.id, .header (newHeader w h.schema)⟩ d.m, doubt := false }
      ⟨1 - hp.id, .header (newHeader w h.schema)⟩ (newHeader w h.schema) PE' PT' PK' PF' ix' (newFree w N F o) s' ∧
    SafeAt c kw { PDb.fsync c [1 - hp.id] { { PDb.fsync c w.dirty.ids { d with file := f } with
        cache := cacheAfter keep w.dirty d.cache } with file := f' } with
        m := pinHeader ⟨1 - hp.id, .header (newHeader w h.schema)⟩ d.m, doubt := false }
      ⟨1 - hp.id, .header (newHeader w h.schema)⟩ (newHeader w h.schema) (PF' + (PE' + PT' + PK')) ∧
    CommitAt c o d hp h (PF + (PE + PT + PK)) F { PDb.fsync c [1 - hp.id] { { PDb.fsync c w.dirty.ids { d with file := f } with
        cache := cacheAfter keep w.dirty d.cache } with file := f' } with
        m := pinHeader ⟨1 - hp.id, .header (newHeader w h.schema)⟩ d.m, doubt := false }
      ⟨1 - hp.id, .header (newHeader w h.schema)⟩ (newHeader w h.schema) (PF' + (PE' + PT' + PK')) (newFree w N F o) := by
  have hown := R.own
  have hmay := R.not_dirty L
  have hdirty2 : ∀ p ∈ w.dirty.ids, 2 ≤ p := fun p hp => (hown.lt (hown.dirtyIn p hp)).1
  have hslot0 := L.slot
  have hslot : 1 - hp.id = 0 ∨ 1 - hp.id = 1 := by omega
  obtain ⟨S1, hloose1, hheadf, hother⟩ := R.settled L S htouch
  have hcacheOld : ∀ p n, (p, n) ∈ PF + (PE + PT + PK) → ∀ m, cacheAfter keep w.dirty d.cache p = some m → m = n := by
    intro p n hpn m hm
    unfold cacheAfter at hm
    split at hm
    · split at hm
      · next k hk => exact absurd (mem_ids_of hpn) (hmay p (Pages.mem_ids.mpr ⟨k, hk⟩))
      · exact L.cache p n m hpn hm
    · cases hm
  have S1 := S1.cached (cacheAfter keep w.dirty d.cache)
  obtain ⟨d1, hd1⟩ : ∃ d1, d1 = { PDb.fsync c w.dirty.ids { d with file := f } with cache := cacheAfter keep w.dirty d.cache } :=
    ⟨_, rfl⟩
  rw [← hd1] at S1
  have e1 : d1.m = d.m := by rw [hd1]; rfl
  have e2 : d1.file = f := by rw [hd1]; rfl
  have e3 : d1.cache = cacheAfter keep w.dirty d.cache := by rw [hd1]
  have hlen : 2 * c.g.pageSize ≤ f.len := Nat.le_trans S.len (Nat.le_trans S.touched.len htouch.len)
  have L1 : LiveAt c hc H d1 hp h PE PT PK PF ix F s :=
    L.elsewhere (l := w.dirty.ids) e1 (by rw [e2]; exact htouch) hmay (by rw [e3]; exact hcacheOld)
  have hapart1 : ∀ p ∈ d1.loose, p ∉ ids (PF + (PE + PT + PK)) ∧ p ≠ hp.id ∧ p ∉ w.dirty.ids := fun p hp =>
    ⟨(S1.apart p hp).1, (S1.apart p hp).2, hloose1 p (by rw [hd1] at hp; exact hp)⟩
  obtain ⟨d2, hd2⟩ : ∃ d2 : PDb, d2 = { PDb.fsync c [1 - hp.id] { d1 with file := f' } with
      m := pinHeader ⟨1 - hp.id, .header (newHeader w h.schema)⟩ d1.m, doubt := false } := ⟨_, rfl⟩
  have g2 : d2.file = f' := by rw [hd2]; rfl
  have g3 : d2.cache = cacheAfter keep w.dirty d.cache := by rw [hd2, ← e3]; rfl
  have g4 : d2.loose = d1.loose.filter (· ∉ [1 - hp.id]) := by rw [hd2]; rfl
  have g5 : d2.disk = synced c.g.pageSize d2.loose d1.disk f' := by rw [hd2]; rfl
  have g1 : d2.m = pinHeader ⟨1 - hp.id, .header (newHeader w h.schema)⟩ d.m := by rw [hd2, ← e1]
  have hheadf' : ∀ k, readPage c.g k hp.id f' = .ok (.header h) := fun k =>
    ht1.read (by simp only [List.mem_singleton]; omega) (hheadf k)
  have hnew : ∀ k, readPage c.g k (1 - hp.id) f' = .ok (.header (newHeader w h.schema)) := readPage_header_width hr1
  have hapart2 : ∀ p ∈ d2.loose, p ∉ ids (PF' + (PE' + PT' + PK')) ∧ p ≠ hp.id ∧ p ≠ 1 - hp.id := by
    intro p hp
    rw [g4] at hp
    obtain ⟨h1, h2⟩ := List.mem_filter.mp hp
    refine ⟨fun hin => ?_, (hapart1 p h1).2.1, by simpa using h2⟩
    obtain ⟨n, hn⟩ := mem_ids.mp hin
    exact (hapart1 p h1).1 (mem_ids_of (R.clean L hn (hapart1 p h1).2.2))
  have L2 : LiveAt c hc H d2 ⟨1 - hp.id, .header (newHeader w h.schema)⟩ (newHeader w h.schema) PE' PT' PK' PF' ix' (newFree w N F o) s' := by
    refine R.live L ?_ rfl hslot ?_ ?_ ?_ ?_ ?_ (by rw [g2]; exact ht1.zeroed)
    · rw [g1]; exact latestPage_pin L.latest L.node rfl (by have := R.tsn; simp only [newHeader]; omega)
    · rw [g1]
      unfold pinHeader
      split <;> exact L.width
    · intro p n hpn
      have hlt := hdirty2 p (Pages.mem_ids.mpr ⟨n, hpn⟩)
      rw [g2]
      refine ht1.read (by simp only [List.mem_singleton]; omega) ?_
      exact hread p n hpn
    · intro p n hpn
      have hlt := L.body (mem_ids_of hpn)
      rw [g2]
      exact ht1.read (by simp only [List.mem_singleton]; omega) (e2 ▸ L1.file p n hpn)
    · intro p n m hpn hm
      rw [g3] at hm
      simp only [cacheAfter, hpn] at hm
      split at hm <;> cases hm
      rfl
    · intro p n m hpn hm
      rw [g3] at hm
      exact hcacheOld p n hpn m hm
  have goal : d2 = { PDb.fsync c [1 - hp.id] { { PDb.fsync c w.dirty.ids { d with file := f } with
        cache := cacheAfter keep w.dirty d.cache } with file := f' } with
        m := pinHeader ⟨1 - hp.id, .header (newHeader w h.schema)⟩ d.m, doubt := false } := by rw [hd2, e1, hd1]; rfl
  rw [← goal]
  refine ⟨L2, ?_, ?_⟩
  · have hback : 1 - (1 - hp.id) = hp.id := by omega
    have hold : ∀ f'' : File, (∀ k, readPage c.g k hp.id f'' = .ok (.header h)) → OtherOk c.g f'' hp.id (newHeader w h.schema) :=
      fun f'' hr => .inr ⟨h, hr, .inl (by have := R.tsn; simp only [newHeader]; omega)⟩
    refine ⟨S.schema, ?_, fun p hp => ⟨(hapart2 p hp).1, (hapart2 p hp).2.2⟩, ?_, ?_, ?_, ?_, ?_⟩
    · rw [g5, g2]; exact synced_touched ht1.zeroed
    · rw [g5]; exact Nat.le_trans hlen ht1.len
    · rw [g5]
      exact synced_zeroed (l' := d1.loose ++ [1 - hp.id]) (disk := d1.disk) (f := f') ((S1.touched.mono fun p hp => List.mem_append_left _ hp).trans
        ((e2.symm ▸ ht1).mono fun p hp => List.mem_append_right _ hp)) S1.zeroed
    · intro k
      show readPage c.g k (1 - hp.id) _ = _
      rw [g5, synced_read fun hm => (hapart2 _ hm).2.2 rfl]; exact hnew k
    · intro p n hpn
      rw [g5, synced_read fun hm => (hapart2 _ hm).1 (mem_ids_of hpn), ← g2]
      exact L2.file p n hpn
    · intro _
      show OtherOk c.g d2.file (1 - (1 - hp.id)) _ ∧ OtherOk c.g d2.disk (1 - (1 - hp.id)) _
      rw [hback, g2]
      refine ⟨hold _ hheadf', hold _ fun k => ?_⟩
      rw [g5, synced_read fun hm => (hapart2 _ hm).2.1 rfl]; exact hheadf' k
  · refine ⟨R.tsn, R.grows, R.kept L, fun x hx ho => ?_, fun x hx => ?_, ?_, g1, ?_, w.dirty.ids, fun p hp => ⟨hown.mayDirty p hp, hdirty2 p hp, hown.dirtyIn p hp⟩, ?_⟩
    · exact Multiset.mem_add.mpr (.inr (Multiset.mem_add.mpr (.inr (Multiset.mem_filter.mpr ⟨hx, ho⟩))))
    · unfold newFree at hx
      simp only [Multiset.mem_add, Multiset.mem_coe, Multiset.mem_map, Multiset.mem_filter] at hx
      rcases hx with hx | ⟨p, -, rfl⟩ | ⟨hx, -⟩
      · exact .inl (R.queue x hx)
      · exact .inr rfl
      · exact .inl hx
    · show 1 - hp.id ≠ hp.id
      omega
    · rw [g2]; exact hnew _
    · rw [g2]; exact (htouch.mono fun p hp => List.mem_cons_of_mem _ hp).trans (ht1.mono (by simp))

/-- `commit` after the free list is settled. -/
theorem commitPages_spec (R : Ready c hc H d h F o w PE' PT' PK' PF' ix' N s') (L : LiveAt c hc H d hp h PE PT PK PF ix F s)
    (S : SafeAt c kw d hp h (PF + (PE + PT + PK))) (io : IO) :
    (∃ d' hp', commitPages c io hp w d = (.ok (), d') ∧
      LiveAt c hc H d' hp' (newHeader w h.schema) PE' PT' PK' PF' ix' (newFree w N F o) s' ∧
      SafeAt c kw d' hp' (newHeader w h.schema) (PF' + (PE' + PT' + PK')) ∧ d'.doubt = false ∧
      CommitAt c o d hp h (PF + (PE + PT + PK)) F d' hp' (newHeader w h.schema) (PF' + (PE' + PT' + PK')) (newFree w N F o)) ∨
    ∃ e d', commitPages c io hp w d = (.error e, d') ∧ Db.Fatal e ∧ LiveAt c hc H d' hp h PE PT PK PF ix F s ∧
      SafeAt c kw d' hp h (PF + (PE + PT + PK)) ∧ d'.m = d.m := by
  have hown := R.own
  have hmay := R.not_dirty L
  have ps9 : 9 ≤ c.g.pageSize := by have := hc.ps; omega
  have hdirty2 : ∀ p ∈ w.dirty.ids, 2 ≤ p := fun p hp => (hown.lt (hown.dirtyIn p hp)).1
  have hslot0 := L.slot
  have hapart : ∀ p ∈ w.dirty.ids, p ∉ ids (PF + (PE + PT + PK)) ∧ p ≠ hp.id := fun p hp => ⟨hmay p hp, by
    have := hdirty2 p hp; omega⟩
  unfold commitPages
  split
  · exact .inr ⟨_, d, rfl, ⟨rfl, rfl, rfl⟩, L, S, rfl⟩
  next hfit =>
  have hfit : ∀ x ∈ w.dirty, NodeFits kw x.2 := by
    rw [R.width] at hfit; exact not_not.mp hfit
  split
  · refine .inr ⟨_, _, rfl, ⟨rfl, rfl, rfl⟩, ?_, ?_, rfl⟩
    · exact L.elsewhere (l := w.dirty.ids) rfl (scramble_touched _ _ L.zeroed) hmay fun p n hpn m hm => L.cache p n m hpn hm
    · exact S.loosen (l := w.dirty.ids) (scramble_touched _ _ L.zeroed) hapart rfl rfl (.inl ⟨rfl, hdirty2⟩)
  next hnf =>
  obtain ⟨htouch, hres⟩ := writePages_spec ps9 hc.big hc.kw c.zeroFill hown.dirtyNodup hfit L.zeroed
  rw [← R.width] at htouch hres
  cases hwr : writePages c.g w.kw c.zeroFill w.dirty d.file with
  | mk r f =>
  rw [hwr] at htouch hres
  rcases hres with ⟨m, hok, hread⟩ | ⟨e, herr, hfat⟩
  swap
  · simp only at herr
    subst herr
    refine .inr ⟨e, _, rfl, hfat, ?_, ?_, rfl⟩
    · exact L.elsewhere (l := w.dirty.ids) rfl htouch hmay fun p n hpn m hm => L.cache p n m hpn hm
    · exact S.loosen (l := w.dirty.ids) htouch hapart rfl rfl (.inl ⟨rfl, hdirty2⟩)
  simp only at hok hread htouch
  subst hok
  simp only
  obtain ⟨S1, hloose1, hheadf, hother⟩ := R.settled L S htouch
  have hcacheOld : ∀ p n, (p, n) ∈ PF + (PE + PT + PK) → ∀ m, cacheAfter io.keep w.dirty d.cache p = some m → m = n := by
    intro p n hpn m hm
    unfold cacheAfter at hm
    split at hm
    · split at hm
      · next k hk => exact absurd (mem_ids_of hpn) (hmay p (Pages.mem_ids.mpr ⟨k, hk⟩))
      · exact L.cache p n m hpn hm
    · cases hm
  have S1 := S1.cached (cacheAfter io.keep w.dirty d.cache)
  obtain ⟨d1, hd1⟩ : ∃ d1, d1 = { PDb.fsync c w.dirty.ids { d with file := f } with cache := cacheAfter io.keep w.dirty d.cache } :=
    ⟨_, rfl⟩
  rw [← hd1] at S1 ⊢
  have e1 : d1.m = d.m := by rw [hd1]; rfl
  have e2 : d1.file = f := by rw [hd1]; rfl
  have e3 : d1.cache = cacheAfter io.keep w.dirty d.cache := by rw [hd1]
  have hlen : 2 * c.g.pageSize ≤ f.len := Nat.le_trans S.len (Nat.le_trans S.touched.len htouch.len)
  have L1 : LiveAt c hc H d1 hp h PE PT PK PF ix F s :=
    L.elsewhere (l := w.dirty.ids) e1 (by rw [e2]; exact htouch) hmay (by rw [e3]; exact hcacheOld)
  have hapart1 : ∀ p ∈ d1.loose, p ∉ ids (PF + (PE + PT + PK)) ∧ p ≠ hp.id ∧ p ∉ w.dirty.ids := fun p hp =>
    ⟨(S1.apart p hp).1, (S1.apart p hp).2, hloose1 p (by rw [hd1] at hp; exact hp)⟩
  unfold commitHead
  have hcow : cowHeader hp w.roots = .ok ⟨if hp.id = 0 then 1 else 0, .header (newHeader w h.schema)⟩ := by
    unfold cowHeader
    rw [L.node]; rfl
  have hj : (if hp.id = 0 then 1 else 0) = 1 - hp.id := by split <;> omega
  rw [hcow, hj]
  simp only
  split
  · exact .inr ⟨_, d1, rfl, ⟨rfl, rfl, rfl⟩, L1, S1, e1⟩
  next hfit' =>
  have hfit' := not_not.mp hfit'
  have hslot : 1 - hp.id = 0 ∨ 1 - hp.id = 1 := by omega
  have hid : ∀ p ∈ [1 - hp.id], p ∉ ids (PF + (PE + PT + PK)) ∧ p ≠ hp.id := by
    intro p hp
    simp only [List.mem_singleton] at hp
    constructor
    · intro hp'
      have := L.body hp'
      omega
    · omega
  split
  · refine .inr ⟨_, _, rfl, ⟨rfl, rfl, rfl⟩, ?_, ?_, e1⟩
    · exact L1.elsewhere (l := [1 - hp.id]) rfl (scramble_touched _ _ L1.zeroed) (fun p hp => (hid p hp).1)
        (fun p n hpn m hm => L1.cache p n m hpn hm)
    · have := S1.loosen (d' := { d1 with file := scramble c.g.pageSize [1 - hp.id] ‹File› d1.file, loose := d1.loose ++ [1 - hp.id], doubt := true })
        (scramble_touched _ _ L1.zeroed) hid rfl rfl (.inr rfl)
      refine ⟨this.schema, this.touched.mono ?_, fun p hp => this.apart p ?_, this.len, this.zeroed, this.head, this.pages, this.other⟩
      · intro p hp; simpa [or_comm] using hp
      · simpa [or_comm] using hp
  rcases writeOnePage_result ps9 hc.big (R.width ▸ hc.kw) (buf := (List.range c.g.pageSize).map io.buf) (by simp) c.zeroFill
    (1 - hp.id) hfit' L1.zeroed with ⟨f', hw1, ht1, hr1⟩ | ⟨e, hw1, hfat⟩
  swap
  · rw [hw1]
    exact .inr ⟨e, _, rfl, hfat, L1, S1, e1⟩
  rw [hw1]
  have hread : ∀ p n, w.dirty.get p = some n → readPage c.g kw p f = .ok n := fun p n hpn => by rw [← R.width]; exact hread p n hpn
  obtain ⟨h1, h2, h3⟩ := R.headed L S io.keep htouch hread (e2 ▸ ht1) (readPage_header_width hr1 kw)
  rw [hd1]
  exact .inl ⟨_, _, rfl, h1, h2, rfl, h3⟩

/-- Settling the free list. -/
theorem TxAt.ready (T : TxAt c hc d h F w PE' PT' PK' PF' ix' (Db.Abs.of H s'))
    {ord : Writer → List Nat} (hord : ∀ w, (ord w).Perm w.freed) : Run (processFreed ord) w fun _ w' => ∃ PF'' N,
      Ready c hc H d h F d.oldest w' PE' PT' PK' PF'' ix' N s' := by
  refine (processFreed_spec hord T.inv).mono ?_
  rintro _ w' ⟨P', N, S⟩
  have hs := S.same
  have hi := S.inv
  refine ⟨P', N, fun p hp => (congrFun hs.base p).trans (T.base p hp), hs.tsn.trans T.tsn, ⟨_, by rw [hs.tsn]; exact hi⟩, S.freed, S.reused, ?_, ?_, T.index,
    hs.nextPos.trans T.nextPos, Nat.le_trans T.grows hs.grows⟩
  · intro x hx
    obtain ⟨used, hu⟩ := S.suffix
    have : x ∈ w.reused ++ w.reusable := by rw [hu]; simp [hx]
    have : x ∈ F.filter fun x => oldEnough d.oldest x.2 = true := by rw [← T.queue]; exact Multiset.mem_coe.mpr this
    exact (Multiset.mem_filter.mp this).1
  · rw [hs.eventsRoot, hs.tagsRoot, hs.trackRoot]; exact T.trees

end Uma.Page
