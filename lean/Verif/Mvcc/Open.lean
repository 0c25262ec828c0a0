import Verif.Mvcc.WritePages

/-!
# Creating and opening a database; the header pages

`Mvcc::new`, umadb-core/src/mvcc.rs 239-534; `get_latest_header_page` 536-585; `write_header`, `pin_header`,
`read_header`, `read_page` 587-625; `cow_header_page` 2412-2436; `set_tag_key_width`, umadb-core/src/tags_tree_nodes.rs.

Simplifications: the page cache is left out (it holds what the file holds, see DESIGN.md); `read_header` reads an in-memory
copy and never fails, so only the first arm of the `match` in `get_latest_header_page` is reachable; errors of the
operating system are left out; the process-wide tag key width is a result of opening.
-/

namespace Uma.Mvcc
open Uma.Codec

/-- A pinned header page.  Note that after repairing a slot both pinned pages carry the page id of the good one. -/
structure HPage where
  id : Nat
  node : Node
deriving DecidableEq

/-- `pinned_headers` and the tag key width in force. -/
structure Opened where
  h0 : HPage
  h1 : HPage
  kw : Nat
deriving DecidableEq

/-- `as_header_node`, page.rs 81-90. -/
def asHeader : Node → Except Err Header
  | .header h => .ok h
  | _ => .error (.databaseCorrupted "Invalid header node type")

/-- `get_latest_header_page`, mvcc.rs 536-585. -/
def latestPage (h0 h1 : HPage) : Except Err HPage := do
  let n0 ← asHeader h0.node
  let n1 ← asHeader h1.node
  if n1.tsn > n0.tsn then .ok h1 else .ok h0

/-- `Mvcc::read_page`, mvcc.rs 603-625. -/
def readBodyPage (g : Pager) (kw id : Nat) (f : File) : Except Err Node :=
  if id = 0 ∨ id = 1 then .error (.internal "Do not read headers with read_page") else readPage g kw id f

/-- `PageRW::write_page`, mvcc.rs 202-212, and `write_page_data`, pager.rs 390-412: serialize into the page buffer
`buf`, then write it. -/
def writeOnePage (g : Pager) (kw : Nat) (buf : Bytes) (zeroFill : Bool) (id : Nat) (n : Node) (f : File) :
    Except Err Unit × File :=
  match serializePage kw buf zeroFill n with
  | .error e => (.error e, f)
  | .ok b =>
    if b.length ≠ g.pageSize then (.error (.internal "Page size mismatch"), f)
    else (.ok (), writeContiguous g id b f)

/-- Reading the two headers and repairing one from the other, mvcc.rs 400-437. -/
def openHeaders (g : Pager) (kw : Nat) (zeroFill : Bool) (f : File) : Except Err (HPage × HPage) × File :=
  match readPage g kw 0 f, readPage g kw 1 f with
  | .ok n0, .ok n1 => (.ok (⟨0, n0⟩, ⟨1, n1⟩), f)
  | .ok n0, .error _ =>
    match writeOnePage g kw (List.replicate g.pageSize 0) zeroFill 1 n0 f with
    | (.error e, f) => (.error e, f)
    | (.ok (), f) => (.ok (⟨0, n0⟩, ⟨0, n0⟩), f)
  | .error _, .ok n1 =>
    match serializePage kw (List.replicate g.pageSize 0) zeroFill n1 with
    | .error e => (.error e, f)
    | .ok buf =>
      match writeOnePage g kw buf zeroFill 0 n1 f with
      | (.error e, f) => (.error e, f)
      | (.ok (), f) => (.ok (⟨1, n1⟩, ⟨1, n1⟩), f)
  | .error e, .error _ => (.error e, f)

/-- `DB_SCHEMA_VERSION` and `TAG_HASH_LEN`. -/
def dbSchemaVersion : Nat := 1
def tagHashLen : Nat := 16

/-- The width chosen from the header, mvcc.rs 467-471. -/
def widthFor (schema : Nat) : Nat := if schema = 0 then 8 else tagHashLen

def isFreePage : Node → Bool
  | .freeInternal .. | .freeLeaf .. => true
  | _ => false
def isTagsPage : Node → Bool
  | .tagsInternal .. | .tagsLeaf .. => true
  | _ => false
def isEventsPage : Node → Bool
  | .eventInternal .. | .eventLeaf .. => true
  | _ => false
def isTrackingPage : Node → Bool
  | .trackInternal .. | .trackLeaf .. => true
  | _ => false

/-- One of the checks of mvcc.rs 496-530. -/
def checkRoot (g : Pager) (kw : Nat) (f : File) (id : Nat) (ok : Node → Bool) : Except Err Unit := do
  let n ← readBodyPage g kw id f
  if ok n then .ok () else .error (.databaseCorrupted "Page is of the wrong kind")

/-- mvcc.rs 520-530. -/
def checkTracking (g : Pager) (kw : Nat) (f : File) (root : Nat) : Except Err Unit :=
  if root ≠ 0 then checkRoot g kw f root isTrackingPage else .ok ()

/-- The checks after the headers, mvcc.rs 456-532; answers the tag key width. -/
def checkDatabase (g : Pager) (f : File) (h : Header) : Except Err Nat := do
  if h.schema > dbSchemaVersion then .error (.internal "Software version is too old.") else
    let kw := widthFor h.schema
    if h.schema = 1 ∧ (readBodyPage g tagHashLen h.tagsRoot f).toOption.isNone then
      .error (.initialization "Tag key width is too small for schema version.")
    else
      checkRoot g kw f h.freeRoot isFreePage
      checkRoot g kw f h.tagsRoot isTagsPage
      checkRoot g kw f h.eventsRoot isEventsPage
      checkTracking g kw f h.trackRoot
      .ok kw

/-- `Mvcc::new` for an existing file, mvcc.rs 397-534; `kw0` is the width left by an earlier database of the process. -/
def openExisting (g : Pager) (kw0 : Nat) (zeroFill : Bool) (f : File) : Except Err Opened × File :=
  match openHeaders g kw0 zeroFill f with
  | (.error e, f) => (.error e, f)
  | (.ok (h0, h1), f) =>
    (do
      let p ← latestPage h0 h1
      let h ← asHeader p.node
      let kw ← checkDatabase g f h
      .ok ⟨h0, h1, kw⟩, f)

/-- The first header of a new database, mvcc.rs 305-341. -/
def initialHeader : Header where
  tsn := 0
  freeRoot := 2
  eventsRoot := 3
  tagsRoot := 4
  nextPage := 5
  nextPosition := 1
  schema := dbSchemaVersion
  trackRoot := 0

/-- The first root pages, mvcc.rs 361-386. -/
def initialPages : List DirtyPage := [(2, .freeLeaf [] []), (3, .eventLeaf [] []), (4, .tagsLeaf [] [])]

/-- A file just created by `Pager::new`, pager.rs 62-77. -/
def emptyFile : File := ⟨0, 0, fun _ => 0⟩

/-- `Mvcc::new` for a new file up to the first `fsync`, mvcc.rs 297-391. -/
def createPages (g : Pager) (zeroFill : Bool) (f : File) : Except Err Nat × File :=
  writePages g tagHashLen zeroFill initialPages f

/-- The rest, mvcc.rs 393-399: header 1 is written first; the second call finds the first one's bytes in the buffer. -/
def createHeaders (g : Pager) (zeroFill : Bool) (f : File) : Except Err Unit × File :=
  match writeOnePage g tagHashLen (List.replicate g.pageSize 0) zeroFill 1 (.header initialHeader) f with
  | (.error e, f) => (.error e, f)
  | (.ok (), f) =>
    match serializePage tagHashLen (List.replicate g.pageSize 0) zeroFill (.header initialHeader) with
    | .error e => (.error e, f)
    | .ok buf => writeOnePage g tagHashLen buf zeroFill 0 (.header initialHeader) f

def create (g : Pager) (zeroFill : Bool) (f : File) : Except Err Opened × File :=
  match createPages g zeroFill f with
  | (.error e, f) => (.error e, f)
  | (.ok _, f) =>
    match createHeaders g zeroFill f with
    | (.error e, f) => (.error e, f)
    | (.ok (), f) => (.ok ⟨⟨0, .header initialHeader⟩, ⟨1, .header initialHeader⟩, tagHashLen⟩, f)

/-- What a transaction contributes to the next header, mvcc.rs 2412-2436. -/
structure NewRoots where
  tsn : Nat
  freeRoot : Nat
  eventsRoot : Nat
  tagsRoot : Nat
  nextPage : Nat
  nextPosition : Nat
  trackRoot : Nat

/-- `cow_header_page`: the other slot, the writer's values, the old schema version. -/
def cowHeader (p : HPage) (w : NewRoots) : Except Err HPage := do
  let h ← asHeader p.node
  .ok ⟨if p.id = 0 then 1 else 0,
    .header ⟨w.tsn, w.freeRoot, w.eventsRoot, w.tagsRoot, w.nextPage, w.nextPosition, h.schema, w.trackRoot⟩⟩

/-- `pin_header`, mvcc.rs 593-596. -/
def pinHeader (p : HPage) (m : Opened) : Opened := if p.id = 0 then { m with h0 := p } else { m with h1 := p }

/-- The header part of `commit`, mvcc.rs 838-846: copy on write from the latest header, write, sync, pin. -/
def commitHeader (g : Pager) (buf : Bytes) (zeroFill : Bool) (w : NewRoots) (m : Opened) (f : File) :
    Except Err Opened × File :=
  match (do let p ← latestPage m.h0 m.h1; cowHeader p w) with
  | .error e => (.error e, f)
  | .ok p =>
    match writeOnePage g m.kw buf zeroFill p.id p.node f with
    | (.error e, f) => (.error e, f)
    | (.ok (), f) => (.ok (pinHeader p m), f)

/-! ## Facts -/

/-- Every result satisfies `P`. -/
def Yields {α} (r : Reader α) (P : α → Prop) : Prop := ∀ bs a rest, r bs = .ok (a, rest) → P a

theorem Yields.pure {α} {P : α → Prop} {a : α} (h : P a) : Yields (Reader.pure a) P := by
  intro bs b rest hb
  simp only [Reader.pure, Except.ok.injEq, Prod.mk.injEq] at hb
  exact hb.1 ▸ h

theorem Yields.bind {α β} {r : Reader α} {f : α → Reader β} {P : α → Prop} {Q : β → Prop} (h : Yields r P)
    (hf : ∀ a, P a → Yields (f a) Q) : Yields (Reader.bind r f) Q := by
  intro bs b rest hb
  rw [Reader.bind] at hb
  cases hr : r bs with
  | error e => rw [hr] at hb; cases hb
  | ok p => rw [hr] at hb; exact hf p.1 (h _ _ _ hr) _ _ _ hb

theorem Yields.fail {α} {P : α → Prop} (e : Err) : Yields (Reader.fail e) P := by
  intro bs b rest hb; cases hb

theorem yields_int (k : Nat) : Yields (readInt k) (· < 256 ^ k) := by
  refine Yields.bind (P := fun b : Bytes => b.length = k) ?_ fun b hb => Yields.pure ?_
  · intro bs a rest h
    unfold readBytes at h
    split at h
    · cases h
    · cases h; simp; omega
  · subst hb
    induction b with
    | nil => simp [unle]
    | cons x b ih =>
      simp only [unle, List.length_cons, Nat.pow_succ]
      have := x.toNat_lt
      omega

theorem yields_ifRoom {α} {r : Reader α} {P : α → Prop} (h : Yields r P) {n : Nat} {d : α} (hd : P d) :
    Yields (ifRoom n r d) P := by
  intro bs a rest hb
  simp only [ifRoom, remaining, Reader.bind] at hb
  split at hb
  · exact h _ _ _ hb
  · exact Yields.pure hd _ _ _ hb

theorem yields_header : Yields decHeader fun h => NodeFits 0 (.header h) := by
  have h8 : ∀ {n}, n < 256 ^ 8 → U64 n := fun h => by simpa [U64] using h
  refine (yields_int 8).bind fun a ha => (yields_int 8).bind fun b hb => (yields_int 8).bind fun c hc =>
    (yields_int 8).bind fun d hd => (yields_int 8).bind fun e he => (yields_int 8).bind fun p hp =>
    (yields_ifRoom (yields_int 4) (by simp)).bind fun s hs =>
    (yields_ifRoom (P := fun _ => True) (fun _ _ _ _ => trivial) trivial).bind fun fl _ => ?_
  split
  · exact Yields.fail _
  · refine Yields.bind (P := fun t : Option Nat => ∀ x ∈ t, U64 x) ?_ fun t ht => Yields.pure ?_
    · unfold optionally
      split
      · refine (yields_int 8).bind fun x hx => Yields.pure ?_
        intro y hy; cases hy; exact h8 hx
      · exact Yields.pure (by simp)
    · refine ⟨h8 ha, h8 hb, h8 hc, h8 hd, h8 he, h8 hp, by simpa using hs, ?_⟩
      cases t with
      | none => simp [U64]
      | some x => exact ht x rfl

def IsHeader : Node → Prop
  | .header _ => True
  | _ => False

theorem Yields.then {α β} {r : Reader α} {f : α → Reader β} {Q : β → Prop} (hf : ∀ a, Yields (f a) Q) :
    Yields (Reader.bind r f) Q := Yields.bind (P := fun _ => True) (fun _ _ _ _ => trivial) fun a _ => hf a

theorem notHeader_leaf {ν} {mk : List Nat → List ν → Node} (h : ∀ a b, ¬ IsHeader (mk a b)) {k : Reader Nat}
    {v : Reader ν} : Yields (decLeaf mk k v) fun n => ¬ IsHeader n :=
  .then fun _ => .then fun _ => .then fun _ => .pure (h _ _)

theorem notHeader_implied {mk : List Nat → List Nat → Node} (h : ∀ a b, ¬ IsHeader (mk a b)) {k : Reader Nat} :
    Yields (decImplied mk k) fun n => ¬ IsHeader n :=
  .then fun _ => .then fun _ => .then fun _ => .pure (h _ _)

theorem notHeader_explicit {mk : List Nat → List Nat → Node} (h : ∀ a b, ¬ IsHeader (mk a b)) :
    Yields (decExplicit mk) fun n => ¬ IsHeader n :=
  .then fun _ => .then fun _ => .then fun _ => .then fun _ => .pure (h _ _)

theorem nodeReader_notHeader {kw ty : Nat} {r : Reader Node} (h : nodeReader kw ty = some r) (h1 : ty ≠ 0x31) :
    Yields r fun n => ¬ IsHeader n := by
  unfold Codec.nodeReader at h
  rw [if_neg h1] at h
  rcases ite_some h with ⟨_, rfl⟩ | ⟨_, h⟩
  · exact notHeader_leaf fun _ _ => id
  rcases ite_some h with ⟨_, rfl⟩ | ⟨_, h⟩
  · exact notHeader_explicit fun _ _ => id
  rcases ite_some h with ⟨_, rfl⟩ | ⟨_, h⟩
  · exact notHeader_leaf fun _ _ => id
  rcases ite_some h with ⟨_, rfl⟩ | ⟨_, h⟩
  · exact notHeader_implied fun _ _ => id
  rcases ite_some h with ⟨_, rfl⟩ | ⟨_, h⟩
  · exact .then fun _ => .then fun _ => .then fun _ => .pure id
  rcases ite_some h with ⟨_, rfl⟩ | ⟨_, h⟩
  · exact notHeader_leaf fun _ _ => id
  rcases ite_some h with ⟨_, rfl⟩ | ⟨_, h⟩
  · exact notHeader_implied fun _ _ => id
  rcases ite_some h with ⟨_, rfl⟩ | ⟨_, h⟩
  · exact .then fun _ => .then fun _ => .pure id
  rcases ite_some h with ⟨_, rfl⟩ | ⟨_, h⟩
  · exact notHeader_implied fun _ _ => id
  rcases ite_some h with ⟨_, rfl⟩ | ⟨_, h⟩
  · exact .then fun _ => .then fun _ => .pure id
  rcases ite_some h with ⟨_, rfl⟩ | ⟨_, h⟩
  · exact notHeader_explicit fun _ _ => id
  rcases ite_some h with ⟨_, rfl⟩ | ⟨_, h⟩
  · refine .then fun ver => .then fun _ => .then fun _ => .then fun _ => ?_
    by_cases hv : ver = 0
    · simp only [hv, if_true]; exact .pure id
    · simp only [hv, if_false]; exact .pure id
  rcases ite_some h with ⟨_, rfl⟩ | ⟨_, h⟩
  · refine .then fun ver => ?_
    by_cases hv : ver = 0
    · simp only [hv, if_true]; exact .fail _
    · simp only [hv, if_false]; exact .then fun _ => .then fun _ => .then fun _ => .pure id
  cases h

/-- Headers come from pages of the header type only. -/
theorem decode_header_type {kw ty : Nat} {body : Bytes} {h : Header} (hd : decode kw ty body = .ok (.header h)) :
    ty = 0x31 := by
  apply Classical.byContradiction
  intro h1
  unfold decode at hd
  cases hr : nodeReader kw ty with
  | none => rw [hr] at hd; cases hd
  | some r =>
    rw [hr] at hd
    simp only at hd
    cases hb : r body with
    | error e => rw [hb] at hd; cases hd
    | ok q =>
      obtain ⟨n, rest⟩ := q
      rw [hb] at hd
      simp only [Except.ok.injEq] at hd
      subst hd
      exact absurd trivial (nodeReader_notHeader hr h1 _ _ _ hb)

theorem decode_header {kw ty : Nat} {body : Bytes} {h : Header} (hd : decode kw ty body = .ok (.header h)) :
    NodeFits 0 (.header h) := by
  have h1 := decode_header_type hd
  subst h1
  have hy : Yields (decHeader.bind fun h => Reader.pure (Node.header h)) (fun n => NodeFits 0 n) :=
    yields_header.bind fun h hh => Yields.pure hh
  unfold decode at hd
  have hr : nodeReader kw 0x31 = some (decHeader.bind fun h => Reader.pure (Node.header h)) := rfl
  rw [hr] at hd
  simp only at hd
  cases hb : (decHeader.bind fun h => Reader.pure (Node.header h)) body with
  | error e => rw [hb] at hd; cases hd
  | ok q =>
    obtain ⟨n, rest⟩ := q
    rw [hb] at hd
    simp only [Except.ok.injEq] at hd
    subst hd
    exact hy _ _ _ hb

theorem readPage_header_fits {g : Pager} {kw i : Nat} {f : File} {h : Header}
    (hr : readPage g kw i f = .ok (.header h)) (kw' : Nat) : NodeFits kw' (.header h) := by
  unfold readPage at hr
  split at hr
  · cases hr
  · obtain ⟨ty, crc, body, -, -, hd⟩ := framed_of_ok hr
    exact decode_header hd

/-- Reading a page looks at the page's slot only. -/
theorem readPage_congr {g : Pager} {kw i : Nat} {f f' : File} {n : Node} (h : readPage g kw i f = .ok n)
    (hl : f.len ≤ f'.len) (hb : ∀ j, j < g.pageSize → f'.byte (i * g.pageSize + j) = f.byte (i * g.pageSize + j)) :
    readPage g kw i f' = .ok n := by
  have hlen : ¬ (f.readAt (i * g.pageSize) g.pageSize).length < g.pageSize := by
    intro hc
    unfold readPage readPageBytes at h
    rw [if_pos hc] at h
    cases h
  have hf : g.pageSize ≤ f.len - i * g.pageSize := by simp [File.readAt] at hlen; omega
  have : f'.readAt (i * g.pageSize) g.pageSize = f.readAt (i * g.pageSize) g.pageSize := by
    unfold File.readAt
    rw [Nat.min_eq_left hf, Nat.min_eq_left (by omega)]
    refine List.map_congr_left fun j hj => hb j (by simpa using hj)
  unfold readPage readPageBytes at h ⊢
  rw [this]
  exact h

theorem deserialize_slot {g : Pager} {kw i : Nat} {f : File} {b : Bytes} {n : Node} (hb : b.length = g.pageSize)
    (hs : Slot g.pageSize f i b) (hd : deserializePage kw b = .ok n) : readPage g kw i f = .ok n := by
  unfold readPage readPageBytes
  rw [readAt_of_slot hb hs, if_neg (by omega)]
  exact hd

/-- What writing one page does. -/
structure Wrote (g : Pager) (kw id : Nat) (n : Node) (f f' : File) : Prop where
  zeroed : f'.Zeroed
  len : f.len ≤ f'.len
  read : readPage g kw id f' = .ok n
  other : ∀ i, i < id * g.pageSize ∨ id * g.pageSize + g.pageSize ≤ i → f'.byte i = f.byte i

theorem Wrote.keep {g : Pager} {kw id : Nat} {n : Node} {f f' : File} (h : Wrote g kw id n f f') {kw' j : Nat} {m : Node}
    (hj : j ≠ id) (hr : readPage g kw' j f = .ok m) : readPage g kw' j f' = .ok m := by
  refine readPage_congr hr h.len fun k hk => h.other _ ?_
  rcases Nat.lt_or_gt_of_ne hj with hlt | hgt
  · have : (j + 1) * g.pageSize ≤ id * g.pageSize := Nat.mul_le_mul_right _ hlt
    rw [Nat.succ_mul] at this; omega
  · have : (id + 1) * g.pageSize ≤ j * g.pageSize := Nat.mul_le_mul_right _ hgt
    rw [Nat.succ_mul] at this; omega

theorem writeOnePage_spec {g : Pager} {kw : Nat} (hk : kw ≤ 16) {buf : Bytes} (hbuf : buf.length = g.pageSize)
    (hps : g.pageSize ≤ 2 ^ 32) {zero : Bool} {id : Nat} {n : Node} {f : File} (hz : f.Zeroed) (hf : NodeFits kw n)
    {b : Bytes} (hs : serializePage kw buf zero n = .ok b) :
    ∃ f', writeOnePage g kw buf zero id n f = (.ok (), f') ∧ Wrote g kw id n f f' := by
  obtain ⟨hd, hl⟩ := deserialize_serialize hk hf (by omega) hs
  have hbl : b.length = g.pageSize := by omega
  refine ⟨writeContiguous g id b f, ?_, zeroed_writeContiguous hz _ _, (writeContiguous_len _ _ _ _).1, ?_, ?_⟩
  · unfold writeOnePage
    rw [hs]
    simp only
    rw [if_neg (by simpa using hbl)]
  · refine deserialize_slot hbl ⟨?_, fun j hj => ?_⟩ hd
    · have := (writeContiguous_len g id b f).2; omega
    · rw [writeContiguous_in (by omega), List.getElem?_eq_getElem (by omega)]
  · intro i hi
    exact writeContiguous_out hz (by omega)

/-- Smallest page size in which every header fits. -/
theorem header_serializes {kw : Nat} (hk : kw ≤ 16) {buf : Bytes} (hb : 71 ≤ buf.length) (zero : Bool) (h : Header) :
    ∃ b, serializePage kw buf zero (.header h) = .ok b := by
  refine serialize_ok hk trivial rfl ?_
  simp only [pageSizeOf, pageHeaderSize, nodeSize]
  split <;> omega

/-- The width does not matter for headers. -/
theorem readPage_header_width {g : Pager} {kw i : Nat} {f : File} {h : Header}
    (hr : readPage g kw i f = .ok (.header h)) (kw' : Nat) : readPage g kw' i f = .ok (.header h) := by
  unfold readPage at hr ⊢
  cases hb : readPageBytes g i f with
  | error e => rw [hb] at hr; cases hr
  | ok b =>
    rw [hb] at hr
    obtain ⟨ty, crc, body, hfr, hc, hd⟩ := framed_of_ok hr
    simp only
    rw [deserialize_framed hfr, if_neg (by simpa using hc)]
    have := decode_header_type hd
    subst this
    exact hd

end Uma.Mvcc
