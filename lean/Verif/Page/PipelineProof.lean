import Verif.Page.Pipeline
import Verif.Page.Readers

/-!
# The pipelined writer is right

A batch built while another is in flight starts a transaction on the database as it will be once that one is durable; see
`FlyAt.opens`.
-/

namespace Uma.Page
open Uma.Codec Uma.Mvcc Uma.Spec

/-! ## Refreshing the list of reusable pages -/

/-- The operation reads pages and nothing else, whatever is in the queue of reusable pages. -/
def Reads {α : Type} (m : W α) : Prop :=
  ∀ w, ∃ ds, (m w).2 = { w with deser := ds } ∧ ∀ r, m { w with reusable := r } = ((m w).1, { w with deser := ds, reusable := r })

theorem Reads.pure {α : Type} (a : α) : Reads (Pure.pure a : W α) := fun w => ⟨w.deser, rfl, fun _ => rfl⟩

theorem Reads.fail {α : Type} (e : Err) : Reads (Uma.Page.fail e : W α) := fun w => ⟨w.deser, rfl, fun _ => rfl⟩

theorem Reads.bind {α β : Type} {m : W α} {f : α → W β} (h : Reads m) (k : ∀ a, Reads (f a)) : Reads (m >>= f) := by
  intro w
  obtain ⟨ds, h1, h2⟩ := h w
  cases hm : m w with
  | mk r w1 =>
    rw [hm] at h1 h2
    simp only at h1
    subst h1
    cases r with
    | error e =>
      refine ⟨ds, ?_, fun r => ?_⟩
      · show (match m w with | (.ok a, w') => f a w' | (.error e, w') => (.error e, w')).2 = _
        rw [hm]
      · show (match m { w with reusable := r } with | (.ok a, w') => f a w' | (.error e, w') => (.error e, w')) =
          ((match m w with | (.ok a, w') => f a w' | (.error e, w') => (.error e, w')).1, _)
        rw [h2, hm]
    | ok a =>
      obtain ⟨ds', h3, h4⟩ := k a { w with deser := ds }
      refine ⟨ds', ?_, fun r => ?_⟩
      · show (match m w with | (.ok a, w') => f a w' | (.error e, w') => (.error e, w')).2 = _
        rw [hm]
        exact h3
      · show (match m { w with reusable := r } with | (.ok a, w') => f a w' | (.error e, w') => (.error e, w')) =
          ((match m w with | (.ok a, w') => f a w' | (.error e, w') => (.error e, w')).1, _)
        rw [h2, hm]
        exact h4 r

theorem reads_getPage (p : Nat) : Reads (getPage p) := by
  intro w
  cases h1 : w.dirty.get p with
  | some n => exact ⟨w.deser, by simp only [getPage, h1], fun _ => by simp only [getPage, h1]⟩
  | none =>
    cases h2 : w.deser p with
    | some n => exact ⟨w.deser, by simp only [getPage, h1, h2], fun _ => by simp only [getPage, h1, h2]⟩
    | none =>
      cases h3 : w.base p with
      | none => exact ⟨w.deser, by simp only [getPage, h1, h2, h3], fun _ => by simp only [getPage, h1, h2, h3]⟩
      | some n =>
        refine ⟨fun q => if q = p then some n else w.deser q, ?_, fun _ => ?_⟩
        · simp only [getPage, h1, h2, h3]
        · simp only [getPage, h1, h2, h3]

theorem reads_loadPage (msg : String) (p : Nat) : Reads (loadPage msg p) := by
  intro w
  obtain ⟨ds, h1, h2⟩ := reads_getPage p w
  unfold loadPage
  cases hm : getPage p w with
  | mk r w1 =>
    rw [hm] at h1 h2
    simp only at h1
    subst h1
    cases r with
    | ok n => exact ⟨ds, rfl, fun r => by rw [h2]⟩
    | error e => exact ⟨ds, rfl, fun r => by rw [h2]⟩

theorem Scan.reads {β : Type} {D : Scan β} (h : ∀ n, Reads (D.leaf n)) : ∀ fuel st acc, Reads (D.run fuel st acc)
  | _, [], acc => by unfold Scan.run; exact .pure _
  | 0, _ :: _, _ => by unfold Scan.run; exact .fail _
  | fuel + 1, (p, i) :: st, acc => by
    unfold Scan.run
    refine .bind (reads_loadPage _ _) fun n => ?_
    cases D.kids n with
    | some kids =>
      simp only
      cases kids[i]? with
      | some c => exact Scan.reads h _ _ _
      | none => exact Scan.reads h _ _ _
    | none =>
      refine .bind (h n) fun r => ?_
      split
      · exact .pure _
      · exact Scan.reads h _ _ _

theorem reads_freeIds (fuel : Nat) (v : FreeValue) : Reads (freeIds fuel v) := by
  unfold freeIds
  split
  · exact .pure _
  · refine Scan.reads (fun n => ?_) _ _ _
    unfold tsnScan
    cases n <;> first | exact .pure _ | exact .fail _

theorem reads_freeEntries (fuel : Nat) (small : Option Nat) : ∀ ts vs, Reads (freeEntries fuel small ts vs)
  | [], _ => by unfold freeEntries; exact .pure _
  | t :: ts, vs => by
    unfold freeEntries
    split
    · exact .pure _
    · cases vs with
      | nil => exact .fail _
      | cons v vs =>
        exact .bind (reads_freeIds _ _) fun l => .bind (reads_freeEntries fuel small ts vs) fun r => .pure _

/-- The outcome does not depend on what was in the queue before. -/
theorem findReusable_frame {o : Option Nat} {w w' : Writer} (h : findReusable o w = (.ok (), w')) (r : List (Nat × Nat)) :
    findReusable o { w with reusable := r } = (.ok (), w') ∧ ∃ ds r', w' = { w with deser := ds, reusable := r' } := by
  have hr : Reads ((freeScan (2 * w.nextPage) o).run (2 * w.nextPage) [(w.freeRoot, 0)] []) := by
    refine Scan.reads (fun n => ?_) _ _ _
    unfold freeScan
    cases n <;> first | exact reads_freeEntries _ _ _ _ | exact .fail _
  obtain ⟨ds, h1, h2⟩ := hr w
  have run : ∀ w, findReusable o w = ((freeScan (2 * w.nextPage) o).run (2 * w.nextPage) [(w.freeRoot, 0)] [] >>= fun l =>
    modW fun w => { w with reusable := Mvcc.optimize l }) w := fun w => rfl
  have bind : ∀ {m : W (List (Nat × Nat))} {k : List (Nat × Nat) → W Unit} {w : Writer}, (m >>= k) w =
    match m w with
    | (.ok a, w') => k a w'
    | (.error e, w') => (.error e, w') := by
    intro m k w
    cases hm : m w with
    | mk r w1 => cases r <;> simp only [Bind.bind, hm]
  rw [run, bind] at h ⊢
  simp only
  rw [h2]
  cases hm : (freeScan (2 * w.nextPage) o).run (2 * w.nextPage) [(w.freeRoot, 0)] [] w with
  | mk x w1 =>
    rw [hm] at h h1
    simp only at h1
    subst h1
    cases x with
    | error e => cases h
    | ok l =>
      simp only [modW, Prod.mk.injEq, true_and] at h ⊢
      exact ⟨h, ds, _, h.symm⟩

/-! ## Writing the pages one by one -/

theorem writeAt_page {g : Pager} {kw p : Nat} {b : Bytes} {n : Node} {f : File} (hl : b.length = g.pageSize)
    (hd : deserializePage kw b = .ok n) (hz : f.Zeroed) :
    Touched g.pageSize [p] f (f.writeAt (p * g.pageSize) b) ∧ readPage g kw p (f.writeAt (p * g.pageSize) b) = .ok n := by
  refine ⟨⟨fun i hi => ?_, ?_, fun i hi => ?_⟩, deserialize_slot hl ⟨?_, fun j hj => ?_⟩ hd⟩
  · simp only [File.writeAt] at hi
    rw [writeAt_byte_out f (.inr (by omega))]
    exact hz i (by omega)
  · simp only [File.writeAt]; omega
  · have := hi p (by simp)
    exact writeAt_byte_out f (by omega)
  · simp only [File.writeAt]; omega
  · rw [writeAt_byte_in f (by omega), List.getElem?_eq_getElem (by omega)]

theorem zeroBuffer_length : zeroBuffer.length = defaultPageSize := by
  unfold zeroBuffer
  exact List.length_replicate

theorem default_le : defaultPageSize ≤ 2 ^ 32 := by unfold defaultPageSize; decide

theorem serializeEach_cons {kw q : Nat} {m : Node} {ps : Pages} {l : List (Nat × Bytes)} (h : serializeEach kw ((q, m) :: ps) = .ok l) :
    ∃ b l', serializePage kw zeroBuffer true m = .ok b ∧ serializeEach kw ps = .ok l' ∧ l = (q, b) :: l' := by
  simp only [serializeEach] at h
  split at h
  · exact nomatch h
  next b hb =>
    split at h
    · exact nomatch h
    next l' hs => exact ⟨b, l', hb, hs, (Except.ok.inj h).symm⟩

theorem writeEach_spec {g : Pager} (hg : g.pageSize = defaultPageSize) {kw : Nat} (hkw : kw ≤ 16) : ∀ {pages : Pages} {l : List (Nat × Bytes)},
    serializeEach kw pages = .ok l → pages.ids.Nodup → (∀ x ∈ pages, NodeFits kw x.2) →
    l.map (·.1) = pages.ids ∧ ∀ f : File, f.Zeroed → Touched g.pageSize pages.ids f (writeEach g l f) ∧
      ∀ p n, pages.get p = some n → readPage g kw p (writeEach g l f) = .ok n
  | [], l, h, _, _ => by
    cases h
    exact ⟨rfl, fun f hz => ⟨.refl hz, fun p n h => by cases h⟩⟩
  | (q, m) :: ps, l, h, hn, hf => by
    obtain ⟨b, l', hb, hs, rfl⟩ := serializeEach_cons h
    have hn : (q :: Pages.ids ps).Nodup := hn
    obtain ⟨i1, i2⟩ := writeEach_spec hg hkw hs (List.nodup_cons.mp hn).2 fun x hx => hf x (.tail _ hx)
    obtain ⟨hd, hl⟩ := deserialize_serialize hkw (hf (q, m) (.head _)) (by rw [zeroBuffer_length]; exact default_le) hb
    have hl : b.length = g.pageSize := by rw [hl, hg, zeroBuffer_length]
    refine ⟨by rw [List.map_cons, i1]; rfl, fun f hz => ?_⟩
    obtain ⟨w1, w2⟩ := writeAt_page (p := q) hl hd hz
    obtain ⟨j1, j2⟩ := i2 _ w1.zeroed
    unfold writeEach
    refine ⟨(w1.mono (l' := Pages.ids ((q, m) :: ps)) ?_).trans (j1.mono ?_), fun p n hp => ?_⟩
    · intro p hp; simp only [List.mem_singleton] at hp; subst hp; exact .head _
    · intro p hp; exact .tail _ hp
    · by_cases e : p = q
      · subst e
        have : n = m := by
          unfold Pages.get at hp
          simpa using hp.symm
        subst this
        exact j1.read (List.nodup_cons.mp hn).1 w2
      · refine j2 p n ?_
        unfold Pages.get at hp ⊢
        rw [List.lookup_cons, show (p == q) = false by simpa using e] at hp
        exact hp

/-! ## Preparing and writing a commit -/

theorem serializeEach_error {kw : Nat} : ∀ {pages : Pages} {e : Err}, serializeEach kw pages = .error e → Db.Fatal e
  | [], e, h => by
    unfold serializeEach at h
    exact nomatch h
  | (q, m) :: ps, e, h => by
    simp only [serializeEach] at h
    split at h
    · next e' hb =>
      cases h
      refine serializePage_error ?_ hb
      rw [zeroBuffer_length]; unfold defaultPageSize; decide
    · split at h
      · next e' hs =>
        cases h
        exact serializeEach_error hs
      · exact nomatch h

/-- `x` is the transaction `w`, started from `h` on page `hp`, in the form sent to the I/O thread. -/
structure PreparedAt (c : Conf) (kw : Nat) (hp : HPage) (h : Header) (w : Writer) (x : Prepared) : Prop where
  hp : x.hp = ⟨1 - hp.id, .header (newHeader w h.schema)⟩
  wet : x.wet = w.dirty
  ids : x.pages.map (·.1) = w.dirty.ids
  writes : ∀ f : File, f.Zeroed → Touched c.g.pageSize w.dirty.ids f (writeEach c.g x.pages f) ∧
    ∀ p n, w.dirty.get p = some n → readPage c.g kw p (writeEach c.g x.pages f) = .ok n
  len : x.header.length = c.g.pageSize
  head : deserializePage kw x.header = .ok (.header (newHeader w h.schema))

variable {c : Conf} {kw : Nat} {hc : ConfOk c kw} {H : String → Db.TagHash} {d : PDb} {hp : HPage} {h : Header}
  {PE PT PK PF : Multiset (Nat × Node)} {ix : Nat → List Nat} {F : Multiset (Nat × Nat)} {s : Spec.Db} {o : Option Nat}
  {PE' PT' PK' PF' : Multiset (Nat × Node)} {ix' : Nat → List Nat} {N : Multiset Nat} {s' : Spec.Db} {w : Writer} {x : Prepared}

/-- The writer after `prepare_commit`, primed for the next batch. -/
def primed (w : Writer) : Writer := { w with dirty := [], tsn := w.tsn + 1, deser := fun _ => none }

theorem prepareCommit_spec (hg : c.g.pageSize = defaultPageSize) (L : LiveAt c hc H d hp h PE PT PK PF ix F s)
    (T : TxAt c hc d h F w PE' PT' PK' PF' ix' (Db.Abs.of H s')) {ord : Writer → List Nat} (hord : ∀ w, (ord w).Perm w.freed) :
    (∃ x w' PF'' N, prepareCommit c ord hp w = .ok (x, primed w') ∧ Ready c hc H d h F d.oldest w' PE' PT' PK' PF'' ix' N s' ∧
      PreparedAt c kw hp h w' x) ∨ ∃ e, prepareCommit c ord hp w = .error e ∧ Db.Fatal e := by
  obtain ⟨u, w', hrun, PF'', N, R⟩ := T.ready hord
  have hwps : w'.pageSize = c.g.pageSize := by
    obtain ⟨Old, hi⟩ := R.inv
    exact hi.wps
  have hslot0 := L.slot
  have hcow : cowHeader hp w'.roots = .ok ⟨if hp.id = 0 then 1 else 0, .header (newHeader w' h.schema)⟩ := by
    unfold cowHeader
    rw [L.node]; rfl
  have hj : (if hp.id = 0 then 1 else 0) = 1 - hp.id := by split <;> omega
  rw [hj] at hcow
  have ps9 : 9 ≤ c.g.pageSize := by have := hc.ps; omega
  unfold prepareCommit
  simp only [hrun, hcow]
  split
  · exact .inr ⟨_, rfl, rfl, rfl, rfl⟩
  next hfit =>
  have hfit := not_not.mp hfit
  rw [R.width] at hfit
  split
  · next e he =>
    exact .inr ⟨e, rfl, serializePage_error (by rw [List.length_replicate, hwps]; exact ps9) he⟩
  next hb hhb =>
  rw [R.width] at hhb
  split
  · next e he => exact .inr ⟨e, rfl, serializeEach_error he⟩
  next ps hps =>
  rw [R.width] at hps
  obtain ⟨i1, i2⟩ := writeEach_spec hg hc.kw hps R.own.dirtyNodup hfit.2
  obtain ⟨j1, j2⟩ := deserialize_serialize hc.kw hfit.1 (by rw [List.length_replicate, hwps]; exact hc.big) hhb
  rw [List.length_replicate, hwps] at j2
  exact .inl ⟨⟨_, hb, ps, w'.dirty⟩, w', PF'', N, rfl, R, rfl, rfl, i1, i2, j2, j1⟩

/-- Outcome of writing a prepared commit. -/
theorem ioCommit_spec (R : Ready c hc H d h F o w PE' PT' PK' PF' ix' N s') (L : LiveAt c hc H d hp h PE PT PK PF ix F s)
    (S : SafeAt c kw d hp h (PF + (PE + PT + PK))) (X : PreparedAt c kw hp h w x) (io : PipeIO) :
    (∃ d', ioCommit c io x d = (.ok (), d') ∧ io.fault = none ∧
      LiveAt c hc H (publish io.keep x d') x.hp (newHeader w h.schema) PE' PT' PK' PF' ix' (newFree w N F o) s' ∧
      SafeAt c kw (publish io.keep x d') x.hp (newHeader w h.schema) (PF' + (PE' + PT' + PK')) ∧
      (publish io.keep x d').doubt = false ∧
      CommitAt c o d hp h (PF + (PE + PT + PK)) F (publish io.keep x d') x.hp (newHeader w h.schema) (PF' + (PE' + PT' + PK')) (newFree w N F o)) ∨
    ∃ e d', ioCommit c io x d = (.error e, d') ∧ Db.Fatal e ∧ LiveAt c hc H d' hp h PE PT PK PF ix F s ∧
      SafeAt c kw d' hp h (PF + (PE + PT + PK)) ∧ d'.m = d.m := by
  have hown := R.own
  have hmay := R.not_dirty L
  have hdirty2 : ∀ p ∈ w.dirty.ids, 2 ≤ p := fun p hp => (hown.lt (hown.dirtyIn p hp)).1
  have hslot0 := L.slot
  have hapart : ∀ p ∈ w.dirty.ids, p ∉ ids (PF + (PE + PT + PK)) ∧ p ≠ hp.id := fun p hp => ⟨hmay p hp, by
    have := hdirty2 p hp; omega⟩
  have hfat : ∀ m, Db.Fatal (io.error m) := fun m => by
    unfold PipeIO.error
    split <;> exact ⟨rfl, rfl, rfl⟩
  obtain ⟨htouch, hread⟩ := X.writes d.file L.zeroed
  unfold ioCommit
  rw [X.ids, X.hp]
  cases hf : io.fault with
  | some ft =>
    cases ft with
    | data junk =>
      refine .inr ⟨_, _, rfl, hfat _, ?_, ?_, rfl⟩
      · exact L.elsewhere (l := w.dirty.ids) rfl (scramble_touched _ _ L.zeroed) hmay fun p n hpn m hm => L.cache p n m hpn hm
      · exact S.loosen (l := w.dirty.ids) (scramble_touched _ _ L.zeroed) hapart rfl rfl (.inl ⟨rfl, hdirty2⟩)
    | header junk =>
      simp only
      obtain ⟨S1, hloose1, hheadf, hother⟩ := R.settled L S htouch
      obtain ⟨d1, hd1⟩ : ∃ d1, d1 = PDb.fsync c w.dirty.ids { d with file := writeEach c.g x.pages d.file } := ⟨_, rfl⟩
      rw [← hd1] at S1 ⊢
      have e1 : d1.m = d.m := by rw [hd1]; rfl
      have e2 : d1.file = writeEach c.g x.pages d.file := by rw [hd1]; rfl
      have e3 : d1.cache = d.cache := by rw [hd1]; rfl
      have L1 : LiveAt c hc H d1 hp h PE PT PK PF ix F s :=
        L.elsewhere (l := w.dirty.ids) e1 (by rw [e2]; exact htouch) hmay (by rw [e3]; exact fun p n hpn m hm => L.cache p n m hpn hm)
      have hid : ∀ p ∈ [1 - hp.id], p ∉ ids (PF + (PE + PT + PK)) ∧ p ≠ hp.id := by
        intro p hp
        simp only [List.mem_singleton] at hp
        constructor
        · intro hp'
          have := L.body hp'
          omega
        · omega
      refine .inr ⟨_, _, rfl, hfat _, ?_, ?_, e1⟩
      · exact L1.elsewhere (l := [1 - hp.id]) rfl (scramble_touched _ _ L1.zeroed) (fun p hp => (hid p hp).1)
          (fun p n hpn m hm => L1.cache p n m hpn hm)
      · have := S1.loosen (d' := { d1 with file := scramble c.g.pageSize [1 - hp.id] junk d1.file, loose := d1.loose ++ [1 - hp.id], doubt := true })
          (scramble_touched _ _ L1.zeroed) hid rfl rfl (.inr rfl)
        refine ⟨this.schema, this.touched.mono ?_, fun p hp => this.apart p ?_, this.len, this.zeroed, this.head, this.pages, this.other⟩
        · intro p hp; simpa [or_comm] using hp
        · simpa [or_comm] using hp
  | none =>
    simp only
    obtain ⟨ht1, hr1⟩ := writeAt_page (p := 1 - hp.id) X.len X.head htouch.zeroed
    obtain ⟨h1, h2, h3⟩ := R.headed L S io.keep htouch hread ht1 hr1
    refine .inl ⟨_, rfl, trivial, ?_⟩
    have e : publish io.keep x { PDb.fsync c [1 - hp.id] { PDb.fsync c w.dirty.ids { d with file := writeEach c.g x.pages d.file } with
        file := (PDb.fsync c w.dirty.ids { d with file := writeEach c.g x.pages d.file }).file.writeAt ((1 - hp.id) * c.g.pageSize) x.header } with
        doubt := false } = { PDb.fsync c [1 - hp.id] { { PDb.fsync c w.dirty.ids { d with file := writeEach c.g x.pages d.file } with
        cache := cacheAfter io.keep w.dirty d.cache } with
        file := (writeEach c.g x.pages d.file).writeAt ((1 - hp.id) * c.g.pageSize) x.header } with
        m := pinHeader ⟨1 - hp.id, .header (newHeader w h.schema)⟩ d.m, doubt := false } := by
      unfold publish
      rw [X.hp, X.wet]
      rfl
    rw [e]
    exact ⟨h1, h2, rfl, h3⟩

/-! ## Batches -/

/-- Replacing part of the transaction by `g` changes nothing else. -/
structure Graft {δ σ υ ι : Type} (B : Db.Backend δ σ υ ι) (g : σ → σ) : Prop where
  snap : ∀ w, B.snap (g w) = B.snap w
  issue : ∀ w, B.issue (g w) = ((B.issue w).1, g (B.issue w).2)
  tagInsert : ∀ t p w, B.tagInsert t p (g w) = ((B.tagInsert t p w).1, g (B.tagInsert t p w).2)
  eventAppend : ∀ r v p w, B.eventAppend r v p (g w) = ((B.eventAppend r v p w).1, g (B.eventAppend r v p w).2)
  trackUpsert : ∀ t p w, B.trackUpsert t p (g w) = ((B.trackUpsert t p w).1, g (B.trackUpsert t p w).2)

section Graft
variable {δ σ υ ι : Type} {B : Db.Backend δ σ υ ι} {g : σ → σ}

theorem Graft.insertTags (G : Graft B g) (K : String → Db.TagHash) (p : Nat) : ∀ ts w,
    Db.insertTags B K p ts (g w) = ((Db.insertTags B K p ts w).1, g (Db.insertTags B K p ts w).2)
  | [], w => rfl
  | t :: ts, w => by
    simp only [Db.insertTags, G.tagInsert]
    cases ht : B.tagInsert (K t) p w with
    | mk r w1 =>
      cases r with
      | error e => rfl
      | ok u => exact G.insertTags K p ts w1

theorem Graft.appendValues (G : Graft B g) (K : String → Db.TagHash) : ∀ vs last w,
    Db.appendValues B K vs last (g w) = ((Db.appendValues B K vs last w).1, g (Db.appendValues B K vs last w).2)
  | [], _, w => rfl
  | (r, v) :: vs, _, w => by
    simp only [Db.appendValues, G.issue, G.insertTags]
    cases ht : Db.insertTags B K (B.issue w).1 r.event.tags (B.issue w).2 with
    | mk x w1 =>
      cases x with
      | error e => rfl
      | ok u =>
        simp only [G.eventAppend]
        cases he : B.eventAppend r v (B.issue w).1 w1 with
        | mk x w2 =>
          cases x with
          | error e => rfl
          | ok u => exact G.appendValues K vs _ w2

theorem Graft.applyRequest (G : Graft B g) (K : String → Db.TagHash) (t : Option Tracking) (vs : List (Record × υ)) (w : σ) :
    Db.applyRequest B K t vs (g w) = ((Db.applyRequest B K t vs w).1, g (Db.applyRequest B K t vs w).2) := by
  have app : ∀ w, (if vs.isEmpty then ((.ok 0 : Except Err Nat), g w) else Db.appendValues B K vs 0 (g w)) =
      ((if vs.isEmpty then ((.ok 0 : Except Err Nat), w) else Db.appendValues B K vs 0 w).1,
        g (if vs.isEmpty then ((.ok 0 : Except Err Nat), w) else Db.appendValues B K vs 0 w).2) := by
    intro w
    split
    · rfl
    · exact G.appendValues K vs 0 w
  cases t with
  | none => exact app w
  | some t =>
    simp only [Db.applyRequest, G.trackUpsert]
    cases B.trackUpsert t.source t.position w with
    | mk x w1 =>
      cases x with
      | error e => rfl
      | ok u => exact app w1

theorem Graft.processAppend (G : Graft B g) (env : Db.Env) (req : Request) (cn : Nat → Db.Cancel) (w : σ) :
    Db.processAppend B env req cn (g w) = ((Db.processAppend B env req cn w).1, g (Db.processAppend B env req cn w).2) := by
  simp only [Db.processAppend, G.snap]
  cases Db.checkCondition env (B.snap w) req cn with
  | some r => rfl
  | none =>
    simp only
    cases Db.validateAll B (req.events.map fun e => ⟨e, req.tracking⟩) with
    | error e => rfl
    | ok vs => exact G.applyRequest _ _ _ _

/-- The batch with its transaction changed by `g`. -/
def onTx (g : σ → σ) (b : Db.Batch σ) : Db.Batch σ := { b with w := g b.w }

theorem Graft.stepJob (G : Graft B g) (env : Db.Env) (b : Db.Batch σ) (j : Db.Job) :
    Db.stepJob B env (onTx g b) j = (Db.stepJob B env b j).map (onTx g) := by
  unfold Db.stepJob onTx
  rw [G.processAppend]
  cases Db.processAppend B env j.req j.cancel b.w with
  | mk x w1 =>
    cases x with
    | ok p => rfl
    | error e => cases e <;> rfl

theorem Graft.drain (G : Graft B g) (env : Db.Env) (max : Nat) : ∀ vis q b,
    Db.drain B env max vis q (onTx g b) = (Db.drain B env max vis q b).map fun x => (onTx g x.1, x.2)
  | 0, q, b => rfl
  | _ + 1, [], b => rfl
  | vis + 1, m :: q, b => by
    have ht : (onTx g b).total = b.total := rfl
    have ha : (onTx g b).abort = b.abort := rfl
    simp only [Db.drain, ht, ha]
    split
    · rfl
    split
    · rfl
    cases m with
    | shutdown => rfl
    | append j =>
      simp only [G.stepJob]
      cases Db.stepJob B env b j with
      | error e => rfl
      | ok b' => exact G.drain env max vis q b'

end Graft

/-- The transaction as one on the database `d`. -/
def PW.on (d : PDb) (w : PW) : PW := { w with db := d }

theorem graft_on (c : Conf) (d : PDb) : Graft (pageBackend c) (PW.on d) :=
  ⟨fun _ => rfl, fun _ => rfl, fun _ _ _ => rfl, fun _ _ _ _ => rfl, fun _ _ _ => rfl⟩

open Classical in
/-- Building a batch on the transaction `w`, which is one on `d` holding `s`. -/
theorem pipeBatch_spec {env : Db.Env} (he : Db.EnvOk env) (hH : ∀ t, NormalizedTo kw (env.H t)) {d : PDb} {w : PW} {s : Spec.Db}
    (T : Tx c hc env.H (w.on d) s (Db.Abs.of env.H s)) (max vis : Nat) (j : Db.Job) (q : List Db.Msg)
    (hj : Db.AfterOk j.req) (hq : ∀ j ∈ Db.appendJobs q, Db.AfterOk j.req) :
    (∃ b1 b q' js', Db.stepJob (pageBackend c) env (Db.Batch.new w) j = .ok b1 ∧ Db.drain (pageBackend c) env max vis q b1 = .ok (b, q') ∧
      Db.BInv (pageLawful hc hH).toWorkable (onTx (PW.on d) b) s (j :: js') ∧ Db.appendJobs q = js' ++ Db.appendJobs q' ∧
      (Db.NoShutdown q → Db.NoShutdown q')) ∨
    ((∃ j' ∈ j :: Db.appendJobs q, Db.MayPanic j') ∧ ((∃ m, Db.stepJob (pageBackend c) env (Db.Batch.new w) j = .error m) ∨
      ∃ b1 m, Db.stepJob (pageBackend c) env (Db.Batch.new w) j = .ok b1 ∧ Db.drain (pageBackend c) env max vis q b1 = .error m)) := by
  have G := graft_on c d
  have hnew : onTx (PW.on d) (Db.Batch.new w) = Db.Batch.new (w.on d) := rfl
  have hB := Db.binv_new (pageLawful hc hH).toWorkable T
  rw [← hnew] at hB
  rcases Db.stepJob_spec he (pageLawful hc hH) hB rfl j hj with ⟨b, h1, hb1⟩ | ⟨hpj, m, h1⟩
  · rw [G.stepJob] at h1
    cases hs : Db.stepJob (pageBackend c) env (Db.Batch.new w) j with
    | error m => rw [hs] at h1; exact nomatch h1
    | ok b1 =>
      rw [hs] at h1
      have h1 : onTx (PW.on d) b1 = b := Except.ok.inj h1
      subst h1
      rcases Db.drain_spec he (pageLawful hc hH) max s vis q _ _ hb1 hq with ⟨b', q', js', h2, hb2, hsplit, hns⟩ | ⟨⟨j', hj', hpj⟩, m, h2⟩
      · rw [G.drain] at h2
        cases hd : Db.drain (pageBackend c) env max vis q b1 with
        | error m => rw [hd] at h2; exact nomatch h2
        | ok x =>
          rw [hd] at h2
          have h2 : (onTx (PW.on d) x.1, x.2) = (b', q') := Except.ok.inj h2
          obtain ⟨h2, h3⟩ := Prod.mk.inj h2
          subst h2 h3
          exact .inl ⟨b1, x.1, x.2, js', rfl, hd, by simpa using hb2, hsplit, hns⟩
      · rw [G.drain] at h2
        cases hd : Db.drain (pageBackend c) env max vis q b1 with
        | ok x => rw [hd] at h2; exact nomatch h2
        | error m => exact .inr ⟨⟨j', .tail _ hj', hpj⟩, .inr ⟨b1, m, rfl, hd⟩⟩
  · rw [G.stepJob] at h1
    cases hs : Db.stepJob (pageBackend c) env (Db.Batch.new w) j with
    | ok b => rw [hs] at h1; exact nomatch h1
    | error m => exact .inr ⟨⟨j, .head _, hpj⟩, .inl ⟨m, rfl⟩⟩

/-! ## The states of the writer thread -/

/-- The writer at the beginning of a batch on the header `h`. -/
def freshWriter (c : Conf) (kw : Nat) (h : Header) (b : Nat → Option Node) (r : List (Nat × Nat)) (ds : Nat → Option Node) : Writer :=
  ⟨b, kw, c.g.pageSize, h.tsn + 1, h.nextPage, h.freeRoot, h.eventsRoot, h.tagsRoot, h.trackRoot, h.nextPosition, r, [], [], ds, []⟩

theorem freshWriter_eq (d : PDb) (h : Header) (b ds : Nat → Option Node) (r : List (Nat × Nat)) :
    { { newWriter c d h with base := b, deser := ds } with reusable := r } = freshWriter c d.m.kw h b r ds := rfl

theorem Ready.primed_eq (R : Ready c hc H d h F o w PE' PT' PK' PF' ix' N s') (schema : Nat) :
    primed w = freshWriter c kw (newHeader w schema) w.base w.reusable fun _ => none := by
  obtain ⟨Old, hi⟩ := R.inv
  have h1 := R.freed
  have h2 := R.reused
  have h3 := hi.wkw
  have h4 := hi.wps
  cases w
  simp only at h1 h2 h3 h4
  subst h1 h2 h3 h4
  rfl

/-- No batch in flight: the database holds `s` and the writer is ready to begin. -/
def IdleAt (c : Conf) {kw : Nat} (hc : ConfOk c kw) (H : String → Db.TagHash) (st : Pipe) (s : Spec.Db) : Prop :=
  st.fly = none ∧ ∃ h PE PT PK PF ix F, LiveAt c hc H st.db st.hp h PE PT PK PF ix F s ∧
    SafeAt c kw st.db st.hp h (PF + (PE + PT + PK)) ∧ ∃ b r ds, st.wr = freshWriter c kw h b r ds ∧
    Sees (wetBase c st.db st.wet) (PF + (PE + PT + PK)) ∧ ∀ p n, ds p = some n → wetBase c st.db st.wet p = some n

/-- The database holds `s`, and the batch `f` in flight makes it `s'`. -/
def FlyAt (c : Conf) {kw : Nat} (hc : ConfOk c kw) (H : String → Db.TagHash) (st : Pipe) (f : Flight) (s s' : Spec.Db) : Prop :=
  st.fly = some f ∧ ∃ hp h PE PT PK PF ix F o w PE' PT' PK' PF' ix' N, LiveAt c hc H st.db hp h PE PT PK PF ix F s ∧
    SafeAt c kw st.db hp h (PF + (PE + PT + PK)) ∧ Ready c hc H st.db h F o w PE' PT' PK' PF' ix' N s' ∧
    PreparedAt c kw hp h w f.x ∧ st.hp = f.x.hp ∧ st.wet = f.x.wet ∧ st.wr = primed w

theorem IdleAt.live {st : Pipe} (I : IdleAt c hc H st s) : Live c hc H st.db s := by
  obtain ⟨-, h, PE, PT, PK, PF, ix, F, L, S, -⟩ := I
  exact ⟨_, h, PE, PT, PK, PF, ix, F, L, S⟩

theorem FlyAt.live {st : Pipe} {f : Flight} (I : FlyAt c hc H st f s s') : Live c hc H st.db s := by
  obtain ⟨-, hp, h, PE, PT, PK, PF, ix, F, o, w, PE', PT', PK', PF', ix', N, L, S, -⟩ := I
  exact ⟨hp, h, PE, PT, PK, PF, ix, F, L, S⟩

theorem LiveAt.reader (L : LiveAt c hc H d hp h PE PT PK PF ix F s) (o : Option Nat) :
    LiveAt c hc H { d with oldest := o } hp h PE PT PK PF ix F s := L.recache (fun _ _ h => .inl h) o

theorem SafeAt.reader {P : Multiset (Nat × Node)} (S : SafeAt c kw d hp h P) (o : Option Nat) :
    SafeAt c kw { d with oldest := o } hp h P := ⟨S.1, S.2, S.3, S.4, S.5, S.6, S.7, S.8⟩

/-- Beginning a batch on a database with a writer at its header. -/
theorem LiveAt.opens (L : LiveAt c hc H d hp h PE PT PK PF ix F s) (S : SafeAt c kw d hp h (PF + (PE + PT + PK))) (o : Option Nat)
    {b ds b0 : Nat → Option Node} {r : List (Nat × Nat)} (hb : Sees b (PF + (PE + PT + PK))) (hds : ∀ p n, ds p = some n → b p = some n) :
    ∃ wr, findReusable o { freshWriter c kw h b0 r ds with base := b } = (.ok (), wr) ∧
      Tx c hc H ⟨{ d with oldest := o }, hp, wr⟩ s (Db.Abs.of H s) := by
  obtain ⟨wr, h1, -, T⟩ := (L.reader o).beginAt hb hds
  refine ⟨wr, ?_, h, PE, PT, PK, PF, ix, F, L.reader o, S.reader o, _, _, _, _, _, T⟩
  rw [← (findReusable_frame h1 r).1, freshWriter_eq]
  show _ = findReusable o (freshWriter c d.m.kw h b r ds)
  rw [L.width]
  rfl

theorem IdleAt.opens {st : Pipe} (I : IdleAt c hc H st s) (junk : File) (o : Option Nat) :
    ∃ wr, findReusable o { st.wr with base := wetBase c (st.seen c junk) st.wet } = (.ok (), wr) ∧
      Tx c hc H ⟨{ st.db with oldest := o }, st.hp, wr⟩ s (Db.Abs.of H s) := by
  obtain ⟨hf, h, PE, PT, PK, PF, ix, F, L, S, b, r, ds, hwr, hsee, hds⟩ := I
  have : st.seen c junk = st.db := by unfold Pipe.seen; rw [hf]
  rw [this, hwr]
  exact L.opens S o hsee hds

/-- The database once the batch in flight is durable. -/
noncomputable def landed (c : Conf) (io : PipeIO) (x : Prepared) (d : PDb) : PDb :=
  publish io.keep x (ioCommit c { io with fault := none } x d).2

/-- The pages of the batch in flight and, underneath, those of the database. -/
theorem Ready.wet_sees (R : Ready c hc H d h F o w PE' PT' PK' PF' ix' N s') (L : LiveAt c hc H d hp h PE PT PK PF ix F s)
    {d' : PDb} (hd : ∀ p n, (p, n) ∈ PF + (PE + PT + PK) → p ∉ w.dirty.ids → d'.base c p = some n) :
    Sees (wetBase c d' w.dirty) (PF' + (PE' + PT' + PK')) := by
  intro p n hpn
  have hv := R.own.sees p n hpn
  unfold wetBase
  cases hg : w.dirty.get p with
  | some m =>
    unfold Writer.view at hv
    rw [hg] at hv
    exact hv
  | none =>
    have hnd : p ∉ w.dirty.ids := fun hm => by
      obtain ⟨k, hk⟩ := Pages.mem_ids.mp hm
      rw [hg] at hk; cases hk
    exact hd p n (R.clean L hpn hnd) hnd

theorem FlyAt.opens {st : Pipe} {f : Flight} (I : FlyAt c hc H st f s s') (io : PipeIO) :
    ∃ wr, findReusable io.oldest { st.wr with base := wetBase c (st.seen c io.junk) st.wet } = (.ok (), wr) ∧
      Tx c hc H ⟨{ landed c io f.x st.db with oldest := io.oldest }, st.hp, wr⟩ s' (Db.Abs.of H s') := by
  obtain ⟨hf, hp, h, PE, PT, PK, PF, ix, F, o, w, PE', PT', PK', PF', ix', N, L, S, R, X, e1, e2, e3⟩ := I
  rcases ioCommit_spec R L S X { io with fault := none } with ⟨d', h1, -, L', S', -⟩ | ⟨e, d', h1, -⟩
  swap
  · unfold ioCommit at h1
    simp only [Prod.mk.injEq] at h1
    exact nomatch h1.1
  have hland : landed c io f.x st.db = publish io.keep f.x d' := by unfold landed; rw [h1]
  rw [hland, e1, e2, e3, R.primed_eq h.schema]
  refine L'.opens S' io.oldest ?_ (by simp)
  have hids : ∀ p ∈ f.x.hp.id :: f.x.pages.map (·.1), p ∉ ids (PF + (PE + PT + PK)) := by
    intro p hp
    rw [X.ids, X.hp] at hp
    rcases List.mem_cons.mp hp with rfl | hp
    · intro hin
      have := L.body hin
      simp only at this
      have := L.slot
      omega
    · exact R.not_dirty L p hp
  have Ls : LiveAt c hc H (st.seen c io.junk) hp h PE PT PK PF ix F s := by
    unfold Pipe.seen
    rw [hf]
    exact L.elsewhere rfl (scramble_touched _ _ L.zeroed) hids fun p n hpn m hm => L.cache p n m hpn hm
  rw [X.wet]
  exact R.wet_sees L fun p n hpn _ => Ls.sees p n hpn

/-- `acknowledge_inflight`. -/
theorem FlyAt.acknowledge {st : Pipe} {f : Flight} (I : FlyAt c hc H st f s s') (io : PipeIO) :
    (∃ st', st.acknowledge c io f = (true, st') ∧ IdleAt c hc H st' s' ∧ st'.db = landed c io f.x st.db ∧
      st'.answers = st.answers ++ f.responders.zip f.results ∧ st'.heads = st.heads ++ [f.head] ∧ st'.panicked = st.panicked) ∨
    ∃ st' e, st.acknowledge c io f = (false, st') ∧ Db.Fatal e ∧ st'.fly = none ∧ Live c hc H st'.db s ∧
      st'.answers = st.answers ++ failAll f.responders e ∧ st'.heads = st.heads ∧ st'.panicked = st.panicked := by
  obtain ⟨hf, hp, h, PE, PT, PK, PF, ix, F, o, w, PE', PT', PK', PF', ix', N, L, S, R, X, e1, e2, e3⟩ := I
  unfold Pipe.acknowledge
  rcases ioCommit_spec R L S X io with ⟨d', h1, hno, L', S', -⟩ | ⟨e, d', h1, hfat, L', S', -⟩
  · rw [h1]
    have hland : publish io.keep f.x d' = landed c io f.x st.db := by
      unfold landed
      have : ({ io with fault := none } : PipeIO) = io := by rw [← hno]
      rw [this, h1]
    refine .inl ⟨_, rfl, ⟨rfl, newHeader w h.schema, PE', PT', PK', PF', ix', newFree w N F o, ?_, ?_, w.base, w.reusable, fun _ => none, ?_, ?_, by simp⟩,
      hland, rfl, rfl, rfl⟩
    · show LiveAt c hc H (publish io.keep f.x d') st.hp _ _ _ _ _ _ _ _
      rw [e1]; exact L'
    · show SafeAt c kw (publish io.keep f.x d') st.hp _ _
      rw [e1]; exact S'
    · exact e3.trans (R.primed_eq h.schema)
    · show Sees (wetBase c (publish io.keep f.x d') st.wet) _
      rw [e2, X.wet]
      intro p n hpn
      have hv := R.own.sees p n hpn
      unfold wetBase
      cases hg : w.dirty.get p with
      | some m =>
        unfold Writer.view at hv
        rw [hg] at hv
        exact hv
      | none => exact L'.sees p n hpn
  · rw [h1]
    exact .inr ⟨_, e, rfl, hfat, rfl, ⟨hp, h, PE, PT, PK, PF, ix, F, L', S'⟩, rfl, rfl, rfl⟩

/-- `rollback`. -/
theorem rollback_spec {st : Pipe} (hf : st.fly = none) (hl : Live c hc H st.db s) (o : Option Nat) :
    IdleAt c hc H (st.rollback c o) s ∧ (st.rollback c o).db = st.db ∧ (st.rollback c o).answers = st.answers ∧
      (st.rollback c o).heads = st.heads ∧ (st.rollback c o).panicked = st.panicked := by
  obtain ⟨hp, h, PE, PT, PK, PF, ix, F, L, S⟩ := hl
  obtain ⟨w, h1, -, T⟩ := (L.reader o).begin
  have hw : findReusable o (newWriter c { st.db with oldest := o } h) = (.ok (), w) := by
    obtain ⟨w', h2, -⟩ := (L.reader o).beginAt (ds := fun _ => none) (L.reader o).sees (by simp)
    have h2 : findReusable o (newWriter c { st.db with oldest := o } h) = (.ok (), w') := h2
    unfold PDb.writer at h1
    rw [(L.reader o).latest] at h1
    simp only [bind, Except.bind, asHeader, L.node] at h1
    rw [h2] at h1 ⊢
    have h1 := Except.ok.inj h1
    rw [PW.mk.injEq] at h1
    rw [h1.2.2]
  obtain ⟨-, ds, r, e⟩ := findReusable_frame hw []
  unfold Pipe.rollback
  rw [h1]
  refine ⟨⟨hf, h, PE, PT, PK, PF, ix, F, L, S, st.db.base c, r, ds, ?_, ?_, ?_⟩, rfl, rfl, rfl, rfl⟩
  · show w = _
    rw [e, ← L.width]
    rfl
  · exact L.sees
  · intro p n hpn
    have := T.inv.own.cached p n (by rw [e]; exact hpn)
    rw [e] at this
    exact this

end Uma.Page
