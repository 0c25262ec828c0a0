import Verif.Page.DamageWrite
import Verif.Page.Lawful

/-!
# Writing to a file some of whose pages are damaged

`Scarred c d' d`: the database `d'` is `d` with some page slots damaged.  Operations of a write transaction on `d'`, and its
commit, do what they do on `d`, or report a missing page; in either case the result is again a damaged version of the result
on `d`.
-/

set_option linter.unusedSimpArgs false

namespace Uma.Page
open Uma.Codec Uma.Mvcc Uma.Spec Uma.Db

/-- `f'` is the file `f` with the slots of some pages other than the headers damaged, so that reading them fails. -/
structure Scar (g : Pager) (kw : Nat) (f' f : File) : Prop where
  len : f'.len = f.len
  known : f'.known = f.known
  zero' : f'.Zeroed
  zero : f.Zeroed
  slots : ∀ p, 2 ≤ p → (∀ i, p * g.pageSize ≤ i → i < p * g.pageSize + g.pageSize → f'.byte i = f.byte i) ∨
    (p * g.pageSize + g.pageSize ≤ f'.len ∧ ∃ e, readPage g kw p f' = .error e)

theorem Scar.refl {g : Pager} {kw : Nat} {f : File} (h : f.Zeroed) : Scar g kw f f :=
  ⟨rfl, rfl, h, h, fun _ _ => .inl fun _ _ _ => rfl⟩

variable {g : Pager} {kw : Nat} {f' f f1' f1 : File}

theorem readPage_bytes {p : Nat} (hl : f'.len = f.len)
    (hb : ∀ i, p * g.pageSize ≤ i → i < p * g.pageSize + g.pageSize → f'.byte i = f.byte i) :
    readPage g kw p f' = readPage g kw p f := by
  have e : f'.readAt (p * g.pageSize) g.pageSize = f.readAt (p * g.pageSize) g.pageSize := by
    simp only [File.readAt, hl]
    refine List.map_congr_left fun i hi => hb _ (by omega) ?_
    have := List.mem_range.mp hi
    omega
  simp only [readPage, readPageBytes, e]

/-- Both files are changed in the same slots, and to the same content. -/
theorem Scar.step (h : Scar g kw f' f) (hl : f1'.len = f1.len) (hk : f1'.known = f1.known) (hz' : f1'.Zeroed) (hz : f1.Zeroed)
    (hle : f'.len ≤ f1'.len) (C : Nat → Prop)
    (hin : ∀ p, C p → ∀ i, p * g.pageSize ≤ i → i < p * g.pageSize + g.pageSize →
      f1'.byte i = f1.byte i)
    (hout : ∀ p, ¬ C p → ∀ i, p * g.pageSize ≤ i → i < p * g.pageSize + g.pageSize →
      f1'.byte i = f'.byte i ∧ f1.byte i = f.byte i) : Scar g kw f1' f1 := by
  refine ⟨hl, hk, hz', hz, fun p hp => ?_⟩
  by_cases hC : C p
  · exact .inl (hin p hC)
  · rcases h.slots p hp with h1 | ⟨h1, e, h2⟩
    · refine .inl fun i hi hi' => ?_
      obtain ⟨a, b⟩ := hout p hC i hi hi'
      rw [a, b]; exact h1 i hi hi'
    · refine .inr ⟨by omega, e, ?_⟩
      rw [← h2]
      exact readPage_same h1 hle (fun j hj => (hout p hC _ (by omega) (by omega)).1) kw

theorem Scar.contiguous (h : Scar g kw f' f) (start n : Nat) {data : Bytes} (hd : data.length = n * g.pageSize) :
    Scar g kw (writeContiguous g start data f') (writeContiguous g start data f) := by
  have hin : ∀ (f : File) i, start * g.pageSize ≤ i → i < start * g.pageSize + data.length →
      (writeContiguous g start data f).byte i = (data[i - start * g.pageSize]?).getD 0 := by
    intro f i h1 h2
    have hlt : i - start * g.pageSize < data.length := by omega
    have := writeContiguous_in (g := g) (f := f) (start := start) hlt
    rw [show start * g.pageSize + (i - start * g.pageSize) = i by omega] at this
    rw [this, List.getElem?_eq_getElem hlt]; rfl
  refine h.step ?_ ?_ (zeroed_writeContiguous h.zero' _ _) (zeroed_writeContiguous h.zero _ _) (writeContiguous_len ..).1
    (fun p => start ≤ p ∧ p < start + n) (fun p hp i h1 h2 => ?_) (fun p hp i h1 h2 => ?_)
  · simp only [writeContiguous, h.known, h.len]
    split <;> simp [File.writeAt, File.preallocate, h.len, h.known]
  · simp only [writeContiguous, h.known, h.len]
    split <;> simp [File.writeAt, File.preallocate, h.len, h.known]
  · have a1 : start * g.pageSize ≤ p * g.pageSize := Nat.mul_le_mul_right _ hp.1
    have a2 : (p + 1) * g.pageSize ≤ (start + n) * g.pageSize := Nat.mul_le_mul_right _ hp.2
    rw [Nat.add_mul, Nat.add_mul, Nat.one_mul] at a2
    rw [hin _ _ (by omega) (by omega), hin _ _ (by omega) (by omega)]
  · have a : i < start * g.pageSize ∨ start * g.pageSize + data.length ≤ i := by
      rcases Nat.lt_or_ge p start with hlt | hge
      · left
        have : (p + 1) * g.pageSize ≤ start * g.pageSize := Nat.mul_le_mul_right _ hlt
        rw [Nat.add_mul, Nat.one_mul] at this; omega
      · right
        have : (start + n) * g.pageSize ≤ p * g.pageSize := Nat.mul_le_mul_right _ (by by_contra hc; exact hp ⟨hge, by omega⟩)
        rw [Nat.add_mul] at this; omega
    exact ⟨writeContiguous_out h.zero' a, writeContiguous_out h.zero a⟩

theorem Scar.chunks (kw' : Nat) (zf : Bool) : ∀ (cs : List (List DirtyPage)) (count : Nat) (f' f : File), Scar g kw f' f →
    (Mvcc.writeChunks g kw' zf cs count f').1 = (Mvcc.writeChunks g kw' zf cs count f).1 ∧
      Scar g kw (Mvcc.writeChunks g kw' zf cs count f').2 (Mvcc.writeChunks g kw' zf cs count f).2
  | [], _, _, _, h => ⟨rfl, h⟩
  | c :: cs, count, f', f, h => by
    unfold Mvcc.writeChunks
    cases hs : serializeChunk kw' g.pageSize zf c with
    | error e => exact ⟨rfl, h⟩
    | ok buf => exact Scar.chunks kw' zf cs _ _ _ (h.contiguous _ _ (serializeChunk_spec hs).1)

theorem Scar.scramble (h : Scar g kw f' f) (l : List Nat) (junk : File) :
    Scar g kw (scramble g.pageSize l junk f') (scramble g.pageSize l junk f) := by
  refine h.step (by simp [Page.scramble, h.len]) rfl ?_ ?_ (by simp [Page.scramble]) (fun p => p ∈ l)
    (fun p hp i h1 h2 => ?_) (fun p hp i h1 h2 => ?_)
  · intro i hi
    simp only [Page.scramble] at hi ⊢
    rw [if_neg (by omega)]; exact h.zero' i (by omega)
  · intro i hi
    simp only [Page.scramble] at hi ⊢
    rw [if_neg (by omega)]; exact h.zero i (by omega)
  · simp only [Page.scramble, h.len]
    by_cases hi : i < max f.len junk.len
    · rw [if_pos ⟨hi, p, hp, h1, h2⟩, if_pos ⟨hi, p, hp, h1, h2⟩]
    · rw [if_neg (fun x => hi x.1), if_neg (fun x => hi x.1), h.zero' i (by rw [h.len]; omega), h.zero i (by omega)]
  · have hn : ¬ ∃ q ∈ l, q * g.pageSize ≤ i ∧ i < q * g.pageSize + g.pageSize := by
      rintro ⟨q, hq, h3, h4⟩
      exact hp (slot_unique h1 h2 h3 h4 ▸ hq)
    simp only [Page.scramble]
    rw [if_neg (fun x => hn x.2), if_neg (fun x => hn x.2)]
    exact ⟨rfl, rfl⟩

/-! ## Databases -/

/-- `d'` is the database `d` with some page slots of the file damaged. -/
structure Scarred (c : Conf) (d' d : PDb) : Prop where
  mem : d'.m = d.m
  cache : d'.cache = d.cache
  oldest : d'.oldest = d.oldest
  file : Scar c.g d.m.kw d'.file d.file

variable {c : Conf} {d' d : PDb}

theorem Scarred.pages (h : Scarred c d' d) {p : Nat} {n : Node} (hr : d'.read c p = .ok n) : d.read c p = .ok n := by
  unfold PDb.read at hr ⊢
  split at hr
  · cases hr
  next hp =>
  rw [if_neg hp]
  rw [h.cache] at hr
  split at hr
  · exact hr
  · rw [h.mem] at hr
    rcases h.file.slots p (by omega) with h1 | ⟨-, e, h1⟩
    · rw [← readPage_bytes h.file.len h1]; exact hr
    · rw [hr] at h1; cases h1

theorem Scarred.fewer (h : Scarred c d' d) : Fewer (d'.base c) (d.base c) := by
  intro p n hp
  unfold PDb.base at hp ⊢
  cases hr : d'.read c p with
  | error e => rw [hr] at hp; cases hp
  | ok m => rw [hr] at hp; cases hp; rw [h.pages hr]; rfl

theorem Scarred.again (h : Scarred c d' d) (o : Option Nat) : Scarred c { d' with oldest := o } { d with oldest := o } :=
  ⟨h.mem, h.cache, rfl, h.file⟩

/-- The transaction `w'` on a damaged database does what `w` does on the undamaged one. -/
structure Shadow (c : Conf) (w' w : PW) : Prop where
  db : Scarred c w'.db w.db
  hp : w'.hp = w.hp
  wr : w.wr = w'.wr.on (w.db.base c)
  base : w'.wr.base = w'.db.base c

theorem Scarred.writer (h : Scarred c d' d) : (∃ e, d'.writer c = .error e ∧ d.writer c = .error e) ∨
    (∃ w' w, d'.writer c = .ok w' ∧ d.writer c = .ok w ∧ Shadow c w' w) ∨ ∃ e, d'.writer c = .error e ∧ Lost e := by
  unfold PDb.writer
  rw [h.mem]
  cases latestPage d.m.h0 d.m.h1 with
  | error e => exact .inl ⟨e, rfl, rfl⟩
  | ok p =>
    simp only [bind, Except.bind]
    cases asHeader p.node with
    | error e => exact .inl ⟨e, rfl, rfl⟩
    | ok hd =>
      simp only
      have en : newWriter c d hd = (newWriter c d' hd).on (d.base c) := by simp only [newWriter, Writer.on, h.mem]
      rcases Tame.findReusable h.fewer d.oldest (newWriter c d' hd) rfl with ⟨h1, h2, h3⟩ | ⟨e, h1, h2⟩
      · rw [← en] at h1 h2
        rw [h.oldest]
        generalize findReusable d.oldest (newWriter c d hd) = x at h1 h2 ⊢
        generalize findReusable d.oldest (newWriter c d' hd) = y at h1 h2 h3 ⊢
        obtain ⟨x1, x2⟩ := x
        obtain ⟨y1, y2⟩ := y
        simp only at h1 h2 h3
        subst h1 h2
        cases y1 with
        | error e => exact .inl ⟨e, rfl, rfl⟩
        | ok u => exact .inr (.inl ⟨_, _, rfl, rfl, h, rfl, rfl, h3⟩)
      · rw [h.oldest]
        generalize findReusable d.oldest (newWriter c d' hd) = y at h1 ⊢
        obtain ⟨y1, y2⟩ := y
        simp only at h1
        subst h1
        exact .inr (.inr ⟨e, rfl, h2⟩)

/-- An operation of the transaction. -/
theorem Shadow.run {α : Type} {w' w : PW} (h : Shadow c w' w) {m : W α} (hm : ∀ {b' b}, Fewer b' b → Tame b' b m) :
    ((PW.run m w').1 = (PW.run m w).1 ∧ Shadow c (PW.run m w').2 (PW.run m w).2) ∨ ∃ e, (PW.run m w').1 = .error e ∧ Lost e := by
  unfold PW.run
  simp only
  rcases hm h.db.fewer w'.wr h.base with ⟨h1, h2, h3⟩ | h1
  · rw [← h.wr] at h1 h2
    exact .inl ⟨h1, h.db, h.hp, h2, h3⟩
  · exact .inr h1

theorem Shadow.snap {w' w : PW} (h : Shadow c w' w) : Worse ((pageBackend c).snap w') ((pageBackend c).snap w) := by
  show Worse (snapOf c w'.wr.view _ _ _) (snapOf c w.wr.view _ _ _)
  rw [h.wr]
  refine snapOf_fewer (fun p n hp => ?_) _ _ _ _
  unfold Writer.view at hp ⊢
  rw [show (w'.wr.on (w.db.base c)).dirty = w'.wr.dirty from rfl]
  split at hp
  · exact hp
  · rw [h.base] at hp
    exact h.db.fewer p n hp

/-! ## Commit -/

/-- The same environment, for a transaction reading other pages. -/
def IO.for (io : IO) (b : Nat → Option Node) : IO :=
  { io with ord := fun w => io.ord (w.on b), ordLaw := fun w => io.ordLaw (w.on b) }

theorem commitHead_scarred (h : Scarred c d' d) (io : IO) (b : Nat → Option Node) (hp : HPage) (w : Writer) :
    (commitHead c io hp w d').1 = (commitHead c (io.for b) hp (w.on (d.base c)) d).1 ∧
      Scarred c (commitHead c io hp w d').2 (commitHead c (io.for b) hp (w.on (d.base c)) d).2 := by
  unfold commitHead
  rw [show (w.on (d.base c)).roots = w.roots from rfl, show (w.on (d.base c)).kw = w.kw from rfl,
    show (io.for b).fault = io.fault from rfl, show (io.for b).buf = io.buf from rfl]
  cases cowHeader hp w.roots with
  | error e => exact ⟨rfl, h⟩
  | ok p =>
    simp only
    split
    · exact ⟨rfl, h⟩
    · split
      · exact ⟨rfl, h.mem, h.cache, h.oldest, h.file.scramble _ _⟩
      · unfold writeOnePage
        cases serializePage w.kw ((List.range c.g.pageSize).map io.buf) c.zeroFill p.node with
        | error e => exact ⟨rfl, h.mem, h.cache, h.oldest, h.file⟩
        | ok bs =>
          simp only
          by_cases hl : bs.length = c.g.pageSize
          · simp only [ne_eq, hl, not_true_eq_false, if_false]
            refine ⟨trivial, ?_, h.cache, h.oldest, ?_⟩
            · show pinHeader p d'.m = pinHeader p d.m
              rw [h.mem]
            · have e : (pinHeader p d.m).kw = d.m.kw := by unfold pinHeader; split <;> rfl
              show Scar c.g (pinHeader p d.m).kw _ _
              rw [e]
              exact h.file.contiguous _ 1 (by omega)
          · simp only [ne_eq, hl, not_false_eq_true, if_true]
            exact ⟨trivial, h.mem, h.cache, h.oldest, h.file⟩

theorem commitPages_scarred (h : Scarred c d' d) (io : IO) (b : Nat → Option Node) (hp : HPage) (w : Writer)
    (b0 : Nat → Option Node) :
    (commitPages c io hp w d').1 = (commitPages c (io.for b) hp (w.on b0) d).1 ∧
      Scarred c (commitPages c io hp w d').2 (commitPages c (io.for b) hp (w.on b0) d).2 := by
  unfold commitPages
  rw [show (w.on b0).dirty = w.dirty from rfl, show (w.on b0).kw = w.kw from rfl,
    show (io.for b).fault = io.fault from rfl, show (io.for b).keep = io.keep from rfl]
  split
  · exact ⟨rfl, h⟩
  · split
    · exact ⟨rfl, h.mem, h.cache, h.oldest, h.file.scramble _ _⟩
    · unfold writePages
      obtain ⟨h1, h2⟩ := Scar.chunks w.kw c.zeroFill (chunkBy adjacent (sortBy byId w.dirty)) 0 _ _ h.file
      generalize Mvcc.writeChunks c.g w.kw c.zeroFill (chunkBy adjacent (sortBy byId w.dirty)) 0 d'.file = x at h1 h2 ⊢
      generalize Mvcc.writeChunks c.g w.kw c.zeroFill (chunkBy adjacent (sortBy byId w.dirty)) 0 d.file = y at h1 h2 ⊢
      obtain ⟨x1, x2⟩ := x
      obtain ⟨y1, y2⟩ := y
      simp only at h1 h2
      subst h1
      cases x1 with
      | error e => exact ⟨rfl, h.mem, h.cache, h.oldest, h2⟩
      | ok n =>
        simp only
        have hs : Scarred c { PDb.fsync c w.dirty.ids { d' with file := x2 } with cache := cacheAfter io.keep w.dirty d'.cache }
            { PDb.fsync c w.dirty.ids { d with file := y2 } with cache := cacheAfter io.keep w.dirty d.cache } :=
          ⟨h.mem, by rw [h.cache], h.oldest, h2⟩
        exact commitHead_scarred hs io b hp w

/-- A commit on the damaged database. -/
theorem Shadow.commit {w' w : PW} (h : Shadow c w' w) (io : IO) :
    ((PW.commit c io w').1 = (PW.commit c (io.for w'.wr.base) w).1 ∧
      Scarred c (PW.commit c io w').2 (PW.commit c (io.for w'.wr.base) w).2) ∨
    ∃ e, PW.commit c io w' = (.error e, { w'.db with oldest := io.oldest }) ∧ Lost e ∧ (processFreed io.ord w'.wr).1 = .error e := by
  unfold PW.commit
  have ht := Tamed.processFreed (b' := w'.wr.base) (b := w.db.base c) (by rw [h.base]; exact h.db.fewer) io.ord
  rcases ht w'.wr rfl with ⟨h1, h2, h3⟩ | ⟨e, h1, h2⟩
  · rw [← h.wr] at h1 h2
    rw [show (io.for w'.wr.base).ord = fun w => io.ord (w.on w'.wr.base) from rfl]
    generalize processFreed (fun w => io.ord (w.on w'.wr.base)) w.wr = x at h1 h2 ⊢
    generalize processFreed io.ord w'.wr = y at h1 h2 h3 ⊢
    obtain ⟨x1, x2⟩ := x
    obtain ⟨y1, y2⟩ := y
    simp only at h1 h2 h3
    subst h1 h2
    cases y1 with
    | error e => exact .inl ⟨rfl, h.db.again _⟩
    | ok u =>
      simp only
      rw [h.hp]
      exact .inl (commitPages_scarred (h.db.again _) io _ _ _ _)
  · generalize processFreed io.ord w'.wr = y at h1 ⊢
    obtain ⟨y1, y2⟩ := y
    simp only at h1
    subst h1
    exact .inr ⟨e, rfl, h2, rfl⟩

end Uma.Page
