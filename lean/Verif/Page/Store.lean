import Mathlib.Algebra.Order.Group.Multiset
import Mathlib.Algebra.BigOperators.Group.Multiset.Basic
import Mathlib.Tactic.Abel
import Verif.Codec.Node

/-!
# The write transaction: pages, copy-on-write and allocation (umadb-core/src/mvcc.rs 945-1137)

`Writer` (mvcc.rs 965-981) together with the pages it can read (`MvccSnapshot::read_page`, here the field `base`).
`FxHashMap`/`FxHashSet` are lists without repetitions; where the code iterates over one, the model takes the order as a
parameter.  Functions that take `&mut Writer` are state transformers that keep the state also when they fail.
-/

namespace Uma.Page
open Uma.Codec

/-- `FxHashMap<PageID, Page>`. -/
abbrev Pages := List (Nat × Node)

def Pages.get (d : Pages) (p : Nat) : Option Node := d.lookup p

def Pages.del (d : Pages) (p : Nat) : Pages := d.filter fun x => x.1 != p

def Pages.put (d : Pages) (p : Nat) (n : Node) : Pages := (p, n) :: d.del p

def Pages.ids (d : Pages) : List Nat := d.map (·.1)

/-- `Writer`, mvcc.rs 965-981, plus `base`: what `mvcc.read_page` returns (`none`: it fails), and `kw`, the tag key
width (a process-wide setting, tags_tree_nodes.rs 14-26).  `max_node_size` is `page_size` minus the page header
(mvcc.rs 271), see `Writer.maxNode`. -/
structure Writer where
  base : Nat → Option Node
  kw : Nat
  pageSize : Nat
  tsn : Nat
  nextPage : Nat
  freeRoot : Nat
  eventsRoot : Nat
  tagsRoot : Nat
  trackRoot : Nat
  nextPos : Nat
  reusable : List (Nat × Nat)
  reused : List (Nat × Nat)
  freed : List Nat
  deser : Nat → Option Node
  dirty : Pages

def Writer.maxNode (w : Writer) : Nat := w.pageSize - pageHeaderSize

/-- A function taking `&mut Writer`. -/
def W (α : Type) := Writer → Except Err α × Writer

instance : Monad W where
  pure a := fun w => (.ok a, w)
  bind m f := fun w => match m w with
    | (.ok a, w') => f a w'
    | (.error e, w') => (.error e, w')

def fail {α} (e : Err) : W α := fun w => (.error e, w)
def getW : W Writer := fun w => (.ok w, w)
def modW (f : Writer → Writer) : W Unit := fun w => (.ok (), f w)

/-- `get_page_ref`, mvcc.rs 1043-1059. -/
def getPage (p : Nat) : W Node := fun w =>
  match w.dirty.get p with
  | some n => (.ok n, w)
  | none =>
    match w.deser p with
    | some n => (.ok n, w)
    | none =>
      match w.base p with
      | none => (.error (.pageNotFound p), w)
      | some n => (.ok n, { w with deser := fun q => if q = p then some n else w.deser q })

/-- `get_mut_dirty`, mvcc.rs 1061-1067, followed by a change `f` of the node. -/
def modDirty {α} (p : Nat) (f : Node → Except Err (α × Node)) : W α := fun w =>
  match w.dirty.get p with
  | none => (.error (.dirtyPageNotFound p), w)
  | some n =>
    match f n with
    | .error e => (.error e, w)
    | .ok (a, n') => (.ok a, { w with dirty := w.dirty.put p n' })

/-- `insert_dirty`, mvcc.rs 1069-1081. -/
def insertDirty (p : Nat) (n : Node) : W Unit := fun w =>
  if w.freed.contains p then (.error (.pageAlreadyFreed p), w)
  else match w.dirty.get p with
    | some _ => (.error (.pageAlreadyDirty p), w)
    | none => (.ok (), { w with dirty := w.dirty.put p n })

/-- `alloc_page_id`, mvcc.rs 1083-1092. -/
def allocPage : W Nat := fun w =>
  match w.reusable with
  | (p, t) :: rest => (.ok p, { w with reusable := rest, reused := w.reused ++ [(p, t)] })
  | [] => (.ok w.nextPage, { w with nextPage := w.nextPage + 1 })

/-- Allocation followed by `insert_dirty` of a page with the new id. -/
def newPage (n : Node) : W Nat := do
  let p ← allocPage
  insertDirty p n
  pure p

/-- `get_dirty_page_id`, mvcc.rs 1094-1131. -/
def getDirty (p : Nat) : W Nat := fun w =>
  if w.freed.contains p then (.error (.pageAlreadyFreed p), w)
  else match w.dirty.get p with
    | some _ => (.ok p, w)
    | none =>
      let w := { w with freed := p :: w.freed }
      match allocPage w with
      | (.error e, w) => (.error e, w)
      | (.ok p', w) =>
        match w.deser p with
        | none => (.error (.databaseCorrupted "Deserialized page not found while marking dirty"), w)
        | some n =>
          (.ok p', { w with
            deser := fun q => if q = p then none else w.deser q
            dirty := w.dirty.put p' n })

/-- `append_freed_page_id`, mvcc.rs 1133-1137. -/
def appendFreed (p : Nat) : W Unit := fun w =>
  if w.freed.contains p then (.ok (), w)
  else (.ok (), { w with freed := p :: w.freed, dirty := w.dirty.del p })

/-- `issue_position`, mvcc.rs 1024-1028. -/
def issuePosition (w : Writer) : Nat × Writer := (w.nextPos, { w with nextPos := w.nextPos + 1 })

/-! ## Reasoning about successful runs -/

/-- `m` succeeds from `w` with a result satisfying `Q`. -/
def Run {α} (m : W α) (w : Writer) (Q : α → Writer → Prop) : Prop :=
  ∃ a w', m w = (.ok a, w') ∧ Q a w'

theorem Run.pure {α} {a : α} {w : Writer} {Q : α → Writer → Prop} (h : Q a w) : Run (pure a) w Q :=
  ⟨a, w, rfl, h⟩

theorem Run.bind {α β} {m : W α} {f : α → W β} {w : Writer} {Q : β → Writer → Prop}
    (h : Run m w fun a w' => Run (f a) w' Q) : Run (m >>= f) w Q := by
  obtain ⟨a, w', h1, b, w'', h2, h3⟩ := h
  refine ⟨b, w'', ?_, h3⟩
  show (match m w with | (.ok a, w') => f a w' | (.error e, w') => (.error e, w')) = _
  rw [h1]; exact h2

theorem Run.mono {α} {m : W α} {w : Writer} {Q R : α → Writer → Prop} (h : Run m w Q)
    (hq : ∀ a w', Q a w' → R a w') : Run m w R := by
  obtain ⟨a, w', h1, h2⟩ := h
  exact ⟨a, w', h1, hq _ _ h2⟩

theorem Run.andThen {α β} {m : W α} {f : α → W β} {w : Writer} {Q : α → Writer → Prop} {R : β → Writer → Prop}
    (h : Run m w Q) (hf : ∀ a w', Q a w' → Run (f a) w' R) : Run (m >>= f) w R :=
  .bind (h.mono hf)

theorem Run.getW {w : Writer} {Q : Writer → Writer → Prop} (h : Q w w) : Run getW w Q := ⟨w, w, rfl, h⟩
theorem Run.modW {w : Writer} {f : Writer → Writer} {Q : Unit → Writer → Prop} (h : Q () (f w)) :
    Run (modW f) w Q := ⟨(), _, rfl, h⟩

/-! ## Maps -/

theorem Pages.get_del (d : Pages) (p q : Nat) : (d.del p).get q = if q = p then none else d.get q := by
  unfold del get
  induction d with
  | nil => simp
  | cons x d ih =>
    obtain ⟨a, n⟩ := x
    by_cases hp : a = p
    · subst hp
      simp only [List.filter_cons, bne_self_eq_false, Bool.false_eq_true, if_false, ih, List.lookup_cons]
      split
      · rfl
      · next h => rw [show (q == a) = false by simpa using h]
    · simp only [List.filter_cons, bne_iff_ne, ne_eq, hp, not_false_eq_true, if_true, List.lookup_cons]
      by_cases hq : q = a
      · subst hq; simp [hp]
      · rw [show (q == a) = false by simpa using hq]; exact ih

theorem Pages.get_put (d : Pages) (p : Nat) (n : Node) (q : Nat) :
    (d.put p n).get q = if q = p then some n else d.get q := by
  unfold put
  show List.lookup q ((p, n) :: d.del p) = _
  rw [List.lookup_cons]
  by_cases h : q = p
  · subst h; simp
  · rw [show (q == p) = false by simpa using h]
    show (d.del p).get q = _
    rw [get_del, if_neg h, if_neg h]

theorem Pages.mem_ids {d : Pages} {p : Nat} : p ∈ d.ids ↔ ∃ n, d.get p = some n := by
  unfold ids get
  induction d with
  | nil => simp
  | cons x d ih =>
    obtain ⟨a, n⟩ := x
    rw [List.map_cons, List.mem_cons, List.lookup_cons]
    by_cases h : p = a
    · subst h; simp
    · rw [show (p == a) = false by simpa using h]; simp only [h, false_or]; exact ih

theorem Pages.mem_put {d : Pages} {p q : Nat} {n : Node} (h : q ∈ d.ids) : q ∈ (d.put p n).ids := by
  obtain ⟨m, hm⟩ := mem_ids.mp h
  by_cases e : q = p
  · exact mem_ids.mpr ⟨n, by rw [get_put, if_pos e]⟩
  · exact mem_ids.mpr ⟨m, by rw [get_put, if_neg e]; exact hm⟩

theorem Pages.nodup_del {d : Pages} {p : Nat} (h : d.ids.Nodup) : (d.del p).ids.Nodup :=
  h.sublist (List.Sublist.map _ List.filter_sublist)

theorem Pages.nodup_put {d : Pages} {p : Nat} {n : Node} (h : d.ids.Nodup) : (d.put p n).ids.Nodup := by
  refine List.nodup_cons.mpr ⟨fun hm => ?_, nodup_del h⟩
  obtain ⟨m, hm⟩ := mem_ids.mp hm
  rw [get_del] at hm; simp at hm

theorem Pages.get_mem {d : Pages} (h : d.ids.Nodup) {p : Nat} {n : Node} : d.get p = some n ↔ (p, n) ∈ d := by
  unfold get ids at *
  induction d with
  | nil => simp
  | cons x d ih =>
    obtain ⟨a, m⟩ := x
    obtain ⟨h1, h2⟩ := List.nodup_cons.mp h
    rw [List.lookup_cons, List.mem_cons]
    by_cases hp : p = a
    · subst hp
      simp only [beq_self_eq_true, Option.some.injEq, Prod.mk.injEq, true_and]
      constructor
      · rintro rfl; exact .inl rfl
      · rintro (h | h)
        · exact h.symm
        · exact absurd (List.mem_map.mpr ⟨_, h, rfl⟩) h1
    · rw [show (p == a) = false by simpa using hp]
      simp only [Prod.mk.injEq, hp, false_and, false_or]
      exact ih h2

theorem Pages.length_del_none {d : Pages} {p : Nat} (h : d.get p = none) : (d.del p).length = d.length := by
  unfold del
  rw [List.filter_eq_self.mpr]
  intro x hx
  rw [bne_iff_ne]
  rintro rfl
  obtain ⟨n, hn⟩ := mem_ids.mp (show x.1 ∈ d.ids from List.mem_map.mpr ⟨x, hx, rfl⟩)
  rw [h] at hn; cases hn

theorem Pages.length_del_some {d : Pages} (hd : d.ids.Nodup) {p : Nat} {n : Node} (h : d.get p = some n) :
    (d.del p).length + 1 = d.length := by
  induction d with
  | nil => cases h
  | cons x d ih =>
    obtain ⟨a, m⟩ := x
    obtain ⟨h1, h2⟩ := List.nodup_cons.mp hd
    by_cases hp : p = a
    · subst hp
      have hn : Pages.get d p = none := by
        cases hg : Pages.get d p with
        | none => rfl
        | some k => exact absurd (mem_ids.mpr ⟨k, hg⟩) h1
      have hl := length_del_none hn
      unfold del at hl ⊢
      simp only [List.filter_cons, bne_self_eq_false, Bool.false_eq_true, if_false, List.length_cons, hl]
    · have hg : Pages.get d p = some n := by
        have : List.lookup p ((a, m) :: d) = some n := h
        rw [List.lookup_cons, show (p == a) = false by simpa using hp] at this
        exact this
      have := ih h2 hg
      unfold del at this ⊢
      simp only [List.filter_cons, bne_iff_ne, ne_eq, Ne.symm hp, not_false_eq_true, if_true, List.length_cons]
      omega

theorem Pages.length_put_none {d : Pages} {p : Nat} {n : Node} (h : d.get p = none) :
    (d.put p n).length = d.length + 1 := by
  unfold put; rw [List.length_cons, length_del_none h]

theorem Pages.length_put_some {d : Pages} (hd : d.ids.Nodup) {p : Nat} {n m : Node} (h : d.get p = some m) :
    (d.put p n).length = d.length := by
  unfold put; rw [List.length_cons, length_del_some hd h]

/-! ## Ownership

`P` lists the pages of all trees with their contents, as a multiset.  `Own` says that the transaction sees them and that
every page id from 2 up to the allocation limit is accounted for exactly once: in a tree, freed by this transaction,
waiting to be reused, or in `X` (other entries of the free list).  `A` are the pages this transaction may write. -/

def Writer.view (w : Writer) (p : Nat) : Option Node :=
  match w.dirty.get p with
  | some n => some n
  | none => w.base p

def ids (P : Multiset (Nat × Node)) : Multiset Nat := P.map (·.1)

@[simp] theorem ids_add (P Q : Multiset (Nat × Node)) : ids (P + Q) = ids P + ids Q := Multiset.map_add _ _ _
@[simp] theorem ids_cons (x : Nat × Node) (P : Multiset (Nat × Node)) : ids (x ::ₘ P) = x.1 ::ₘ ids P :=
  Multiset.map_cons _ _ _
@[simp] theorem ids_zero : ids 0 = 0 := rfl
@[simp] theorem ids_singleton (x : Nat × Node) : ids {x} = {x.1} := Multiset.map_singleton _ _
@[simp] theorem card_ids (P : Multiset (Nat × Node)) : (ids P).card = P.card := Multiset.card_map _ _

theorem mem_ids {P : Multiset (Nat × Node)} {p : Nat} : p ∈ ids P ↔ ∃ n, (p, n) ∈ P := by
  simp [ids]

theorem mem_ids_of {P : Multiset (Nat × Node)} {p : Nat} {n : Node} (h : (p, n) ∈ P) : p ∈ ids P := mem_ids.mpr ⟨n, h⟩

/-- Page ids below the allocation limit, headers excluded. -/
def bodyIds (nextPage : Nat) : Multiset Nat := ↑(List.range' 2 (nextPage - 2))

theorem bodyIds_nodup (n : Nat) : (bodyIds n).Nodup := by
  rw [bodyIds, Multiset.coe_nodup]; exact List.nodup_range'

theorem mem_bodyIds {n p : Nat} : p ∈ bodyIds n ↔ 2 ≤ p ∧ p < n := by
  rw [bodyIds, Multiset.mem_coe, List.mem_range'_1]; omega

theorem bodyIds_succ {n : Nat} (h : 2 ≤ n) : bodyIds (n + 1) = bodyIds n + {n} := by
  unfold bodyIds
  rw [show n + 1 - 2 = (n - 2) + 1 by omega, List.range'_concat, ← Multiset.coe_add]
  congr 1
  show ((([2 + 1 * (n - 2)] : List Nat)) : Multiset Nat) = _
  rw [show 2 + 1 * (n - 2) = n by omega]; rfl

theorem card_bodyIds (n : Nat) : (bodyIds n).card = n - 2 := by simp [bodyIds]

structure Own (w : Writer) (A : Nat → Prop) (X : Multiset Nat) (P : Multiset (Nat × Node)) : Prop where
  sees : ∀ p n, (p, n) ∈ P → w.view p = some n
  account : ids P + (w.freed : Multiset Nat) + (w.reusable.map (·.1) : List Nat) + X = bodyIds w.nextPage
  limit : 2 ≤ w.nextPage
  dirtyIn : ∀ p ∈ w.dirty.ids, p ∈ ids P
  dirtyNodup : w.dirty.ids.Nodup
  cached : ∀ p n, w.deser p = some n → w.base p = some n
  mayDirty : ∀ p ∈ w.dirty.ids, A p
  mayReuse : ∀ x ∈ w.reusable, A x.1
  mayNew : ∀ p, w.nextPage ≤ p → A p
  /-- A tree page that is not dirty is one the transaction found. -/
  clean : ∀ p ∈ ids P, p ∈ w.dirty.ids ∨ ¬ A p

/-- What page operations never change. -/
structure Step (w w' : Writer) : Prop where
  base : w'.base = w.base
  kw : w'.kw = w.kw
  pageSize : w'.pageSize = w.pageSize
  tsn : w'.tsn = w.tsn
  freeRoot : w'.freeRoot = w.freeRoot
  eventsRoot : w'.eventsRoot = w.eventsRoot
  tagsRoot : w'.tagsRoot = w.tagsRoot
  trackRoot : w'.trackRoot = w.trackRoot
  nextPos : w'.nextPos = w.nextPos
  queue : w'.reused ++ w'.reusable = w.reused ++ w.reusable
  grows : w.nextPage ≤ w'.nextPage

theorem Step.refl (w : Writer) : Step w w := ⟨rfl, rfl, rfl, rfl, rfl, rfl, rfl, rfl, rfl, rfl, Nat.le_refl _⟩

theorem Step.trans {a b c : Writer} (h : Step a b) (k : Step b c) : Step a c :=
  ⟨k.1.trans h.1, k.2.trans h.2, k.3.trans h.3, k.4.trans h.4, k.5.trans h.5, k.6.trans h.6, k.7.trans h.7,
    k.8.trans h.8, k.9.trans h.9, k.10.trans h.10, Nat.le_trans h.11 k.11⟩

/-- The page can be made dirty without reading it again. -/
def IsDirty (w : Writer) (p : Nat) : Prop := ∃ n, w.dirty.get p = some n
def Loaded (w : Writer) (p : Nat) : Prop := IsDirty w p ∨ ∃ n, w.deser p = some n

/-- `Step`, and the pages of `R` stay loaded and dirty. -/
structure Keep0 (R : Multiset (Nat × Node)) (w w' : Writer) : Prop where
  step : Step w w'
  loaded : ∀ p ∈ ids R, Loaded w p → Loaded w' p
  dirty : ∀ p ∈ ids R, IsDirty w p → IsDirty w' p
  freed : ∀ p ∈ w.freed, p ∈ w'.freed

theorem Keep0.refl (R) (w : Writer) : Keep0 R w w := ⟨.refl w, fun _ _ h => h, fun _ _ h => h, fun _ h => h⟩

theorem Keep0.trans {R} {a b c : Writer} (h : Keep0 R a b) (k : Keep0 R b c) : Keep0 R a c :=
  ⟨h.1.trans k.1, fun p hp hl => k.2 p hp (h.2 p hp hl), fun p hp hl => k.3 p hp (h.3 p hp hl),
    fun p hp => k.4 p (h.4 p hp)⟩

theorem Keep0.sub {R S} {a b : Writer} (h : Keep0 R a b) (hs : S ≤ R) : Keep0 S a b :=
  ⟨h.1, fun p hp => h.2 p (Multiset.mem_of_le (Multiset.map_le_map hs) hp),
    fun p hp => h.3 p (Multiset.mem_of_le (Multiset.map_le_map hs) hp), h.4⟩

/-- `Keep0`, and every page taken by the allocator is dirty. -/
structure Keep (R : Multiset (Nat × Node)) (w w' : Writer) : Prop extends Keep0 R w w' where
  tight : w'.nextPage + w.reusable.length + w.dirty.length = w.nextPage + w'.reusable.length + w'.dirty.length

theorem Keep.refl (R) (w : Writer) : Keep R w w := ⟨.refl R w, rfl⟩

theorem Keep.trans {R} {a b c : Writer} (h : Keep R a b) (k : Keep R b c) : Keep R a c :=
  ⟨h.1.trans k.1, by have := h.tight; have := k.tight; omega⟩

theorem Keep.sub {R S} {a b : Writer} (h : Keep R a b) (hs : S ≤ R) : Keep S a b := ⟨h.1.sub hs, h.2⟩

variable {w : Writer} {A : Nat → Prop} {X : Multiset Nat} {P R : Multiset (Nat × Node)} {p : Nat} {n : Node}

theorem Own.congr {P'} (h : Own w A X P) (e : P' = P) : Own w A X P' := e ▸ h

theorem Own.nodup (h : Own w A X P) : (ids P + (w.freed : Multiset Nat) + (w.reusable.map (·.1) : List Nat) + X).Nodup := by
  rw [h.account]; exact bodyIds_nodup _

theorem Own.nodup_ids (h : Own w A X P) : (ids P).Nodup := by
  have := h.nodup
  rw [add_assoc, add_assoc] at this
  exact (Multiset.nodup_add.mp this).1

theorem Own.not_freed (h : Own w A X P) (hp : p ∈ ids P) : p ∉ w.freed := by
  have := h.nodup
  rw [add_assoc, add_assoc] at this
  have := (Multiset.nodup_add.mp this).2.2
  intro hf
  exact Multiset.disjoint_left.mp this hp (by simp [hf])

theorem Own.lt (h : Own w A X P) (hp : p ∈ ids P) : 2 ≤ p ∧ p < w.nextPage := by
  have : p ∈ bodyIds w.nextPage := by rw [← h.account]; simp [hp]
  exact mem_bodyIds.mp this

theorem Own.card_lt (h : Own w A X P) : P.card + 2 ≤ w.nextPage := by
  have := congrArg Multiset.card h.account
  simp only [Multiset.card_add, card_ids, card_bodyIds] at this
  have := h.limit
  omega

/-- Two pages with the same id are the same page. -/
theorem Own.fresh (h : Own w A X ({(p, n)} + R)) : p ∉ ids R := by
  have := h.nodup_ids
  rw [ids_add, ids_singleton] at this
  have := (Multiset.nodup_add.mp this).2.2
  exact Multiset.disjoint_left.mp this (by simp)

theorem getPage_spec (h : Own w A X P) (hp : (p, n) ∈ P) :
    Run (getPage p) w fun m w' => m = n ∧ Own w' A X P ∧ Keep P w w' ∧ Loaded w' p := by
  have hv := h.sees p n hp
  unfold Writer.view at hv
  unfold Run getPage
  split at hv
  · next m hm =>
    cases hv
    refine ⟨n, w, rfl, rfl, h, .refl _ _, .inl ⟨n, hm⟩⟩
  · next hm =>
    simp only
    cases hd : w.deser p with
    | some m =>
      have := h.cached p m hd
      rw [hv] at this; cases this
      exact ⟨n, w, rfl, rfl, h, .refl _ _, .inr ⟨n, hd⟩⟩
    | none =>
      simp only [hv]
      refine ⟨n, _, rfl, rfl, ?_, ⟨⟨⟨rfl, rfl, rfl, rfl, rfl, rfl, rfl, rfl, rfl, rfl, Nat.le_refl _⟩, ?_, ?_, fun _ h => h⟩, rfl⟩,
        .inr ⟨n, if_pos rfl⟩⟩
      · refine ⟨h.sees, h.account, h.limit, h.dirtyIn, h.dirtyNodup, ?_, h.mayDirty, h.mayReuse, h.mayNew, h.clean⟩
        intro q m hq
        simp only at hq
        split at hq
        · next e => subst e; cases hq; exact hv
        · exact h.cached q m hq
      · intro q _ hl
        rcases hl with hl | ⟨m, hl⟩
        · exact .inl hl
        · right
          by_cases hq : q = p
          · exact ⟨n, if_pos hq⟩
          · exact ⟨m, by simp only [if_neg hq]; exact hl⟩
      · intro q _ hl; exact hl

/-- Replacing the content of a dirty page. -/
theorem Own.set (h : Own w A X ({(p, n)} + R)) (hd : IsDirty w p) (n' : Node) :
    Own { w with dirty := w.dirty.put p n' } A X ({(p, n')} + R) ∧
    Keep R w { w with dirty := w.dirty.put p n' } ∧ IsDirty { w with dirty := w.dirty.put p n' } p := by
  have hf := h.fresh
  refine ⟨⟨?_, ?_, h.limit, ?_, Pages.nodup_put h.dirtyNodup, h.cached, ?_, h.mayReuse, h.mayNew, ?_⟩,
    ⟨⟨⟨rfl, rfl, rfl, rfl, rfl, rfl, rfl, rfl, rfl, rfl, Nat.le_refl _⟩, ?_, ?_, fun _ h => h⟩, ?_⟩, ⟨n', ?_⟩⟩
  · intro q m hq
    unfold Writer.view
    simp only [Pages.get_put]
    rw [Multiset.mem_add, Multiset.mem_singleton] at hq
    rcases hq with hq | hq
    · cases hq; simp
    · have hne : q ≠ p := fun e => hf (e ▸ mem_ids_of hq)
      rw [if_neg hne]
      exact h.sees q m (by simp [hq])
  · simpa using h.account
  · intro q hq
    have hin := h.dirtyIn
    rcases Pages.mem_ids.mp hq with ⟨m, hm⟩
    rw [Pages.get_put] at hm
    by_cases e : q = p
    · subst e; simp
    · rw [if_neg e] at hm
      simpa using hin q (Pages.mem_ids.mpr ⟨m, hm⟩)
  · intro q hq
    rcases Pages.mem_ids.mp hq with ⟨m, hm⟩
    rw [Pages.get_put] at hm
    by_cases e : q = p
    · subst e; exact h.mayDirty q (Pages.mem_ids.mpr hd)
    · rw [if_neg e] at hm
      exact h.mayDirty q (Pages.mem_ids.mpr ⟨m, hm⟩)
  · intro q hq
    rcases h.clean q (by simpa using hq) with hc | hc
    · exact .inl (Pages.mem_put hc)
    · exact .inr hc
  · intro q _ hl
    rcases hl with ⟨m, hl⟩ | hl
    · left
      by_cases e : q = p
      · exact ⟨n', by simp only [Pages.get_put, if_pos e]⟩
      · exact ⟨m, by simp only [Pages.get_put, if_neg e]; exact hl⟩
    · exact .inr hl
  · rintro q _ ⟨m, hl⟩
    by_cases e : q = p
    · exact ⟨n', by simp only [Pages.get_put, if_pos e]⟩
    · exact ⟨m, by simp only [Pages.get_put, if_neg e]; exact hl⟩
  · obtain ⟨m, hm⟩ := hd
    simp only [Pages.length_put_some h.dirtyNodup hm]
  · simp only [Pages.get_put, if_true]

theorem Own.dirty_eq (h : Own w A X P) (hp : (p, n) ∈ P) (hd : IsDirty w p) : w.dirty.get p = some n := by
  obtain ⟨m, hm⟩ := hd
  have := h.sees p n hp
  unfold Writer.view at this
  rw [hm] at this; cases this; exact hm

theorem modDirty_spec {α} {f : Node → Except Err (α × Node)} {a : α} {n' : Node} (h : Own w A X ({(p, n)} + R))
    (hd : IsDirty w p) (hf : f n = .ok (a, n')) :
    Run (modDirty p f) w fun b w' => b = a ∧ Own w' A X ({(p, n')} + R) ∧ Keep R w w' ∧ IsDirty w' p := by
  have hg := h.dirty_eq (n := n) (by simp) hd
  obtain ⟨h1, h2, h3⟩ := h.set hd n'
  refine ⟨a, _, ?_, rfl, h1, h2, h3⟩
  unfold modDirty
  rw [hg]; simp only [hf]

/-- Allocation hands out a page that no tree uses. -/
theorem allocPage_spec (h : Own w A X P) :
    Run allocPage w fun p w' => Own w' A ({p} + X) P ∧ Keep0 P w w' ∧ A p ∧ p ∉ ids P ∧ p ∉ w'.freed ∧
      w'.dirty = w.dirty ∧ w'.deser = w.deser ∧ w'.freed = w.freed ∧
      w'.nextPage + w.reusable.length = w.nextPage + w'.reusable.length + 1 := by
  unfold Run allocPage
  cases hr : w.reusable with
  | nil =>
    have hacc := h.account
    have hown : Own { w with nextPage := w.nextPage + 1 } A ({w.nextPage} + X) P := by
      refine ⟨h.sees, ?_, Nat.le_succ_of_le h.limit, h.dirtyIn, h.dirtyNodup, h.cached, h.mayDirty, h.mayReuse,
        fun p hp => h.mayNew p (by simp only at hp; omega), h.clean⟩
      show ids P + (w.freed : Multiset Nat) + (w.reusable.map (·.1) : List Nat) + ({w.nextPage} + X) =
        bodyIds (w.nextPage + 1)
      rw [bodyIds_succ h.limit, ← hacc]; abel
    have hnd := hown.nodup
    refine ⟨_, { w with nextPage := w.nextPage + 1 }, by simp only [hr], hown, ⟨⟨rfl, rfl, rfl, rfl, rfl, rfl, rfl, rfl, rfl, rfl,
      Nat.le_succ _⟩, fun _ _ h => h, fun _ _ h => h, fun _ h => h⟩, h.mayNew _ (Nat.le_refl _), ?_, ?_, rfl, rfl, rfl, ?_⟩
    · intro hp; have := (h.lt hp).2; omega
    · intro hp
      have : w.nextPage ∈ bodyIds w.nextPage := by rw [← hacc]; simp [show w.nextPage ∈ w.freed from hp]
      have := (mem_bodyIds.mp this).2; omega
    · simp only [hr, List.length_nil, Nat.add_zero]
  | cons x rest =>
    obtain ⟨p, t⟩ := x
    have hacc := h.account
    rw [hr] at hacc
    have hown : Own { w with reusable := rest, reused := w.reused ++ [(p, t)] } A ({p} + X) P := by
      refine ⟨h.sees, ?_, h.limit, h.dirtyIn, h.dirtyNodup, h.cached, h.mayDirty,
        fun x hx => h.mayReuse x (by rw [hr]; exact List.mem_cons_of_mem _ hx), h.mayNew, h.clean⟩
      show ids P + (w.freed : Multiset Nat) + (rest.map (·.1) : List Nat) + ({p} + X) = bodyIds w.nextPage
      rw [← hacc, List.map_cons, ← Multiset.cons_coe, ← Multiset.singleton_add]; abel
    have hnd := hown.nodup
    refine ⟨_, _, rfl, hown, ⟨⟨rfl, rfl, rfl, rfl, rfl, rfl, rfl, rfl, rfl, ?_, Nat.le_refl _⟩, fun _ _ h => h,
      fun _ _ h => h, fun _ h => h⟩, h.mayReuse (p, t) (by rw [hr]; simp), ?_, ?_, rfl, rfl, rfl, ?_⟩
    · simp [hr]
    · intro hp
      rw [← add_assoc, add_right_comm, add_right_comm, add_right_comm _ _ X] at hnd
      have hnd := (Multiset.nodup_add.mp hnd).2.2
      exact Multiset.disjoint_left.mp hnd (show p ∈ _ by simp [hp]) (by simp)
    · intro hp
      rw [← add_assoc, add_right_comm, add_right_comm, add_right_comm _ _ X] at hnd
      have hnd := (Multiset.nodup_add.mp hnd).2.2
      exact Multiset.disjoint_left.mp hnd (show p ∈ _ by simp [show p ∈ w.freed from hp]) (by simp)
    · simp only [List.length_cons]; omega

/-- Adding a fresh page. -/
theorem Own.add (h : Own w A ({p} + X) P) (ha : A p) (hp : p ∉ ids P) (n : Node) :
    Own { w with dirty := w.dirty.put p n } A X ({(p, n)} + P) ∧
    Keep0 P w { w with dirty := w.dirty.put p n } ∧ IsDirty { w with dirty := w.dirty.put p n } p := by
  refine ⟨⟨?_, ?_, h.limit, ?_, Pages.nodup_put h.dirtyNodup, h.cached, ?_, h.mayReuse, h.mayNew, ?_⟩,
    ⟨⟨rfl, rfl, rfl, rfl, rfl, rfl, rfl, rfl, rfl, rfl, Nat.le_refl _⟩, ?_, ?_, fun _ h => h⟩, ⟨n, ?_⟩⟩
  · intro q m hq
    unfold Writer.view
    simp only [Pages.get_put]
    rw [Multiset.mem_add, Multiset.mem_singleton] at hq
    rcases hq with hq | hq
    · cases hq; simp
    · have hne : q ≠ p := fun e => hp (e ▸ mem_ids_of hq)
      rw [if_neg hne]
      exact h.sees q m hq
  · rw [ids_add, ids_singleton, ← h.account]; show _ = _ + ({p} + X); simp only; abel
  · intro q hq
    rcases Pages.mem_ids.mp hq with ⟨m, hm⟩
    rw [Pages.get_put] at hm
    by_cases e : q = p
    · subst e; simp
    · rw [if_neg e] at hm
      simp [h.dirtyIn q (Pages.mem_ids.mpr ⟨m, hm⟩)]
  · intro q hq
    rcases Pages.mem_ids.mp hq with ⟨m, hm⟩
    rw [Pages.get_put] at hm
    by_cases e : q = p
    · subst e; exact ha
    · rw [if_neg e] at hm
      exact h.mayDirty q (Pages.mem_ids.mpr ⟨m, hm⟩)
  · intro q hq
    rw [ids_add, ids_singleton, Multiset.mem_add, Multiset.mem_singleton] at hq
    rcases hq with rfl | hq
    · exact .inl (Pages.mem_ids.mpr ⟨n, by simp only [Pages.get_put, if_true]⟩)
    · rcases h.clean q hq with hc | hc
      · exact .inl (Pages.mem_put hc)
      · exact .inr hc
  · intro q _ hl
    rcases hl with ⟨m, hl⟩ | hl
    · left
      by_cases e : q = p
      · exact ⟨n, by simp only [Pages.get_put, if_pos e]⟩
      · exact ⟨m, by simp only [Pages.get_put, if_neg e]; exact hl⟩
    · exact .inr hl
  · rintro q _ ⟨m, hl⟩
    by_cases e : q = p
    · exact ⟨n, by simp only [Pages.get_put, if_pos e]⟩
    · exact ⟨m, by simp only [Pages.get_put, if_neg e]; exact hl⟩
  · simp only [Pages.get_put, if_true]

theorem Own.not_dirty (h : Own w A X P) (hp : p ∉ ids P) : w.dirty.get p = none := by
  cases hg : w.dirty.get p with
  | none => rfl
  | some m => exact absurd (h.dirtyIn p (Pages.mem_ids.mpr ⟨m, hg⟩)) hp

theorem newPage_spec (n : Node) (h : Own w A X P) :
    Run (newPage n) w fun p w' => Own w' A X ({(p, n)} + P) ∧ Keep P w w' ∧ IsDirty w' p := by
  unfold newPage
  refine (allocPage_spec h).andThen fun p w1 ⟨h1, k1, ha, hp, hf, hdi, _, _, ht⟩ => ?_
  obtain ⟨h2, k2, hd⟩ := h1.add ha hp n
  refine Run.andThen (Q := fun _ w' => w' = { w1 with dirty := w1.dirty.put p n }) ⟨(), _, ?_, rfl⟩ ?_
  · unfold insertDirty
    rw [if_neg (by simpa using hf), h1.not_dirty hp]
  · rintro _ w2 rfl
    refine .pure ⟨h2, ⟨k1.trans k2, ?_⟩, hd⟩
    show w1.nextPage + _ + _ = w.nextPage + w1.reusable.length + (w1.dirty.put p n).length
    rw [Pages.length_put_none (h1.not_dirty hp), hdi]; omega

theorem getDirty_spec (h : Own w A X ({(p, n)} + R)) (hl : Loaded w p) :
    Run (getDirty p) w fun p' w' => Own w' A X ({(p', n)} + R) ∧ Keep R w w' ∧ IsDirty w' p' := by
  have hnf := h.not_freed (p := p) (by simp)
  unfold Run getDirty
  rw [if_neg (by simpa using hnf)]
  rcases hl with ⟨m, hm⟩ | ⟨m, hm⟩
  · rw [hm]; exact ⟨p, w, rfl, h, .refl _ _, m, hm⟩
  · cases hd : w.dirty.get p with
    | some m' => exact ⟨p, w, rfl, h, .refl _ _, m', hd⟩
    | none =>
      have hv := h.sees p n (by simp)
      unfold Writer.view at hv
      rw [hd] at hv
      have hb : w.base p = some n := hv
      have hmn : m = n := by have := h.cached p m hm; rw [hb] at this; exact (Option.some.inj this).symm
      subst hmn
      -- the page is freed
      have h1 : Own { w with freed := p :: w.freed } A X R := by
        refine ⟨fun q m hq => h.sees q m (by simp [hq]), ?_, h.limit, ?_, h.dirtyNodup, h.cached, h.mayDirty,
          h.mayReuse, h.mayNew, fun q hq => h.clean q (by simp [hq])⟩
        · have := h.account
          rw [ids_add, ids_singleton] at this
          rw [← this]
          simp only [← Multiset.cons_coe, ← Multiset.singleton_add]; abel
        · intro q hq
          have := h.dirtyIn q hq
          rw [ids_add, ids_singleton, Multiset.mem_add, Multiset.mem_singleton] at this
          rcases this with rfl | this
          · obtain ⟨m', hm'⟩ := Pages.mem_ids.mp hq
            rw [hd] at hm'; cases hm'
          · exact this
      obtain ⟨p', w1, e1, h2, k2, ha, hp', hf', hdi, hde, hfr, ht⟩ := allocPage_spec h1
      have hpf : p' ≠ p := by
        rintro rfl; rw [hfr] at hf'; exact hf' (List.mem_cons_self)
      obtain ⟨h3, k3, hd3⟩ := h2.add ha hp' m
      have hw1 : w1.deser p = some m := by rw [hde]; exact hm
      refine ⟨p', { w1 with deser := fun q => if q = p then none else w1.deser q, dirty := w1.dirty.put p' m },
        ?_, ?_, ?_, hd3⟩
      · simp only [e1, hw1]
      · refine ⟨h3.sees, h3.account, h3.limit, h3.dirtyIn, h3.dirtyNodup, ?_, h3.mayDirty, h3.mayReuse, h3.mayNew, h3.clean⟩
        intro q n' hq
        simp only at hq
        split at hq
        · cases hq
        · exact h2.cached q n' hq
      · have hfresh := h.fresh
        have st := k2.step.trans k3.step
        refine ⟨⟨⟨st.1, st.2, st.3, st.4, st.5, st.6, st.7, st.8, st.9, st.10, st.11⟩, ?_, ?_,
          fun q hq => k3.freed q (k2.freed q (List.mem_cons_of_mem _ hq))⟩, ?_⟩
        · intro q hq hl
          have hne : q ≠ p := fun e => hfresh (e ▸ hq)
          rcases k3.loaded q hq (k2.loaded q hq hl) with hl | ⟨m', hl⟩
          · exact .inl hl
          · exact .inr ⟨m', by simp only [if_neg hne]; exact hl⟩
        · intro q hq hl
          exact k3.dirty q hq (k2.dirty q hq hl)
        · show w1.nextPage + _ + _ = w.nextPage + w1.reusable.length + (w1.dirty.put p' m).length
          rw [Pages.length_put_none (h2.not_dirty hp'), hdi]
          simp only at ht ⊢; omega

/-- Both facts about the outcome. -/
theorem Run.both {α} {m : W α} {w : Writer} {Q R : α → Writer → Prop} (h : Run m w Q) (k : Run m w R) :
    Run m w fun a w' => Q a w' ∧ R a w' := by
  obtain ⟨a, w', h1, h2⟩ := h
  obtain ⟨b, w'', h3, h4⟩ := k
  rw [h1] at h3; cases h3
  exact ⟨a, w', h1, h2, h4⟩

theorem getDirty_freed (h : Own w A X ({(p, n)} + R)) (hl : Loaded w p) :
    Run (getDirty p) w fun p' w' => p' ≠ p → p ∈ w'.freed := by
  obtain ⟨p', w', e, -⟩ := getDirty_spec h hl
  refine ⟨p', w', e, fun hne => ?_⟩
  unfold getDirty at e
  split at e
  · cases e
  · split at e
    · cases e; exact absurd rfl hne
    · simp only at e
      split at e
      · cases e
      · next p1 w1 he =>
        have hf : w1.freed = p :: w.freed := by
          unfold allocPage at he
          split at he <;> cases he <;> rfl
        split at e
        · cases e
        · cases e; simp [hf]

theorem appendFreed_spec (h : Own w A X ({(p, n)} + R)) :
    Run (appendFreed p) w fun _ w' => Own w' A X R ∧ Keep0 R w w' := by
  have hnf := h.not_freed (p := p) (by simp)
  have hfresh := h.fresh
  refine ⟨(), { w with freed := p :: w.freed, dirty := w.dirty.del p },
    by unfold appendFreed; rw [if_neg (by simpa using hnf)],
    ⟨?_, ?_, h.limit, ?_, Pages.nodup_del h.dirtyNodup, h.cached, ?_, h.mayReuse, h.mayNew, ?_⟩,
    ⟨rfl, rfl, rfl, rfl, rfl, rfl, rfl, rfl, rfl, rfl, Nat.le_refl _⟩, ?_, ?_,
    fun _ h => List.mem_cons_of_mem _ h⟩
  · intro q m hq
    have hne : q ≠ p := fun e => hfresh (e ▸ mem_ids_of hq)
    unfold Writer.view
    simp only [Pages.get_del, if_neg hne]
    exact h.sees q m (by simp [hq])
  · have := h.account
    rw [ids_add, ids_singleton] at this
    rw [← this]
    simp only [← Multiset.cons_coe, ← Multiset.singleton_add]; abel
  · intro q hq
    obtain ⟨m, hm⟩ := Pages.mem_ids.mp hq
    rw [Pages.get_del] at hm
    by_cases e : q = p
    · rw [if_pos e] at hm; cases hm
    · rw [if_neg e] at hm
      have := h.dirtyIn q (Pages.mem_ids.mpr ⟨m, hm⟩)
      rw [ids_add, ids_singleton, Multiset.mem_add, Multiset.mem_singleton] at this
      exact this.resolve_left e
  · intro q hq
    obtain ⟨m, hm⟩ := Pages.mem_ids.mp hq
    rw [Pages.get_del] at hm
    split at hm
    · cases hm
    · exact h.mayDirty q (Pages.mem_ids.mpr ⟨m, hm⟩)
  · intro q hq
    have hne : q ≠ p := fun e => hfresh (e ▸ hq)
    rcases h.clean q (by simp [hq]) with hc | hc
    · obtain ⟨m, hm⟩ := Pages.mem_ids.mp hc
      exact .inl (Pages.mem_ids.mpr ⟨m, by rw [Pages.get_del, if_neg hne]; exact hm⟩)
    · exact .inr hc
  · intro q hq hl
    have hne : q ≠ p := fun e => hfresh (e ▸ hq)
    rcases hl with ⟨m, hl⟩ | hl
    · exact .inl ⟨m, by simp only [Pages.get_del, if_neg hne]; exact hl⟩
    · exact .inr hl
  · rintro q hq ⟨m, hl⟩
    have hne : q ≠ p := fun e => hfresh (e ▸ hq)
    exact ⟨m, by simp only [Pages.get_del, if_neg hne]; exact hl⟩

end Uma.Page
