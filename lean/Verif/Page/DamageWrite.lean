import Verif.Page.Damage

/-!
# Changing trees some of whose pages are unreadable

`Tame b' b m`: with the pages `b'`, of which some of `b` are missing, the operation `m` of a write transaction does what it
does with the pages `b`, or reports a missing page.
-/

namespace Uma.Page
open Uma.Codec Uma.Db

/-- The transaction reading other pages. -/
def Writer.on (w : Writer) (b : Nat → Option Node) : Writer := { w with base := b }

variable {b' b : Nat → Option Node} {α β κ : Type}

/-- `m'`, reading `b'`, does what `m` does reading `b`, or reports a missing page. -/
def Tamed (b' b : Nat → Option Node) (m' m : W α) : Prop := ∀ w : Writer, w.base = b' →
  ((m' w).1 = (m (w.on b)).1 ∧ (m (w.on b)).2 = (m' w).2.on b ∧ (m' w).2.base = b') ∨ ∃ e, (m' w).1 = .error e ∧ Lost e

def Tame (b' b : Nat → Option Node) (m : W α) : Prop := Tamed b' b m m

theorem Tamed.bind {m' m : W α} {f' f : α → W β} (hm : Tamed b' b m' m) (hf : ∀ a, Tamed b' b (f' a) (f a)) :
    Tamed b' b (m' >>= f') (m >>= f) := by
  intro w hw
  have e : ∀ (m : W α) (f : α → W β) (w : Writer), (m >>= f) w = match m w with
    | (.ok a, w') => f a w'
    | (.error e, w') => (.error e, w') := fun _ _ _ => rfl
  rw [e, e]
  rcases hm w hw with ⟨h1, h2, h3⟩ | ⟨er, h1, h2⟩
  · generalize m (w.on b) = x at h1 h2 ⊢
    generalize m' w = y at h1 h2 h3 ⊢
    obtain ⟨x1, x2⟩ := x
    obtain ⟨y1, y2⟩ := y
    simp only at h1 h2 h3
    subst h1 h2
    cases y1 with
    | error e => exact .inl ⟨rfl, rfl, h3⟩
    | ok a => exact hf a y2 h3
  · generalize m' w = y at h1 ⊢
    obtain ⟨y1, y2⟩ := y
    simp only at h1
    subst h1
    exact .inr ⟨er, rfl, h2⟩

theorem Tame.bind {m : W α} {f : α → W β} (hm : Tame b' b m) (hf : ∀ a, Tame b' b (f a)) : Tame b' b (m >>= f) :=
  Tamed.bind hm hf

theorem Tame.pure (a : α) : Tame b' b (pure a : W α) := fun _ hw => .inl ⟨rfl, rfl, hw⟩

theorem Tame.fail (e : Err) : Tame b' b (Page.fail e : W α) := fun _ hw => .inl ⟨rfl, rfl, hw⟩

theorem Tame.ofExcept (x : Except Err α) : Tame b' b (Page.ofExcept x) := fun _ hw => .inl ⟨rfl, rfl, hw⟩

theorem Tame.modW {f : Writer → Writer} (h1 : ∀ w, f (w.on b) = (f w).on b) (h2 : ∀ w, (f w).base = w.base) :
    Tame b' b (Page.modW f) := fun w hw => .inl ⟨rfl, h1 w, (h2 w).trans hw⟩

/-- The rest of a computation does not look at the pages themselves. -/
theorem Tame.getW {f : Writer → W β} (hf : ∀ w, f (w.on b) = f w) (h : ∀ w, Tame b' b (f w)) :
    Tame b' b (Page.getW >>= f) := by
  intro w hw
  show ((f w w).1 = (f (w.on b) (w.on b)).1 ∧ _) ∨ _
  have := h w w hw
  rwa [show (Page.getW >>= f) (w.on b) = f (w.on b) (w.on b) from rfl, show (Page.getW >>= f) w = f w w from rfl, hf]

theorem Tame.getPage (hb : Fewer b' b) (p : Nat) : Tame b' b (Page.getPage p) := by
  intro w hw
  unfold Page.getPage
  have e : (w.on b).dirty.get p = w.dirty.get p := rfl
  have e2 : (w.on b).deser p = w.deser p := rfl
  rw [e, e2]
  cases w.dirty.get p with
  | some n => exact .inl ⟨rfl, rfl, hw⟩
  | none =>
    simp only
    cases w.deser p with
    | some n => exact .inl ⟨rfl, rfl, hw⟩
    | none =>
      simp only
      rw [hw]
      cases h : b' p with
      | none => exact .inr ⟨_, rfl, lost_page p⟩
      | some n =>
        rw [show (w.on b).base p = some n from hb p n h]
        exact .inl ⟨rfl, rfl, rfl⟩

theorem Tame.loadPage (hb : Fewer b' b) (m : String) (p : Nat) : Tame b' b (Page.loadPage m p) := by
  intro w hw
  unfold Page.loadPage
  rcases Tame.getPage hb p w hw with ⟨h1, h2, h3⟩ | ⟨e, h1, h2⟩
  · generalize Page.getPage p (w.on b) = x at h1 h2 ⊢
    generalize Page.getPage p w = y at h1 h2 h3 ⊢
    obtain ⟨x1, x2⟩ := x
    obtain ⟨y1, y2⟩ := y
    simp only at h1 h2 h3
    subst h1 h2
    cases y1 with
    | error e => exact .inl ⟨rfl, rfl, h3⟩
    | ok a => exact .inl ⟨rfl, rfl, h3⟩
  · generalize Page.getPage p w = y at h1 ⊢
    obtain ⟨y1, y2⟩ := y
    simp only at h1
    subst h1
    exact .inr ⟨_, rfl, .inr ⟨_, rfl⟩⟩

theorem Tame.modDirty (p : Nat) (f : Node → Except Err (α × Node)) : Tame b' b (Page.modDirty p f) := by
  intro w hw
  left
  unfold Page.modDirty
  rw [show (w.on b).dirty.get p = w.dirty.get p from rfl]
  cases w.dirty.get p with
  | none => exact ⟨rfl, rfl, hw⟩
  | some n =>
    simp only
    cases f n with
    | error e => exact ⟨rfl, rfl, hw⟩
    | ok x => exact ⟨rfl, rfl, hw⟩

theorem Tame.insertDirty (p : Nat) (n : Node) : Tame b' b (Page.insertDirty p n) := by
  intro w hw
  left
  unfold Page.insertDirty
  rw [show (w.on b).dirty.get p = w.dirty.get p from rfl, show (w.on b).freed = w.freed from rfl]
  split
  · exact ⟨rfl, rfl, hw⟩
  · cases w.dirty.get p <;> exact ⟨rfl, rfl, hw⟩

theorem Tame.allocPage : Tame b' b Page.allocPage := by
  intro w hw
  left
  unfold Page.allocPage
  rw [show (w.on b).reusable = w.reusable from rfl]
  rcases w.reusable with _ | ⟨x, l⟩ <;> exact ⟨rfl, rfl, hw⟩

theorem Tame.newPage (n : Node) : Tame b' b (Page.newPage n) :=
  Tame.allocPage.bind fun _ => (Tame.insertDirty _ _).bind fun _ => .pure _

theorem Tame.appendFreed (p : Nat) : Tame b' b (Page.appendFreed p) := by
  intro w hw
  left
  unfold Page.appendFreed
  rw [show (w.on b).freed = w.freed from rfl]
  split <;> exact ⟨rfl, rfl, hw⟩

theorem Tame.getDirty (p : Nat) : Tame b' b (Page.getDirty p) := by
  intro w hw
  left
  unfold Page.getDirty
  rw [show (w.on b).dirty.get p = w.dirty.get p from rfl, show (w.on b).freed = w.freed from rfl]
  split
  · exact ⟨rfl, rfl, hw⟩
  · cases w.dirty.get p with
    | some n => exact ⟨rfl, rfl, hw⟩
    | none =>
      simp only [Page.allocPage]
      rw [show (w.on b).reusable = w.reusable from rfl]
      rcases w.reusable with _ | ⟨x, l⟩
      · simp only
        rw [show (w.on b).deser p = w.deser p from rfl]
        cases w.deser p <;> exact ⟨rfl, rfl, hw⟩
      · simp only
        rw [show (w.on b).deser p = w.deser p from rfl]
        cases w.deser p <;> exact ⟨rfl, rfl, hw⟩

/-- Takes a computation apart into its steps. -/
macro "tame" : tactic => `(tactic| repeat' first
  | with_reducible exact Tame.pure _
  | with_reducible exact Tame.fail _
  | with_reducible exact Tame.ofExcept _
  | with_reducible exact Tame.modDirty _ _
  | with_reducible exact Tame.newPage _
  | with_reducible exact Tame.getDirty _
  | with_reducible exact Tame.appendFreed _
  | with_reducible exact Tame.getPage (by assumption) _
  | with_reducible exact Tame.loadPage (by assumption) _ _
  | (with_reducible refine Tame.modW ?_ ?_) <;> exact fun _ => rfl
  | (with_reducible refine Tame.getW ?_ ?_) <;> [exact fun _ => rfl; intro _]
  | (with_reducible refine Tame.bind ?_ ?_) <;> [skip; intro _]
  | with_reducible assumption
  | split)

theorem Tame.descend (hb : Fewer b' b) (O : Ops κ) (pick : List κ → List Nat → Nat) :
    ∀ fuel id st, Tame b' b (Page.descend O pick fuel id st)
  | 0, _, _ => .fail _
  | fuel + 1, id, st => by
    have ih := Tame.descend hb O pick fuel
    unfold Page.descend
    tame
    exact ih _ _

theorem Tame.walkUp (O : Ops κ) : ∀ st r s, Tame b' b (Page.walkUp O st r s)
  | [], _, _ => .pure _
  | (pid, idx) :: st, r, s => by
    have ih := Tame.walkUp O st
    unfold Page.walkUp
    tame
    · exact ih _ _
    · exact ih _ _

theorem Tame.fixRoot (O : Ops κ) (root : Nat) (r : Option (Nat × Nat)) (s : Option (κ × Nat)) :
    Tame b' b (Page.fixRoot O root r s) := by unfold Page.fixRoot; tame

theorem Tame.finish (O : Ops κ) (root : Nat) (st : List (Nat × Nat)) (old new : Nat) (s : Option (κ × Nat)) :
    Tame b' b (Page.finish O root st old new s) := (Tame.walkUp _ _ _ _).bind fun _ => .fixRoot _ _ _ _

theorem Tame.upWith (g : Nat → Nat → Nat → Node → Except Err (Unit × Node)) :
    ∀ st o c, Tame b' b (Page.upWith g st o c)
  | [], _, _ => .pure _
  | (pid, idx) :: st, o, c => by
    have ih := Tame.upWith g st
    unfold Page.upWith
    tame
    exact ih _ _

theorem Tame.appendFreeds : ∀ l, Tame b' b (Page.appendFreeds l)
  | [] => .pure _
  | p :: l => (Tame.appendFreed p).bind fun _ => Tame.appendFreeds l

theorem Tame.writeChunks : ∀ cs next, Tame b' b (Page.writeChunks cs next)
  | [], _ => .pure _
  | _ :: cs, _ => (Tame.newPage _).bind fun p => Tame.writeChunks cs p

theorem Tame.writeChain (data : Bytes) : Tame b' b (Page.writeChain data) := by
  unfold Page.writeChain
  refine .getW (fun _ => rfl) fun w => ?_
  simp only
  tame
  exact Tame.writeChunks _ _

theorem Tame.storeValue (v : (EventValue × Nat) × Option (EventValue × Nat)) : Tame b' b (Page.storeValue v) := by
  unfold Page.storeValue
  have := Tame.writeChain (b' := b') (b := b)
  tame
  exact this _

theorem Tame.placeEvent (d size pos : Nat) (v : EventValue) (diff : Nat) : Tame b' b (Page.placeEvent d size pos v diff) := by
  unfold Page.placeEvent; tame

theorem Tame.evAppend (hb : Fewer b' b) (v : (EventValue × Nat) × Option (EventValue × Nat)) (pos : Nat) :
    Tame b' b (Page.evAppend v pos) := by
  unfold Page.evAppend
  refine .getW (fun _ => rfl) fun w => (Tame.descend hb _ _ _ _ _).bind fun leaf => (Tame.getDirty _).bind fun d =>
    (Tame.getPage hb _).bind fun n => (Tame.storeValue _).bind fun sv => (Tame.placeEvent _ _ _ _ _).bind fun s =>
    (Tame.walkUp _ _ _ _).bind fun up => (Tame.fixRoot _ _ _ _).bind fun root => .modW (fun _ => rfl) fun _ => rfl

theorem Tame.perLeafPut (d pos : Nat) : Tame b' b (Page.perLeafPut d pos) := by unfold Page.perLeafPut; tame

theorem Tame.perAppend (hb : Fewer b' b) (bs : List Nat → Nat → Nat) (root pos : Nat) :
    Tame b' b (Page.perAppend bs root pos) := by
  unfold Page.perAppend
  exact .getW (fun _ => rfl) fun w => (Tame.descend hb _ _ _ _ _).bind fun leaf => (Tame.getDirty _).bind fun d =>
    (Tame.perLeafPut _ _).bind fun s => .finish _ _ _ _ _ _

theorem Tame.perNew (l : List Nat) : Tame b' b (Page.perNew l) := by unfold Page.perNew; tame

theorem Tame.tagsMove (d i : Nat) : Tame b' b (Page.tagsMove d i) :=
  (Tame.modDirty _ _).bind fun _ => (Tame.perNew _).bind fun _ => .modDirty _ _

theorem Tame.tagsMigrate (hb : Fewer b' b) (d i len : Nat) : Tame b' b (Page.tagsMigrate d i len) := by
  unfold Page.tagsMigrate
  have := Tame.tagsMove (b' := b') (b := b) d i
  tame

theorem Tame.tagsRest (hb : Fewer b' b) (bs : List Nat → Nat → Nat) (d tag pos : Nat) (a : TagsAct) :
    Tame b' b (Page.tagsRest bs d tag pos a) := by
  cases a with
  | inline i len => exact .tagsMigrate hb _ _ _
  | subtree root => exact (Tame.perAppend hb _ _ _).bind fun _ => .modDirty _ _
  | inserted => exact .pure _

theorem Tame.tagsChange (hb : Fewer b' b) (bs : List Nat → Nat → Nat) (d tag pos : Nat) :
    Tame b' b (Page.tagsChange bs d tag pos) := (Tame.modDirty _ _).bind fun _ => .tagsRest hb _ _ _ _ _

theorem Tame.tagsSplit (d : Nat) : Tame b' b (Page.tagsSplit d) := by unfold Page.tagsSplit; tame

theorem Tame.tagsInsert (hb : Fewer b' b) (bs : List Nat → Nat → Nat) (tag pos : Nat) :
    Tame b' b (Page.tagsInsert bs tag pos) := by
  unfold Page.tagsInsert
  exact .getW (fun _ => rfl) fun w => (Tame.descend hb _ _ _ _ _).bind fun leaf => (Tame.getDirty _).bind fun d =>
    (Tame.tagsChange hb _ _ _ _).bind fun _ => (Tame.tagsSplit _).bind fun _ => (Tame.finish _ _ _ _ _ _).bind fun _ =>
    .modW (fun _ => rfl) fun _ => rfl

theorem Tame.trackLeafPut (d : Nat) (src : String) (pos : Nat) : Tame b' b (Page.trackLeafPut d src pos) := by
  unfold Page.trackLeafPut; tame

theorem Tame.trackCheck (src : String) (pos : Nat) (n : Node) : Tame b' b (Page.trackCheck src pos n) := by
  unfold Page.trackCheck; tame

theorem Tame.trackInto (hb : Fewer b' b) (src : String) (pos : Nat) : Tame b' b (Page.trackInto src pos) := by
  unfold Page.trackInto
  exact .getW (fun _ => rfl) fun w => (Tame.descend hb _ _ _ _ _).bind fun leaf => (Tame.getPage hb _).bind fun n =>
    (Tame.trackCheck _ _ _).bind fun _ => (Tame.getDirty _).bind fun _ => (Tame.trackLeafPut _ _ _).bind fun _ =>
    (Tame.finish _ _ _ _ _ _).bind fun _ => .modW (fun _ => rfl) fun _ => rfl

theorem Tame.trackNew (src : String) (pos : Nat) : Tame b' b (Page.trackNew src pos) :=
  (Tame.newPage _).bind fun _ => .modW (fun _ => rfl) fun _ => rfl

theorem Tame.trackUpsert (hb : Fewer b' b) (src : String) (pos : Nat) : Tame b' b (Page.trackUpsert src pos) := by
  intro w hw
  unfold Page.trackUpsert
  rw [show (w.on b).trackRoot = w.trackRoot from rfl]
  split
  · exact .inl ⟨rfl, rfl, hw⟩
  · split
    · exact Tame.trackNew _ _ w hw
    · exact Tame.trackInto hb _ _ w hw

theorem Tame.tsnUp : ∀ st s cur, Tame b' b (Page.tsnUp st s cur)
  | [], _, _ => by unfold Page.tsnUp; exact .pure _
  | (pid, _) :: st, none, _ => by unfold Page.tsnUp; exact Tame.tsnUp st _ _
  | (pid, idx) :: st, some x, _ => by
    have ih := Tame.tsnUp st
    unfold Page.tsnUp
    tame
    · exact ih _ _
    · exact ih _ _

theorem Tame.tsnRoot (root : Nat) (x : Option (Nat × Nat) × Nat) : Tame b' b (Page.tsnRoot root x) := by
  unfold Page.tsnRoot; tame

theorem Tame.tsnInsert (hb : Fewer b' b) (root key : Nat) : Tame b' b (Page.tsnInsert root key) := by
  unfold Page.tsnInsert
  refine .getW (fun _ => rfl) fun w => (Tame.descend hb _ _ _ _ _).bind fun leaf => (Tame.modDirty _ _).bind fun off => ?_
  split
  · exact .pure _
  · exact (Tame.newPage _).bind fun _ => (Tame.tsnUp _ _ _).bind fun _ => .tsnRoot _ _

theorem Tame.tsnCollapse (c pid d : Nat) (st : List (Nat × Nat)) (l : List Nat) : Tame b' b (Page.tsnCollapse c pid d st l) := by
  unfold Page.tsnCollapse
  split <;> exact (Tame.upWith _ _ _ _).bind fun _ => .pure _

theorem Tame.tsnRemoveDeep (hb : Fewer b' b) (root used : Nat) : Tame b' b (Page.tsnRemoveDeep root used) := by
  unfold Page.tsnRemoveDeep
  refine .getW (fun _ => rfl) fun w => (Tame.descend hb _ _ _ _ _).bind fun leaf => (Tame.getDirty _).bind fun c =>
    (Tame.modDirty _ _).bind fun empty => ?_
  split
  · exact (Tame.getDirty _).bind fun _ => (Tame.modDirty _ _).bind fun _ => .tsnCollapse _ _ _ _ _
  · exact .pure _
  · exact (Tame.upWith _ _ _ _).bind fun _ => .pure _

theorem Tame.tsnRemove (hb : Fewer b' b) (root used : Nat) : Tame b' b (Page.tsnRemove root used) := by
  unfold Page.tsnRemove
  refine (Tame.getDirty _).bind fun d => (Tame.getPage hb _).bind fun n => ?_
  split
  · exact (Tame.modDirty _ _).bind fun _ => .pure _
  · exact .tsnRemoveDeep hb _ _
  · exact .fail _

theorem Tame.freeSubtree (hb : Fewer b' b) (d p : Nat) : Tame b' b (Page.freeSubtree d p) := by
  refine (Tame.getPage hb _).bind fun n => (Tame.ofExcept _).bind fun v => ?_
  unfold Page.freeSubtreeAt
  split
  · exact .fail _
  · refine (Tame.tsnInsert hb _ _).bind fun r => ?_
    tame

theorem Tame.tsnInsertAll (hb : Fewer b' b) : ∀ root l, Tame b' b (Page.tsnInsertAll root l)
  | _, [] => .pure _
  | _, _ :: l => (Tame.tsnInsert hb _ _).bind fun r => Tame.tsnInsertAll hb r l

theorem Tame.freeMove (hb : Fewer b' b) (d p : Nat) : Tame b' b (Page.freeMove d p) := by
  refine (Tame.getPage hb _).bind fun n => (Tame.ofExcept _).bind fun v => .getW (fun _ => rfl) fun w => ?_
  unfold Page.freeMoveAt
  split
  · exact .fail _
  · exact (Tame.newPage _).bind fun _ => (Tame.tsnInsertAll hb _ _).bind fun _ => .modDirty _ _

theorem Tame.freeDo (hb : Fewer b' b) (d tsn p : Nat) (x : FreePlan) : Tame b' b (Page.freeDo d tsn p x) := by
  cases x with
  | subtree => exact (Tame.freeSubtree hb _ _).bind fun _ => .pure _
  | move => exact (Tame.freeMove hb _ _).bind fun _ => .pure _
  | _ => unfold Page.freeDo; tame

theorem Tame.freeInsert (hb : Fewer b' b) (tsn p : Nat) : Tame b' b (Page.freeInsert tsn p) := by
  unfold Page.freeInsert
  exact .getW (fun _ => rfl) fun w => (Tame.descend hb _ _ _ _ _).bind fun leaf => (Tame.getPage hb _).bind fun n =>
    (Tame.ofExcept _).bind fun _ => (Tame.getDirty _).bind fun _ => (Tame.freeDo hb _ _ _ _).bind fun _ =>
    (Tame.finish _ _ _ _ _ _).bind fun _ => .modW (fun _ => rfl) fun _ => rfl

theorem Tame.freeTake (hb : Fewer b' b) (leaf tsn used i root : Nat) : Tame b' b (Page.freeTake leaf tsn used i root) := by
  unfold Page.freeTake
  split
  · tame
  · refine (Tame.tsnRemove hb _ _).bind fun r => ?_
    tame

theorem Tame.freeUp (empty : Bool) (old d : Nat) (st : List (Nat × Nat)) : Tame b' b (Page.freeUp empty old d st) := by
  unfold Page.freeUp
  split
  · exact .pure _
  · split
    · refine (Tame.getDirty _).bind fun _ => (Tame.modDirty _ _).bind fun _ => (Tame.modDirty _ _).bind fun o => ?_
      unfold Page.freeUpFrom
      split <;> exact (Tame.upWith _ _ _ _).bind fun _ => .pure _
    · exact (Tame.upWith _ _ _ _).bind fun _ => .pure _

theorem Tame.freeRoot (old new : Nat) : Tame b' b (Page.freeRoot old new) := by unfold Page.freeRoot; tame

theorem Tame.freeRemove (hb : Fewer b' b) (tsn used : Nat) : Tame b' b (Page.freeRemove tsn used) := by
  unfold Page.freeRemove
  exact .getW (fun _ => rfl) fun w => (Tame.descend hb _ _ _ _ _).bind fun leaf => (Tame.getPage hb _).bind fun n =>
    (Tame.ofExcept _).bind fun _ => (Tame.freeTake hb _ _ _ _ _).bind fun _ => (Tame.freeUp _ _ _ _).bind fun _ =>
    (Tame.appendFreeds _).bind fun _ => .freeRoot _ _

theorem Tame.scan (hb : Fewer b' b) (D : Scan β) (hD : ∀ n, Tame b' b (D.leaf n)) : ∀ fuel st acc, Tame b' b (D.run fuel st acc)
  | _, [], _ => by unfold Scan.run; exact .pure _
  | 0, _ :: _, _ => by unfold Scan.run; exact .fail _
  | fuel + 1, (p, i) :: st, acc => by
    have ih := Tame.scan hb D hD fuel
    unfold Scan.run
    refine (Tame.loadPage hb _ _).bind fun n => ?_
    split
    · split
      · exact ih _ _
      · exact ih _ _
    · refine (hD n).bind fun r => ?_
      split
      · exact .pure _
      · exact ih _ _

theorem Tame.freeEntries (hb : Fewer b' b) (fuel : Nat) (small : Option Nat) : ∀ ts vs, Tame b' b (Page.freeEntries fuel small ts vs)
  | [], _ => by unfold Page.freeEntries; exact .pure _
  | t :: ts, vs => by
    have ih := Tame.freeEntries hb fuel small ts
    unfold Page.freeEntries
    split
    · exact .pure _
    · split
      · exact .fail _
      · refine .bind ?_ fun l => (ih _).bind fun _ => .pure _
        unfold Page.freeIds
        split
        · exact .pure _
        · refine .scan hb _ (fun n => ?_) _ _ _
          unfold tsnScan
          simp only
          split
          · exact .pure _
          · exact .fail _

theorem Tame.findReusable (hb : Fewer b' b) (small : Option Nat) : Tame b' b (Page.findReusable small) := by
  unfold Page.findReusable
  refine .getW (fun _ => rfl) fun w => (Tame.scan hb _ (fun n => ?_) _ _ _).bind fun _ => .modW (fun _ => rfl) fun _ => rfl
  unfold freeScan
  simp only
  split
  · exact .freeEntries hb _ _ _ _
  · exact .fail _

theorem Tame.removeAll (hb : Fewer b' b) : ∀ n, Tame b' b (Page.removeAll n)
  | 0 => .fail _
  | n + 1 => by
    have ih := Tame.removeAll hb n
    unfold Page.removeAll
    refine .getW (fun _ => rfl) fun w => ?_
    split
    · exact .pure _
    · refine .bind (.modW (fun _ => ?_) fun _ => ?_) fun _ => (Tame.freeRemove hb _ _).bind fun _ => ih
      · rfl
      · rfl

theorem Tame.insertAll (hb : Fewer b' b) : ∀ l, Tame b' b (Page.insertAll l)
  | [] => .pure _
  | p :: l => by
    have ih := Tame.insertAll hb l
    unfold Page.insertAll
    refine .bind (.modW (fun _ => ?_) fun _ => ?_) fun _ => .getW (fun _ => rfl) fun w =>
      (Tame.freeInsert hb _ _).bind fun _ => ih
    · rfl
    · rfl

/-- The order in which the twin iterates over its freed pages: that of the original. -/
theorem Tamed.processOnce (hb : Fewer b' b) (ord : Writer → List Nat) :
    Tamed b' b (Page.processOnce ord) (Page.processOnce fun w => ord (w.on b')) := by
  unfold Page.processOnce
  intro w hw
  refine Tamed.bind (Tame.removeAll hb _) (fun _ => ?_) w hw
  intro w hw
  refine Tamed.bind (m' := Page.modW fun w => { w with freed := [] }) (m := Page.modW fun w => { w with freed := [] })
    (f' := fun _ => Page.insertAll (ord w)) (f := fun _ => Page.insertAll (ord ((w.on b).on b')))
    (Tame.modW (fun _ => rfl) fun _ => rfl) (fun _ => ?_) w hw
  have : (w.on b).on b' = w := by subst hw; rfl
  rw [this]
  exact Tame.insertAll hb _

theorem loopN_tamed {c : Writer → Bool} {m' m : W Unit} (hc : ∀ w, c (w.on b) = c w) (hm : Tamed b' b m' m) :
    ∀ n w, w.base = b' → (loopN c m' n w = none ∧ loopN c m n (w.on b) = none) ∨
      (∃ r w', loopN c m' n w = some (r, w') ∧ loopN c m n (w.on b) = some (r, w'.on b) ∧ w'.base = b') ∨
      ∃ e w', loopN c m' n w = some (.error e, w') ∧ Lost e
  | 0, w, _ => .inl ⟨rfl, rfl⟩
  | n + 1, w, hw => by
    simp only [loopN, hc]
    split
    · rcases hm w hw with ⟨h1, h2, h3⟩ | ⟨e, h1, h2⟩
      · generalize m (w.on b) = x at h1 h2 ⊢
        generalize m' w = y at h1 h2 h3 ⊢
        obtain ⟨x1, x2⟩ := x
        obtain ⟨y1, y2⟩ := y
        simp only at h1 h2 h3
        subst h1 h2
        cases y1 with
        | error e => exact .inr (.inl ⟨_, _, rfl, rfl, h3⟩)
        | ok a => exact loopN_tamed hc hm n y2 h3
      · generalize m' w = y at h1 ⊢
        obtain ⟨y1, y2⟩ := y
        simp only at h1
        subst h1
        exact .inr (.inr ⟨e, _, rfl, h2⟩)
    · exact .inr (.inl ⟨_, _, rfl, rfl, hw⟩)

theorem whileW_tamed {c : Writer → Bool} {m' m : W Unit} (hc : ∀ w, c (w.on b) = c w) (hm : Tamed b' b m' m) :
    Tamed b' b (whileW c m') (whileW c m) := by
  intro w hw
  have hl := fun n => loopN_tamed hc hm n w hw
  by_cases h : ∃ n r, loopN c m' n w = some r
  · obtain ⟨n, r, h⟩ := h
    rw [whileW_eq h]
    rcases hl n with ⟨h1, h2⟩ | ⟨r', w', h1, h2, h3⟩ | ⟨e, w', h1, h2⟩
    · rw [h1] at h; cases h
    · rw [h1] at h; cases h
      rw [whileW_eq h2]
      exact .inl ⟨rfl, rfl, h3⟩
    · rw [h1] at h; cases h
      exact .inr ⟨e, rfl, h2⟩
  · have h' : ¬ ∃ n r, loopN c m n (w.on b) = some r := by
      rintro ⟨n, r, h2⟩
      rcases hl n with ⟨-, h3⟩ | ⟨r', w', h1, -, -⟩ | ⟨e, w', h1, -⟩
      · rw [h3] at h2; cases h2
      · exact h ⟨_, _, h1⟩
      · exact h ⟨_, _, h1⟩
    unfold whileW
    rw [dif_neg h, dif_neg h']
    exact .inl ⟨rfl, rfl, hw⟩

theorem Tamed.processFreed (hb : Fewer b' b) (ord : Writer → List Nat) :
    Tamed b' b (Page.processFreed ord) (Page.processFreed fun w => ord (w.on b')) :=
  whileW_tamed (fun _ => rfl) (.processOnce hb ord)

end Uma.Page
