import Verif.Page.Damage

/-!
# Pages are reused before the file is made larger

`Thrifty m`: the operation `m` of a write transaction takes pages from those found reusable, in their order, and takes
new ones at the end of the file only when there are none left.
-/

namespace Uma.Page
open Uma.Codec Uma.Db

variable {α β κ : Type}

/-- From `w` to `w'` the pages to be reused were used up before the file grew. -/
structure Spends (w w' : Writer) : Prop where
  grows : w.nextPage ≤ w'.nextPage
  order : w'.reusable <:+ w.reusable
  spent : w.nextPage < w'.nextPage → w'.reusable = []

theorem Spends.refl (w : Writer) : Spends w w := ⟨Nat.le_refl _, List.suffix_refl _, fun h => absurd h (Nat.lt_irrefl _)⟩

theorem Spends.trans {w1 w2 w3 : Writer} (h : Spends w1 w2) (k : Spends w2 w3) : Spends w1 w3 :=
  ⟨Nat.le_trans h.1 k.1, k.2.trans h.2, fun hlt => by
    by_cases h2 : w1.nextPage < w2.nextPage
    · have := k.2
      rw [h.3 h2] at this
      exact List.suffix_nil.mp this
    · exact k.3 (by have := h.1; omega)⟩

theorem Spends.of_eq {w w' : Writer} (h : w'.nextPage = w.nextPage) (k : w'.reusable = w.reusable) : Spends w w' :=
  ⟨h.ge, k ▸ List.suffix_refl _, fun hlt => by omega⟩

def Thrifty (m : W α) : Prop := ∀ w : Writer, Spends w (m w).2

theorem Thrifty.bind {m : W α} {f : α → W β} (hm : Thrifty m) (hf : ∀ a, Thrifty (f a)) : Thrifty (m >>= f) := by
  intro w
  have e : (m >>= f) w = match m w with
    | (.ok a, w') => f a w'
    | (.error e, w') => (.error e, w') := rfl
  rw [e]
  have h := hm w
  generalize m w = x at h ⊢
  obtain ⟨x1, x2⟩ := x
  cases x1 with
  | error e => exact h
  | ok a => exact h.trans (hf a x2)

theorem Thrifty.pure (a : α) : Thrifty (pure a : W α) := fun w => .refl w

theorem Thrifty.fail (e : Err) : Thrifty (Page.fail e : W α) := fun w => .refl w

theorem Thrifty.ofExcept (x : Except Err α) : Thrifty (Page.ofExcept x) := fun w => .refl w

theorem Thrifty.modW {f : Writer → Writer} (h1 : ∀ w, (f w).nextPage = w.nextPage) (h2 : ∀ w, (f w).reusable = w.reusable) :
    Thrifty (Page.modW f) := fun w => .of_eq (h1 w) (h2 w)

theorem Thrifty.getW {f : Writer → W β} (h : ∀ w, Thrifty (f w)) : Thrifty (Page.getW >>= f) := fun w => h w w

theorem Thrifty.getPage (p : Nat) : Thrifty (Page.getPage p) := by
  intro w
  unfold Page.getPage
  cases w.dirty.get p with
  | some n => exact .refl w
  | none =>
    simp only
    cases w.deser p with
    | some n => exact .refl w
    | none =>
      simp only
      cases w.base p with
      | none => exact .refl w
      | some n => exact .of_eq rfl rfl

theorem Thrifty.loadPage (m : String) (p : Nat) : Thrifty (Page.loadPage m p) := by
  intro w
  unfold Page.loadPage
  have h := Thrifty.getPage p w
  generalize Page.getPage p w = x at h ⊢
  obtain ⟨x1, x2⟩ := x
  cases x1 <;> exact h

theorem Thrifty.modDirty (p : Nat) (f : Node → Except Err (α × Node)) : Thrifty (Page.modDirty p f) := by
  intro w
  unfold Page.modDirty
  cases w.dirty.get p with
  | none => exact .refl w
  | some n =>
    simp only
    cases f n with
    | error e => exact .refl w
    | ok x => exact .of_eq rfl rfl

theorem Thrifty.insertDirty (p : Nat) (n : Node) : Thrifty (Page.insertDirty p n) := by
  intro w
  unfold Page.insertDirty
  split
  · exact .refl w
  · cases w.dirty.get p
    · exact .of_eq rfl rfl
    · exact .refl w

theorem Thrifty.allocPage : Thrifty Page.allocPage := by
  intro w
  unfold Page.allocPage
  cases h : w.reusable with
  | nil => exact ⟨Nat.le_succ _, by simp [h], fun _ => rfl⟩
  | cons x l => exact ⟨Nat.le_refl _, by simp [h], fun h => absurd h (Nat.lt_irrefl _)⟩

theorem Thrifty.newPage (n : Node) : Thrifty (Page.newPage n) :=
  Thrifty.allocPage.bind fun _ => (Thrifty.insertDirty _ _).bind fun _ => .pure _

theorem Thrifty.appendFreed (p : Nat) : Thrifty (Page.appendFreed p) := by
  intro w
  unfold Page.appendFreed
  split
  · exact .refl w
  · exact .of_eq rfl rfl

theorem Thrifty.getDirty (p : Nat) : Thrifty (Page.getDirty p) := by
  intro w
  unfold Page.getDirty
  have h : Spends w (Page.allocPage { w with freed := p :: w.freed }).2 :=
    Spends.trans (w2 := { w with freed := p :: w.freed }) (.of_eq rfl rfl) (Thrifty.allocPage { w with freed := p :: w.freed })
  split
  · exact .refl w
  · cases w.dirty.get p with
    | some n => exact .refl w
    | none =>
      simp only
      generalize Page.allocPage { w with freed := p :: w.freed } = x at h ⊢
      obtain ⟨x1, x2⟩ := x
      cases x1 with
      | error e => exact h
      | ok q =>
        simp only
        cases x2.deser p with
        | none => exact h
        | some n => exact h.trans (.of_eq rfl rfl)

/-- Takes a computation apart into its steps. -/
macro "thrifty" : tactic => `(tactic| repeat' first
  | with_reducible exact Thrifty.pure _
  | with_reducible exact Thrifty.fail _
  | with_reducible exact Thrifty.ofExcept _
  | with_reducible exact Thrifty.modDirty _ _
  | with_reducible exact Thrifty.newPage _
  | with_reducible exact Thrifty.getDirty _
  | with_reducible exact Thrifty.appendFreed _
  | with_reducible exact Thrifty.getPage _
  | with_reducible exact Thrifty.loadPage _ _
  | (with_reducible refine Thrifty.modW ?_ ?_) <;> exact fun _ => rfl
  | (with_reducible refine Thrifty.getW ?_) <;> intro _
  | (with_reducible refine Thrifty.bind ?_ ?_) <;> [skip; intro _]
  | with_reducible assumption
  | split)

theorem Thrifty.descend (O : Ops κ) (pick : List κ → List Nat → Nat) :
    ∀ fuel id st, Thrifty (Page.descend O pick fuel id st)
  | 0, _, _ => .fail _
  | fuel + 1, id, st => by
    have ih := Thrifty.descend O pick fuel
    unfold Page.descend
    thrifty
    exact ih _ _

theorem Thrifty.walkUp (O : Ops κ) : ∀ st r s, Thrifty (Page.walkUp O st r s)
  | [], _, _ => .pure _
  | (pid, idx) :: st, r, s => by
    have ih := Thrifty.walkUp O st
    unfold Page.walkUp
    thrifty
    · exact ih _ _
    · exact ih _ _

theorem Thrifty.fixRoot (O : Ops κ) (root : Nat) (r : Option (Nat × Nat)) (s : Option (κ × Nat)) :
    Thrifty (Page.fixRoot O root r s) := by unfold Page.fixRoot; thrifty

theorem Thrifty.finish (O : Ops κ) (root : Nat) (st : List (Nat × Nat)) (old new : Nat) (s : Option (κ × Nat)) :
    Thrifty (Page.finish O root st old new s) := (Thrifty.walkUp _ _ _ _).bind fun _ => .fixRoot _ _ _ _

theorem Thrifty.upWith (g : Nat → Nat → Nat → Node → Except Err (Unit × Node)) :
    ∀ st o c, Thrifty (Page.upWith g st o c)
  | [], _, _ => .pure _
  | (pid, idx) :: st, o, c => by
    have ih := Thrifty.upWith g st
    unfold Page.upWith
    thrifty
    exact ih _ _

theorem Thrifty.appendFreeds : ∀ l, Thrifty (Page.appendFreeds l)
  | [] => .pure _
  | p :: l => (Thrifty.appendFreed p).bind fun _ => Thrifty.appendFreeds l

theorem Thrifty.writeChunks : ∀ cs next, Thrifty (Page.writeChunks cs next)
  | [], _ => .pure _
  | _ :: cs, _ => (Thrifty.newPage _).bind fun p => Thrifty.writeChunks cs p

theorem Thrifty.writeChain (data : Bytes) : Thrifty (Page.writeChain data) := by
  unfold Page.writeChain
  refine .getW fun w => ?_
  simp only
  thrifty
  exact Thrifty.writeChunks _ _

theorem Thrifty.storeValue (v : (EventValue × Nat) × Option (EventValue × Nat)) : Thrifty (Page.storeValue v) := by
  unfold Page.storeValue
  have := Thrifty.writeChain 
  thrifty
  exact this _

theorem Thrifty.placeEvent (d size pos : Nat) (v : EventValue) (diff : Nat) : Thrifty (Page.placeEvent d size pos v diff) := by
  unfold Page.placeEvent; thrifty

theorem Thrifty.evAppend (v : (EventValue × Nat) × Option (EventValue × Nat)) (pos : Nat) :
    Thrifty (Page.evAppend v pos) := by
  unfold Page.evAppend
  refine .getW fun w => (Thrifty.descend _ _ _ _ _).bind fun leaf => (Thrifty.getDirty _).bind fun d =>
    (Thrifty.getPage _).bind fun n => (Thrifty.storeValue _).bind fun sv => (Thrifty.placeEvent _ _ _ _ _).bind fun s =>
    (Thrifty.walkUp _ _ _ _).bind fun up => (Thrifty.fixRoot _ _ _ _).bind fun root => .modW (fun _ => rfl) fun _ => rfl

theorem Thrifty.perLeafPut (d pos : Nat) : Thrifty (Page.perLeafPut d pos) := by unfold Page.perLeafPut; thrifty

theorem Thrifty.perAppend (bs : List Nat → Nat → Nat) (root pos : Nat) :
    Thrifty (Page.perAppend bs root pos) := by
  unfold Page.perAppend
  exact .getW fun w => (Thrifty.descend _ _ _ _ _).bind fun leaf => (Thrifty.getDirty _).bind fun d =>
    (Thrifty.perLeafPut _ _).bind fun s => .finish _ _ _ _ _ _

theorem Thrifty.perNew (l : List Nat) : Thrifty (Page.perNew l) := by unfold Page.perNew; thrifty

theorem Thrifty.tagsMove (d i : Nat) : Thrifty (Page.tagsMove d i) :=
  (Thrifty.modDirty _ _).bind fun _ => (Thrifty.perNew _).bind fun _ => .modDirty _ _

theorem Thrifty.tagsMigrate (d i len : Nat) : Thrifty (Page.tagsMigrate d i len) := by
  unfold Page.tagsMigrate
  have := Thrifty.tagsMove  d i
  thrifty

theorem Thrifty.tagsRest (bs : List Nat → Nat → Nat) (d tag pos : Nat) (a : TagsAct) :
    Thrifty (Page.tagsRest bs d tag pos a) := by
  cases a with
  | inline i len => exact .tagsMigrate _ _ _
  | subtree root => exact (Thrifty.perAppend _ _ _).bind fun _ => .modDirty _ _
  | inserted => exact .pure _

theorem Thrifty.tagsChange (bs : List Nat → Nat → Nat) (d tag pos : Nat) :
    Thrifty (Page.tagsChange bs d tag pos) := (Thrifty.modDirty _ _).bind fun _ => .tagsRest _ _ _ _ _

theorem Thrifty.tagsSplit (d : Nat) : Thrifty (Page.tagsSplit d) := by unfold Page.tagsSplit; thrifty

theorem Thrifty.tagsInsert (bs : List Nat → Nat → Nat) (tag pos : Nat) :
    Thrifty (Page.tagsInsert bs tag pos) := by
  unfold Page.tagsInsert
  exact .getW fun w => (Thrifty.descend _ _ _ _ _).bind fun leaf => (Thrifty.getDirty _).bind fun d =>
    (Thrifty.tagsChange _ _ _ _).bind fun _ => (Thrifty.tagsSplit _).bind fun _ => (Thrifty.finish _ _ _ _ _ _).bind fun _ =>
    .modW (fun _ => rfl) fun _ => rfl

theorem Thrifty.trackLeafPut (d : Nat) (src : String) (pos : Nat) : Thrifty (Page.trackLeafPut d src pos) := by
  unfold Page.trackLeafPut; thrifty

theorem Thrifty.trackCheck (src : String) (pos : Nat) (n : Node) : Thrifty (Page.trackCheck src pos n) := by
  unfold Page.trackCheck; thrifty

theorem Thrifty.trackInto (src : String) (pos : Nat) : Thrifty (Page.trackInto src pos) := by
  unfold Page.trackInto
  exact .getW fun w => (Thrifty.descend _ _ _ _ _).bind fun leaf => (Thrifty.getPage _).bind fun n =>
    (Thrifty.trackCheck _ _ _).bind fun _ => (Thrifty.getDirty _).bind fun _ => (Thrifty.trackLeafPut _ _ _).bind fun _ =>
    (Thrifty.finish _ _ _ _ _ _).bind fun _ => .modW (fun _ => rfl) fun _ => rfl

theorem Thrifty.trackNew (src : String) (pos : Nat) : Thrifty (Page.trackNew src pos) :=
  (Thrifty.newPage _).bind fun _ => .modW (fun _ => rfl) fun _ => rfl

theorem Thrifty.trackUpsert (src : String) (pos : Nat) : Thrifty (Page.trackUpsert src pos) := by
  intro w
  unfold Page.trackUpsert
  split
  · exact .refl w
  · split
    · exact Thrifty.trackNew _ _ w
    · exact Thrifty.trackInto _ _ w

theorem Thrifty.tsnUp : ∀ st s cur, Thrifty (Page.tsnUp st s cur)
  | [], _, _ => by unfold Page.tsnUp; exact .pure _
  | (pid, _) :: st, none, _ => by unfold Page.tsnUp; exact Thrifty.tsnUp st _ _
  | (pid, idx) :: st, some x, _ => by
    have ih := Thrifty.tsnUp st
    unfold Page.tsnUp
    thrifty
    · exact ih _ _
    · exact ih _ _

theorem Thrifty.tsnRoot (root : Nat) (x : Option (Nat × Nat) × Nat) : Thrifty (Page.tsnRoot root x) := by
  unfold Page.tsnRoot; thrifty

theorem Thrifty.tsnInsert (root key : Nat) : Thrifty (Page.tsnInsert root key) := by
  unfold Page.tsnInsert
  refine .getW fun w => (Thrifty.descend _ _ _ _ _).bind fun leaf => (Thrifty.modDirty _ _).bind fun off => ?_
  split
  · exact .pure _
  · exact (Thrifty.newPage _).bind fun _ => (Thrifty.tsnUp _ _ _).bind fun _ => .tsnRoot _ _

theorem Thrifty.tsnCollapse (c pid d : Nat) (st : List (Nat × Nat)) (l : List Nat) : Thrifty (Page.tsnCollapse c pid d st l) := by
  unfold Page.tsnCollapse
  split <;> exact (Thrifty.upWith _ _ _ _).bind fun _ => .pure _

theorem Thrifty.tsnRemoveDeep (root used : Nat) : Thrifty (Page.tsnRemoveDeep root used) := by
  unfold Page.tsnRemoveDeep
  refine .getW fun w => (Thrifty.descend _ _ _ _ _).bind fun leaf => (Thrifty.getDirty _).bind fun c =>
    (Thrifty.modDirty _ _).bind fun empty => ?_
  split
  · exact (Thrifty.getDirty _).bind fun _ => (Thrifty.modDirty _ _).bind fun _ => .tsnCollapse _ _ _ _ _
  · exact .pure _
  · exact (Thrifty.upWith _ _ _ _).bind fun _ => .pure _

theorem Thrifty.tsnRemove (root used : Nat) : Thrifty (Page.tsnRemove root used) := by
  unfold Page.tsnRemove
  refine (Thrifty.getDirty _).bind fun d => (Thrifty.getPage _).bind fun n => ?_
  split
  · exact (Thrifty.modDirty _ _).bind fun _ => .pure _
  · exact .tsnRemoveDeep _ _
  · exact .fail _

theorem Thrifty.freeSubtree (d p : Nat) : Thrifty (Page.freeSubtree d p) := by
  refine (Thrifty.getPage _).bind fun n => (Thrifty.ofExcept _).bind fun v => ?_
  unfold Page.freeSubtreeAt
  split
  · exact .fail _
  · refine (Thrifty.tsnInsert _ _).bind fun r => ?_
    thrifty

theorem Thrifty.tsnInsertAll : ∀ root l, Thrifty (Page.tsnInsertAll root l)
  | _, [] => .pure _
  | _, _ :: l => (Thrifty.tsnInsert _ _).bind fun r => Thrifty.tsnInsertAll r l

theorem Thrifty.freeMove (d p : Nat) : Thrifty (Page.freeMove d p) := by
  refine (Thrifty.getPage _).bind fun n => (Thrifty.ofExcept _).bind fun v => .getW fun w => ?_
  unfold Page.freeMoveAt
  split
  · exact .fail _
  · exact (Thrifty.newPage _).bind fun _ => (Thrifty.tsnInsertAll _ _).bind fun _ => .modDirty _ _

theorem Thrifty.freeDo (d tsn p : Nat) (x : FreePlan) : Thrifty (Page.freeDo d tsn p x) := by
  cases x with
  | subtree => exact (Thrifty.freeSubtree _ _).bind fun _ => .pure _
  | move => exact (Thrifty.freeMove _ _).bind fun _ => .pure _
  | _ => unfold Page.freeDo; thrifty

theorem Thrifty.freeInsert (tsn p : Nat) : Thrifty (Page.freeInsert tsn p) := by
  unfold Page.freeInsert
  exact .getW fun w => (Thrifty.descend _ _ _ _ _).bind fun leaf => (Thrifty.getPage _).bind fun n =>
    (Thrifty.ofExcept _).bind fun _ => (Thrifty.getDirty _).bind fun _ => (Thrifty.freeDo _ _ _ _).bind fun _ =>
    (Thrifty.finish _ _ _ _ _ _).bind fun _ => .modW (fun _ => rfl) fun _ => rfl

theorem Thrifty.freeTake (leaf tsn used i root : Nat) : Thrifty (Page.freeTake leaf tsn used i root) := by
  unfold Page.freeTake
  split
  · thrifty
  · refine (Thrifty.tsnRemove _ _).bind fun r => ?_
    thrifty

theorem Thrifty.freeUp (empty : Bool) (old d : Nat) (st : List (Nat × Nat)) : Thrifty (Page.freeUp empty old d st) := by
  unfold Page.freeUp
  split
  · exact .pure _
  · split
    · refine (Thrifty.getDirty _).bind fun _ => (Thrifty.modDirty _ _).bind fun _ => (Thrifty.modDirty _ _).bind fun o => ?_
      unfold Page.freeUpFrom
      split <;> exact (Thrifty.upWith _ _ _ _).bind fun _ => .pure _
    · exact (Thrifty.upWith _ _ _ _).bind fun _ => .pure _

theorem Thrifty.freeRoot (old new : Nat) : Thrifty (Page.freeRoot old new) := by unfold Page.freeRoot; thrifty

theorem Thrifty.freeRemove (tsn used : Nat) : Thrifty (Page.freeRemove tsn used) := by
  unfold Page.freeRemove
  exact .getW fun w => (Thrifty.descend _ _ _ _ _).bind fun leaf => (Thrifty.getPage _).bind fun n =>
    (Thrifty.ofExcept _).bind fun _ => (Thrifty.freeTake _ _ _ _ _).bind fun _ => (Thrifty.freeUp _ _ _ _).bind fun _ =>
    (Thrifty.appendFreeds _).bind fun _ => .freeRoot _ _

theorem Thrifty.scan (D : Scan β) (hD : ∀ n, Thrifty (D.leaf n)) : ∀ fuel st acc, Thrifty (D.run fuel st acc)
  | _, [], _ => by unfold Scan.run; exact .pure _
  | 0, _ :: _, _ => by unfold Scan.run; exact .fail _
  | fuel + 1, (p, i) :: st, acc => by
    have ih := Thrifty.scan D hD fuel
    unfold Scan.run
    refine (Thrifty.loadPage _ _).bind fun n => ?_
    split
    · split
      · exact ih _ _
      · exact ih _ _
    · refine (hD n).bind fun r => ?_
      split
      · exact .pure _
      · exact ih _ _

theorem Thrifty.freeEntries (fuel : Nat) (small : Option Nat) : ∀ ts vs, Thrifty (Page.freeEntries fuel small ts vs)
  | [], _ => by unfold Page.freeEntries; exact .pure _
  | t :: ts, vs => by
    have ih := Thrifty.freeEntries fuel small ts
    unfold Page.freeEntries
    split
    · exact .pure _
    · split
      · exact .fail _
      · refine .bind ?_ fun l => (ih _).bind fun _ => .pure _
        unfold Page.freeIds
        split
        · exact .pure _
        · refine .scan _ (fun n => ?_) _ _ _
          unfold tsnScan
          simp only
          split
          · exact .pure _
          · exact .fail _

theorem Thrifty.removeAll : ∀ n, Thrifty (Page.removeAll n)
  | 0 => .fail _
  | n + 1 => by
    have ih := Thrifty.removeAll n
    unfold Page.removeAll
    refine .getW fun w => ?_
    split
    · exact .pure _
    · refine .bind (.modW (fun _ => ?_) fun _ => ?_) fun _ => (Thrifty.freeRemove _ _).bind fun _ => ih
      · rfl
      · rfl

theorem Thrifty.insertAll : ∀ l, Thrifty (Page.insertAll l)
  | [] => .pure _
  | p :: l => by
    have ih := Thrifty.insertAll l
    unfold Page.insertAll
    refine .bind (.modW (fun _ => ?_) fun _ => ?_) fun _ => .getW fun w =>
      (Thrifty.freeInsert _ _).bind fun _ => ih
    · rfl
    · rfl

theorem Thrifty.processOnce (ord : Writer → List Nat) : Thrifty (Page.processOnce ord) :=
  .getW fun _ => (Thrifty.removeAll _).bind fun _ => .getW fun _ =>
    (Thrifty.modW (f := fun w => { w with freed := [] }) (fun _ => rfl) fun _ => rfl).bind fun _ => .insertAll _

theorem loopN_thrifty {c : Writer → Bool} {m : W Unit} (hm : Thrifty m) :
    ∀ n w r, loopN c m n w = some r → Spends w r.2
  | 0, _, _, h => by cases h
  | n + 1, w, r, h => by
    unfold loopN at h
    split at h
    · have hw := hm w
      generalize m w = x at h hw
      obtain ⟨x1, x2⟩ := x
      cases x1 with
      | error e => cases h; exact hw
      | ok a => exact hw.trans (loopN_thrifty hm n x2 r h)
    · cases h; exact .refl w

theorem Thrifty.whileW {c : Writer → Bool} {m : W Unit} (hm : Thrifty m) : Thrifty (Page.whileW c m) := by
  intro w
  by_cases h : ∃ n r, loopN c m n w = some r
  · obtain ⟨n, r, h⟩ := h
    rw [whileW_eq h]
    exact loopN_thrifty hm n w r h
  · unfold Page.whileW
    rw [dif_neg h]
    exact .refl w

theorem Thrifty.processFreed (ord : Writer → List Nat) : Thrifty (Page.processFreed ord) := .whileW (.processOnce ord)

end Uma.Page
