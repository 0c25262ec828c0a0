import Verif.Props.Space
import Verif.Props.Balance

/-!
# What an append adds to the pages to be written: C88

Counting along the functions of the trees: each copy of a page and each new page is one more page to be written at the commit.
The way back up from a leaf costs two pages a level at most, and C82 bounds the number of levels.
-/

namespace Uma.Props
open Uma.Spec Uma.Db Uma.Page Uma.Mvcc Uma.Codec

/-- At most `n` pages more are to be written, at most `n` more are given up, and the file grows by at most `n` pages. -/
structure Extra (n : Nat) (w w' : Writer) : Prop where
  written : w'.dirty.length ≤ w.dirty.length + n
  givenUp : w'.freed.length ≤ w.freed.length + n
  grown : w'.nextPage ≤ w.nextPage + n
  mono : w.nextPage ≤ w'.nextPage
  same : w'.pageSize = w.pageSize

theorem Extra.refl (w : Writer) : Extra 0 w w := ⟨Nat.le_refl _, Nat.le_refl _, Nat.le_refl _, Nat.le_refl _, rfl⟩

theorem Extra.trans {n k m : Nat} {a b c : Writer} (h : Extra n a b) (g : Extra k b c) (hm : n + k ≤ m) : Extra m a c := by
  obtain ⟨a1, a2, a3, a4, a5⟩ := h
  obtain ⟨b1, b2, b3, b4, b5⟩ := g
  constructor <;> omega

theorem Extra.le {n m : Nat} {a b : Writer} (h : Extra n a b) (hm : n ≤ m) : Extra m a b := h.trans (.refl b) (by omega)

theorem bind_ok {α β : Type} {m : W α} {f : α → W β} {w w' : Writer} {a : α} (h : m w = (.ok a, w')) : (m >>= f) w = f a w' := by
  show (match m w with
    | (.ok a, w') => f a w'
    | (.error e, w') => (.error e, w')) = _
  rw [h]

theorem bind_err {α β : Type} {m : W α} {f : α → W β} {w w' : Writer} {e : Err} (h : m w = (.error e, w')) :
    (m >>= f) w = (.error e, w') := by
  show (match m w with
    | (.ok a, w') => f a w'
    | (.error e, w') => (.error e, w')) = _
  rw [h]

/-- What `m` adds, whether it succeeds or fails. -/
def Cost {α : Type} (m : W α) (n : Nat) (w : Writer) : Prop := Extra n w (m w).2

theorem Cost.pure {α : Type} (a : α) (w : Writer) (n : Nat) : Cost (pure a : W α) n w := (Extra.refl w).le (by omega)

theorem Cost.fail {α : Type} (e : Err) (w : Writer) (n : Nat) : Cost (Page.fail e : W α) n w := (Extra.refl w).le (by omega)

theorem Cost.le {α : Type} {m : W α} {n k : Nat} {w : Writer} (h : Cost m n w) (hk : n ≤ k) : Cost m k w := Extra.le h hk

theorem Cost.bind {α β : Type} {m : W α} {f : α → W β} {n k t : Nat} {w : Writer} (h : Cost m n w)
    (hf : ∀ a w', m w = (.ok a, w') → Cost (f a) k w') (ht : n + k ≤ t) : Cost (m >>= f) t w := by
  unfold Cost at h ⊢
  show Extra t w (match m w with
    | (.ok a, w') => f a w'
    | (.error e, w') => (.error e, w')).2
  cases hm : m w with
  | mk r w' =>
    rw [hm] at h
    cases r with
    | ok a => exact Extra.trans h (hf a w' hm) ht
    | error e => exact Extra.le h (by omega)

/-- Binding after an operation that adds nothing. -/
theorem Cost.after {α β : Type} {m : W α} {f : α → W β} {k : Nat} {w : Writer} (h : Cost m 0 w)
    (hf : ∀ a w', m w = (.ok a, w') → Cost (f a) k w') : Cost (m >>= f) k w := h.bind hf (by omega)

theorem cost_getW (w : Writer) : Cost getW 0 w := Extra.refl w

theorem Cost.getW {β : Type} {f : Writer → W β} {k : Nat} {w : Writer} (h : Cost (f w) k w) : Cost (Page.getW >>= f) k w := h

theorem cost_getPage (p : Nat) (w : Writer) : Cost (getPage p) 0 w := by
  unfold Cost getPage
  split
  · exact .refl w
  · split
    · exact .refl w
    · split
      · exact .refl w
      · exact ⟨Nat.le_refl _, Nat.le_refl _, Nat.le_refl _, Nat.le_refl _, rfl⟩

theorem length_put_le (d : Pages) (p : Nat) (n : Node) : (d.put p n).length ≤ d.length + 1 := by
  unfold Pages.put Pages.del
  have := List.length_filter_le (fun x : Nat × Node => x.1 != p) d
  simp only [List.length_cons]
  omega

theorem length_put_old {d : Pages} {p : Nat} {n m : Node} (h : d.get p = some m) : (d.put p n).length ≤ d.length := by
  unfold Pages.put Pages.del Pages.get at *
  have : (d.filter fun x => x.1 != p).length < d.length := by
    apply List.length_filter_lt_length_iff_exists.mpr
    induction d with
    | nil => cases h
    | cons x d ih =>
      obtain ⟨q, nd⟩ := x
      rw [List.lookup_cons] at h
      split at h
      · next hq => exact ⟨(q, nd), by simp, by simpa using (beq_iff_eq.mp hq).symm⟩
      · obtain ⟨y, hy, hn⟩ := ih h
        exact ⟨y, by simp [hy], hn⟩
  simp only [List.length_cons]
  omega

theorem cost_modDirty {α : Type} (p : Nat) (f : Node → Except Err (α × Node)) (w : Writer) : Cost (modDirty p f) 0 w := by
  unfold Cost modDirty
  split
  · exact .refl w
  · next n hn =>
    split
    · exact .refl w
    · exact ⟨length_put_old hn, Nat.le_refl _, Nat.le_refl _, Nat.le_refl _, rfl⟩

theorem cost_alloc (w : Writer) : (allocPage w).2.dirty = w.dirty ∧ (allocPage w).2.freed = w.freed ∧
    w.nextPage ≤ (allocPage w).2.nextPage ∧ (allocPage w).2.nextPage ≤ w.nextPage + 1 ∧ (allocPage w).2.pageSize = w.pageSize := by
  unfold allocPage
  split <;> simp

theorem cost_newPage (n : Node) (w : Writer) : Cost (newPage n) 1 w := by
  unfold newPage
  obtain ⟨h1, h2, h3, h4, h5⟩ := cost_alloc w
  have hins : ∀ p, (insertDirty p n (allocPage w).2).2.dirty.length ≤ w.dirty.length + 1 ∧
      (insertDirty p n (allocPage w).2).2.freed = w.freed ∧
      (insertDirty p n (allocPage w).2).2.nextPage = (allocPage w).2.nextPage ∧
      (insertDirty p n (allocPage w).2).2.pageSize = w.pageSize := by
    intro p
    unfold insertDirty
    split
    · exact ⟨by rw [h1]; omega, h2, rfl, h5⟩
    · split
      · exact ⟨by rw [h1]; omega, h2, rfl, h5⟩
      · exact ⟨by rw [← h1]; exact length_put_le _ _ _, h2, rfl, h5⟩
  unfold Cost
  cases ha : allocPage w with
  | mk r w1 =>
    rw [ha] at h1 h2 h3 h4 h5 hins
    simp only at h1 h2 h3 h4 h5 hins
    cases r with
    | error e => rw [bind_err ha]; exact ⟨by simp only [h1]; omega, by simp only [h2]; omega, h4, h3, h5⟩
    | ok p =>
      obtain ⟨i1, i2, i3, i4⟩ := hins p
      rw [bind_ok ha]
      cases hi : insertDirty p n w1 with
      | mk r w2 =>
        rw [hi] at i1 i2 i3 i4
        simp only at i1 i2 i3 i4
        cases r with
        | error e => rw [bind_err hi]; exact ⟨i1, by simp only [i2]; omega, by simp only [i3]; omega, by simp only [i3]; omega, i4⟩
        | ok u => rw [bind_ok hi]; exact ⟨i1, by show w2.freed.length ≤ _; rw [i2]; omega, by show w2.nextPage ≤ _; omega, by show _ ≤ w2.nextPage; omega, i4⟩

theorem cost_getDirty (p : Nat) (w : Writer) : Cost (getDirty p) 1 w := by
  unfold Cost getDirty
  split
  · exact (Extra.refl w).le (by omega)
  · split
    · exact (Extra.refl w).le (by omega)
    · simp only
      obtain ⟨h1, h2, h3, h4, h5⟩ := cost_alloc { w with freed := p :: w.freed }
      split
      · next e w1 he =>
        rw [he] at h1 h2 h3 h4 h5
        simp only at h1 h2 h3 h4 h5
        exact ⟨by simp only [h1]; omega, by simp only [h2, List.length_cons]; omega, h4, h3, h5⟩
      · next p' w1 he =>
        rw [he] at h1 h2 h3 h4 h5
        simp only at h1 h2 h3 h4 h5
        split
        · exact ⟨by simp only [h1]; omega, by simp only [h2, List.length_cons]; omega, h4, h3, h5⟩
        · exact ⟨by simp only [← h1]; exact length_put_le _ _ _, by simp only [h2, List.length_cons]; omega, h4, h3, h5⟩

section
variable {κ : Type}

theorem cost_descend (O : Ops κ) (pick : List κ → List Nat → Nat) : ∀ (fuel id : Nat) (st : List (Nat × Nat)) (w : Writer),
    Cost (descend O pick fuel id st) 0 w := by
  intro fuel
  induction fuel with
  | zero => intro id st w; exact .fail _ _ _
  | succ fuel ih =>
    intro id st w
    unfold descend
    refine (cost_getPage id w).after fun n w1 _ => ?_
    split
    · exact .pure _ _ _
    · split
      · exact .fail _ _ _
      · split
        · exact .fail _ _ _
        · exact ih _ _ _

/-- What the transaction has loaded is what it sees. -/
def Honest (w : Writer) : Prop := ∀ p n, w.deser p = some n → w.base p = some n

theorem getPage_view {p : Nat} {w w' : Writer} {n : Node} (hw : Honest w) (h : getPage p w = (.ok n, w')) :
    w.view p = some n ∧ w'.view = w.view ∧ Honest w' := by
  unfold getPage at h
  split at h
  · next m hm => cases h; exact ⟨by simp [Writer.view, hm], rfl, hw⟩
  · next hm =>
    split at h
    · next m hd => cases h; exact ⟨by simp [Writer.view, hm, hw _ _ hd], rfl, hw⟩
    · split at h
      · cases h
      · next m hb =>
        cases h
        refine ⟨by simp [Writer.view, hm, hb], rfl, fun q k hq => ?_⟩
        simp only at hq
        split at hq
        · next e => cases hq; rw [e]; exact hb
        · exact hw q k hq

/-- In a tree of height `n` the way to a leaf has `n` steps. -/
theorem descend_height {O : Ops κ} (hO : ∀ nd keys kids, O.un nd = some (keys, kids) → below nd = kids)
    {pick : List κ → List Nat → Nat} {v : Nat → Option Node} {n p : Nat} (h : Deep v n p) :
    ∀ (fuel : Nat) (st : List (Nat × Nat)) (w : Writer), Honest w → w.view = v → ∀ r w', descend O pick fuel p st w = (.ok r, w') →
      r.2.length ≤ st.length + n := by
  induction h with
  | @leaf p nd hv hb =>
    intro fuel st w hw hview r w' hr
    cases fuel with
    | zero => cases hr
    | succ fuel =>
      unfold descend at hr
      rcases hg : getPage p w with ⟨e | a, w1⟩
      · rw [bind_err hg] at hr; cases hr
      · rw [bind_ok hg] at hr
        obtain ⟨h1, h2, h3⟩ := getPage_view hw hg
        rw [hview, hv] at h1
        cases h1
        by_cases hlf : O.isLeaf nd = true
        · rw [if_pos hlf] at hr; cases hr; simp
        · rw [if_neg hlf] at hr
          cases hun : O.un nd with
          | none => simp only [hun] at hr; cases hr
          | some x =>
            obtain ⟨keys, kids⟩ := x
            have := hO _ _ _ hun
            rw [hb] at this
            subst this
            simp only [hun, List.getElem?_nil] at hr
            cases hr
  | @inner p n nd hv hl _ ih =>
    intro fuel st w hw hview r w' hr
    cases fuel with
    | zero => cases hr
    | succ fuel =>
      unfold descend at hr
      rcases hg : getPage p w with ⟨e | a, w1⟩
      · rw [bind_err hg] at hr; cases hr
      · rw [bind_ok hg] at hr
        obtain ⟨h1, h2, h3⟩ := getPage_view hw hg
        rw [hview, hv] at h1
        cases h1
        by_cases hlf : O.isLeaf nd = true
        · rw [if_pos hlf] at hr; cases hr; simp
        · rw [if_neg hlf] at hr
          cases hun : O.un nd with
          | none => simp only [hun] at hr; cases hr
          | some x =>
            obtain ⟨keys, kids⟩ := x
            simp only [hun] at hr
            cases hc : kids[pick keys kids]? with
            | none => simp only [hc] at hr; cases hr
            | some c =>
              simp only [hc] at hr
              have := ih c (by rw [hO _ _ _ hun]; exact List.mem_of_getElem? hc) fuel _ w1 h3 (h2.trans hview) r w' hr
              simp only [List.length_cons] at this
              omega

theorem cost_walkUp (O : Ops κ) : ∀ (st : List (Nat × Nat)) (r : Option (Nat × Nat)) (s : Option (κ × Nat)) (w : Writer),
    Cost (walkUp O st r s) (2 * st.length) w := by
  intro st
  induction st with
  | nil => intro r s w; exact .pure _ _ _
  | cons x st ih =>
    intro r s w
    obtain ⟨pid, idx⟩ := x
    unfold walkUp
    refine (cost_getDirty pid w).bind (k := 2 * st.length + 1) (fun d w1 _ => ?_) (by simp only [List.length_cons]; omega)
    refine .getW ((cost_modDirty _ _ _).after fun off w2 _ => ?_)
    split
    · exact (ih _ _ _).le (by omega)
    · exact (cost_newPage _ _).bind (fun c w3 _ => ih _ _ _) (by omega)

theorem cost_fixRoot (O : Ops κ) (root : Nat) (r : Option (Nat × Nat)) (s : Option (κ × Nat)) (w : Writer) :
    Cost (fixRoot O root r s) 1 w := by
  unfold fixRoot
  refine Cost.after (m := match r with
    | none => pure root
    | some (old, new) => if root = old then pure new else Page.fail (.rootIdMismatch old new)) ?_ fun root w1 _ => ?_
  · split
    · exact .pure _ _ _
    · split
      · exact .pure _ _ _
      · exact .fail _ _ _
  · split
    · exact .pure _ _ _
    · exact cost_newPage _ _

theorem cost_finish (O : Ops κ) (root : Nat) (st : List (Nat × Nat)) (old new : Nat) (s : Option (κ × Nat)) (w : Writer) :
    Cost (finish O root st old new s) (2 * st.length + 1) w :=
  (cost_walkUp O st _ s w).bind (fun up w1 _ => cost_fixRoot O root up.1 up.2 w1) (by omega)

end

theorem cost_modW (f : Writer → Writer) (w : Writer) (hd : (f w).dirty = w.dirty) (hf : (f w).freed = w.freed)
    (hn : (f w).nextPage = w.nextPage) (hs : (f w).pageSize = w.pageSize) : Cost (modW f) 0 w :=
  ⟨by rw [show (modW f w).2 = f w from rfl, hd]; omega, by rw [show (modW f w).2 = f w from rfl, hf]; omega,
    by rw [show (modW f w).2 = f w from rfl, hn]; omega, by rw [show (modW f w).2 = f w from rfl, hn], hs⟩

theorem cost_writeChunks : ∀ (cs : List Bytes) (next : Nat) (w : Writer), Cost (Page.writeChunks cs next) cs.length w := by
  intro cs
  induction cs with
  | nil => intro next w; exact .pure _ _ _
  | cons c cs ih =>
    intro next w
    unfold Page.writeChunks
    exact (cost_newPage _ w).bind (fun p w1 _ => ih p w1) (by simp only [List.length_cons]; omega)

theorem chunksOf_length (cap : Nat) (hc : 0 < cap) : ∀ (fuel : Nat) (d : Bytes), (chunksOf cap fuel d).length ≤ 1 + d.length / cap := by
  intro fuel
  induction fuel with
  | zero => intro d; simp [chunksOf]
  | succ fuel ih =>
    intro d
    unfold chunksOf
    split
    · simp
    · next hd =>
      have := ih (d.drop cap)
      simp only [List.length_cons, List.length_drop] at this ⊢
      by_cases hle : cap ≤ d.length
      · have e : d.length / cap = (d.length - cap) / cap + 1 := by
          rw [← Nat.add_div_right _ hc]; congr 1; omega
        omega
      · have e : d.drop cap = [] := List.drop_eq_nil_of_le (by omega)
        rw [e]
        have : chunksOf cap fuel [] = [] := by cases fuel <;> simp [chunksOf]
        rw [this]
        simp

theorem cost_writeChain (data : Bytes) (w : Writer) : Cost (writeChain data) (1 + data.length / (w.pageSize - 17)) w := by
  unfold writeChain
  refine .getW ?_
  have hh : w.pageSize - (pageHeaderSize + 8) = w.pageSize - 17 := by show w.pageSize - (9 + 8) = _; omega
  simp only [hh]
  split
  · exact .fail _ _ _
  · next hc =>
    split
    · exact (cost_newPage _ w).le (Nat.le_add_right 1 _)
    · refine (cost_writeChunks _ 0 w).le ?_
      rw [List.length_reverse]
      exact chunksOf_length _ (by omega) _ _

theorem cost_storeValue {ps : Nat} {r : Record} {v : (EventValue × Nat) × Option (EventValue × Nat)}
    (hv : validateEvent ps r = .ok v) (w : Writer) (hps : w.pageSize = ps) :
    Cost (storeValue v) (1 + bulk r / (ps - 17)) w := by
  rw [validateEvent_cases] at hv
  split at hv
  · cases hv
  split at hv
  · cases hv
  split at hv
  · cases hv
    exact .pure _ _ _
  split at hv
  · cases hv
    unfold overflowStub storeValue
    simp only
    have := cost_writeChain (payload r) w
    rw [payload_bulk, hps] at this
    exact this.bind (k := 0) (fun _ _ _ => .pure _ _ _) (by omega)
  · cases hv

theorem cost_placeEvent (d size pos : Nat) (v : EventValue) (diff : Nat) (w : Writer) : Cost (placeEvent d size pos v diff) 1 w := by
  unfold placeEvent
  refine .getW ?_
  split
  · exact (cost_modDirty _ _ _).after fun _ _ _ => .pure _ _ _
  · exact (cost_newPage _ _).bind (k := 0) (fun _ _ _ => .pure _ _ _) (by omega)

theorem Cost.adds {α : Type} {m : W α} {n : Nat} {w w' : Writer} {a : α} (h : Cost m n w) (e : m w = (.ok a, w')) : Extra n w w' := by
  unfold Cost at h
  rwa [e] at h

/-- An event costs two pages a level, three more, and its chain. -/
theorem cost_evAppend {ps : Nat} {r : Record} {v : (EventValue × Nat) × Option (EventValue × Nat)} (hv : validateEvent ps r = .ok v)
    (pos : Nat) {w : Writer} (hps : w.pageSize = ps) (hw : Honest w) {n : Nat} (hd : Deep w.view n w.eventsRoot) :
    Cost (evAppend v pos) (2 * n + 4 + bulk r / (ps - 17)) w := by
  unfold evAppend
  refine .getW ((cost_descend _ _ _ _ _ w).after fun leaf w1 e1 => ?_)
  have hl := descend_height ev_un hd _ _ w hw rfl _ _ e1
  simp only [List.length_nil, Nat.zero_add] at hl
  have s1 := ((cost_descend _ _ _ _ _ w).adds e1).same
  refine (cost_getDirty _ w1).bind (k := 2 * n + 3 + bulk r / (ps - 17)) (fun d w2 e2 => ?_) (by omega)
  have s2 := ((cost_getDirty _ w1).adds e2).same
  refine (cost_getPage _ w2).after fun nd w3 e3 => ?_
  have s3 := ((cost_getPage _ w2).adds e3).same
  refine (cost_storeValue hv w3 (by rw [s3, s2, s1, hps])).bind (k := 2 * n + 2) (fun sv w4 _ => ?_) (by omega)
  refine (cost_placeEvent _ _ _ _ _ w4).bind (k := 2 * n + 1) (fun s w5 _ => ?_) (by omega)
  refine (cost_walkUp _ leaf.2 _ s w5).bind (k := 1) (fun up w6 _ => ?_) (by omega)
  exact (cost_fixRoot _ _ _ _ w6).bind (k := 0) (fun root w7 _ => cost_modW _ _ rfl rfl rfl rfl) (by omega)

theorem cost_trackLeafPut (d : Nat) (src : String) (pos : Nat) (w : Writer) : Cost (trackLeafPut d src pos) 1 w := by
  unfold trackLeafPut
  refine .getW ((cost_modDirty _ _ _).after fun off w1 _ => ?_)
  split
  · exact .pure _ _ _
  · exact (cost_newPage _ _).bind (k := 0) (fun _ _ _ => .pure _ _ _) (by omega)

/-- A tracked position costs two pages a level and three more. -/
theorem cost_trackUpsert (src : String) (pos : Nat) {w : Writer} (hw : Honest w) {n : Nat}
    (hd : w.trackRoot ≠ 0 → Deep w.view n w.trackRoot) : Cost (trackUpsert src pos) (2 * n + 3) w := by
  unfold Cost trackUpsert
  split
  · exact (Extra.refl w).le (by omega)
  split
  · show Cost (trackNew src pos) _ w
    unfold trackNew
    exact (cost_newPage _ w).bind (k := 0) (fun root w1 _ => cost_modW _ _ rfl rfl rfl rfl) (by omega)
  · next h0 =>
    show Cost (trackInto src pos) _ w
    unfold trackInto
    refine .getW ((cost_descend _ _ _ _ _ w).after fun leaf w1 e1 => ?_)
    have hl := descend_height track_un (hd h0) _ _ w hw rfl _ _ e1
    simp only [List.length_nil, Nat.zero_add] at hl
    refine (cost_getPage _ w1).after fun nd w2 _ => ?_
    refine Cost.after (m := trackCheck src pos nd) ?_ fun _ w3 _ => ?_
    · unfold trackCheck
      split
      · exact .fail _ _ _
      · exact .pure _ _ _
      · split
        · exact .fail _ _ _
        · exact .pure _ _ _
    refine (cost_getDirty _ w3).bind (k := 2 * n + 2) (fun d w4 _ => ?_) (by omega)
    refine (cost_trackLeafPut d src pos w4).bind (k := 2 * n + 1) (fun s w5 _ => ?_) (by omega)
    exact (cost_finish _ _ leaf.2 _ _ s w5).bind (k := 0) (fun root w6 _ => cost_modW _ _ rfl rfl rfl rfl) (by omega)

theorem cost_perLeafPut (d pos : Nat) (w : Writer) : Cost (perLeafPut d pos) 1 w := by
  unfold perLeafPut
  refine .getW ((cost_modDirty _ _ _).after fun off w1 _ => ?_)
  split
  · exact .pure _ _ _
  · exact (cost_newPage _ _).bind (k := 0) (fun _ _ _ => .pure _ _ _) (by omega)

theorem per_un : ∀ nd keys kids, perOps.un nd = some (keys, kids) → below nd = kids := by
  intro nd keys kids h
  cases nd <;> simp [perOps] at h
  simp [below, h.2]

theorem cost_perAppend (bs : List Nat → Nat → Nat) (root pos : Nat) {w : Writer} (hw : Honest w) {n : Nat} (hd : Deep w.view n root) :
    Cost (perAppend bs root pos) (2 * n + 3) w := by
  unfold perAppend
  refine .getW ((cost_descend _ _ _ _ _ w).after fun leaf w1 e1 => ?_)
  have hl := descend_height per_un hd _ _ w hw rfl _ _ e1
  simp only [List.length_nil, Nat.zero_add] at hl
  refine (cost_getDirty _ w1).bind (k := 2 * n + 2) (fun d w2 _ => ?_) (by omega)
  refine (cost_perLeafPut d pos w2).bind (k := 2 * n + 1) (fun s w3 _ => ?_) (by omega)
  exact (cost_finish _ _ leaf.2 _ _ s w3).le (by omega)

theorem cost_perNew (l : List Nat) (w : Writer) : Cost (perNew l) 3 w := by
  unfold perNew
  refine .getW ?_
  split
  · exact (cost_newPage _ w).le (by omega)
  · split
    · exact .fail _ _ _
    · split
      · exact .fail _ _ _
      · refine (cost_newPage _ w).bind (k := 2) (fun a w1 _ => ?_) (by omega)
        exact (cost_newPage _ w1).bind (k := 1) (fun b w2 _ => cost_newPage _ w2) (by omega)

theorem cost_tagsMigrate (d i len : Nat) (w : Writer) : Cost (tagsMigrate d i len) 3 w := by
  unfold tagsMigrate
  refine (cost_getPage _ w).after fun nd w1 _ => .getW ?_
  split
  · unfold tagsMove
    refine (cost_modDirty _ _ _).after fun l w2 _ => ?_
    exact (cost_perNew l w2).bind (k := 0) (fun root w3 _ => cost_modDirty _ _ _) (by omega)
  · exact .pure _ _ _

theorem cost_tagsSplit (d : Nat) (w : Writer) : Cost (tagsSplit d) 1 w := by
  unfold tagsSplit
  refine .getW ((cost_modDirty _ _ _).after fun off w1 _ => ?_)
  split
  · exact .pure _ _ _
  · exact (cost_newPage _ _).bind (k := 0) (fun _ _ _ => .pure _ _ _) (by omega)

/-- A tag costs two pages a level of both trees and six more. -/
theorem cost_tagsInsert (bs : List Nat → Nat → Nat) {kw ps : Nat} {hps : 1024 ≤ ps} {hkw16 : kw ≤ 16} {w : Writer} {A : Nat → Prop}
    {X : Multiset Nat} {P Q : Multiset (Nat × Node)} {idx : Nat → List Nat} (ht : TagsRep kw ps hps hkw16 w.tagsRoot P idx)
    (tag pos : Nat) (hw : Own w A X (P + Q)) : Cost (tagsInsert bs tag pos) (4 * Nat.log2 w.nextPage + 6) w := by
  obtain ⟨K, hK, hroot, rfl, hst, -⟩ := ht
  have hcard : K.pg.card ≤ w.nextPage := by
    have := hw.card_lt; simp only [Multiset.card_add] at this; omega
  obtain ⟨n, hdeep, hn⟩ := shallow_log (shallow_of (v := w.view) plain_tags hK
    (fun p nd h => hw.sees p nd (Multiset.mem_add.mpr (.inl h))) hcard)
  unfold tagsInsert
  refine .getW ((cost_descend _ _ _ _ _ w).after fun leaf w1 e1 => ?_)
  have hl := descend_height tags_un (hroot ▸ hdeep) _ _ w hw.cached rfl _ _ e1
  simp only [List.length_nil, Nat.zero_add] at hl
  rw [hroot] at e1
  obtain ⟨leaf', w1', e1', fs, k, hF, rfl, h1, k1, hl1, -⟩ := descend_spec (Y := tgLayout kw ps hps hkw16)
    (pick := fun keys _ => ub keys tag) (fun keys kids _ => ub_le keys tag) hK.tr w.nextPage [] w Q hcard hw
  rw [show descend (tgLayout kw ps hps hkw16).ops (fun keys _ => ub keys tag) w.nextPage K.id [] w = _ from e1] at e1'
  cases e1'
  obtain ⟨es, hk, hes, -⟩ := tags_found_only hF hst
  have hkpg : k.pg = {(k.id, tgNode es)} + tgPg es := by rw [hk]; rfl
  have hKpg : K.pg = k.pg + fpg tagsOps fs k.id := by rw [← hF.eq]; exact plug_pg _ _ _
  rw [hKpg, hkpg] at h1
  have h1 : Own w1 A X ({(k.id, tgNode es)} + (tgPg es + (fpg tagsOps fs k.id + Q))) := h1.congr (by abel)
  refine (cost_getDirty _ w1).bind (k := 4 * Nat.log2 w.nextPage + 5) (fun d w2 e2 => ?_) (by omega)
  obtain ⟨d', w2', e2', h2, k2, hd2⟩ := getDirty_spec h1 hl1
  rw [show getDirty k.id w1 = _ from e2] at e2'
  cases e2'
  refine Cost.bind (m := tagsChange bs d tag pos) (n := 2 * Nat.log2 w.nextPage + 3) (k := 2 * Nat.log2 w.nextPage + 2) ?_ (fun _ w4 _ => ?_)
    (by omega)
  · unfold tagsChange
    refine (cost_modDirty _ _ _).after fun a w3 e3 => ?_
    have hg := h2.dirty_eq (n := tgNode es) (by simp) hd2
    unfold modDirty at e3
    rw [hg] at e3
    simp only at e3
    cases hf : tagsFind tag pos (tgNode es) with
    | error e => rw [hf] at e3; cases e3
    | ok x =>
      obtain ⟨a', nd'⟩ := x
      rw [hf] at e3
      cases e3
      obtain ⟨h3, -, -⟩ := h2.set hd2 nd'
      cases a with
      | inline i len => exact (cost_tagsMigrate d i len _).le (by omega)
      | inserted => exact .pure _ _ _
      | subtree root =>
        have hr : ∃ e ∈ es, e.root = root ∧ root ≠ 0 := by
          unfold tagsFind tgNode at hf
          simp only at hf
          split at hf
          · split at hf
            · cases hf
            · next v hv =>
              split at hf
              · cases hf
              · next h0 =>
                cases hf
                obtain ⟨e, he, rfl⟩ := List.mem_map.mp (List.mem_of_getElem? hv)
                exact ⟨e, he, rfl, h0⟩
          · split at hf <;> cases hf
        obtain ⟨e, he, rfl, h0⟩ := hr
        rcases (hes e he).2 with ⟨h4, -⟩ | ⟨-, K', hK', h4, h5, -⟩
        · exact absurd h4 h0
        · have hle : K'.pg ≤ tgPg es := by rw [← h5]; exact le_listSum (List.mem_map_of_mem he)
          have hc' : K'.pg.card ≤ w.nextPage := by
            have := Multiset.card_le_card hle
            rw [hKpg, hkpg] at hcard
            simp only [Multiset.card_add] at hcard
            omega
          obtain ⟨m, hm, hml⟩ := shallow_log (shallow_of (v := Writer.view _) plain_per hK'
            (fun p nd h => h3.sees p nd (Multiset.mem_add.mpr (.inr (Multiset.mem_add.mpr (.inl (Multiset.mem_of_le hle h)))))) hc')
          rw [← h4] at hm
          exact (cost_perAppend bs e.root pos h3.cached hm).bind (k := 0) (fun r w4 _ => cost_modDirty _ _ _) (by omega)
  · refine (cost_tagsSplit d w4).bind (k := 2 * Nat.log2 w.nextPage + 1) (fun s w5 _ => ?_) (by omega)
    exact (cost_finish _ _ _ _ _ s w5).bind (k := 0) (fun root w6 _ => cost_modW _ _ rfl rfl rfl rfl) (by omega)

variable {c : Conf} {kw : Nat}

theorem Extra.log {n : Nat} {w w' : Writer} (h : Extra n w w') {L : Nat} (hl : Nat.log2 w'.nextPage ≤ L) : Nat.log2 w.nextPage ≤ L := by
  refine le_trans ?_ hl
  have := h.mono
  rcases Nat.eq_zero_or_pos w.nextPage with h0 | h0
  · rw [h0]; simp
  · exact (Nat.le_log2 (by omega)).mpr (le_trans (Nat.log2_self_le (by omega)) h.mono)

section
variable {H : String → TagHash} {hc : ConfOk c kw} {hH : ∀ t, Codec.NormalizedTo kw (H t)} {s0 : Spec.Db}

/-- C88: a tag of an event. -/
theorem C88_tag {w : PW} {a : Abs} (ht : (pageLawful hc hH).Rep w s0 a) (h p : Nat) :
    Extra (4 * Nat.log2 w.wr.nextPage + 6) w.wr ((pageBackend c).tagInsert h p w).2.wr := by
  obtain ⟨_, _, _, _, _, _, _, L, S, PE', PT', PK', PF', ix', T⟩ := ht
  have hw := T.inv.own
  exact cost_tagsInsert c.bs T.trees.tags h p (hw.congr (show PT' + (PF' + (PE' + PK')) = _ by abel))

/-- C88: an event without its tags. -/
theorem C88_event {w : PW} {a : Abs} (ht : (pageLawful hc hH).Rep w s0 a) {r : Record} {v : (EventValue × Nat) × Option (EventValue × Nat)}
    (hv : (pageBackend c).validate r = .ok v) (p : Nat) :
    Extra (2 * Nat.log2 w.wr.nextPage + 1 + eventRoom c.g.pageSize r) w.wr ((pageBackend c).eventAppend r v p w).2.wr := by
  obtain ⟨_, _, _, _, _, _, _, L, S, PE', PT', PK', PF', ix', T⟩ := ht
  have hw := T.inv.own
  have hcard := T.nextPage_card
  obtain ⟨K, hK, h1, h2, -⟩ := T.trees.events
  rw [h2] at hcard
  obtain ⟨n, hn, hl⟩ := shallow_log (shallow_of (v := w.wr.view) (pages := w.wr.nextPage) plain_events hK
    (fun p nd h => hw.sees p nd (Multiset.mem_of_le (le_of_eq_add (PF' + (PT' + PK')) (by rw [h2]; abel)) h)) (by omega))
  rw [← h1] at hn
  refine Extra.le (cost_evAppend hv p T.inv.wps hw.cached hn) ?_
  unfold eventRoom
  omega

/-- C88: a tracked position. -/
theorem C88_track {w : PW} {a : Abs} (ht : (pageLawful hc hH).Rep w s0 a) (src : String) (p : Nat) :
    Extra (2 * Nat.log2 w.wr.nextPage + 3) w.wr ((pageBackend c).trackUpsert src p w).2.wr := by
  obtain ⟨_, _, _, _, _, _, _, L, S, PE', PT', PK', PF', ix', T⟩ := ht
  have hw := T.inv.own
  have hcard := T.nextPage_card
  rcases T.trees.track with ⟨e, -⟩ | ⟨K, hK, h1, h2, -⟩
  · exact Extra.le (cost_trackUpsert src p (n := 0) hw.cached (fun h => absurd e h)) (by omega)
  · rw [h2] at hcard
    obtain ⟨n, hn, hl⟩ := shallow_log (shallow_of (v := w.wr.view) (pages := w.wr.nextPage) plain_track hK
      (fun p nd h => hw.sees p nd (Multiset.mem_of_le (le_of_eq_add (PF' + (PE' + PT')) (by rw [h2]; abel)) h)) (by omega))
    rw [← h1] at hn
    exact Extra.le (cost_trackUpsert src p hw.cached (fun _ => hn)) (by omega)

theorem insertTags_adds (p : Nat) : ∀ (ts : List String) (w : PW) (a : Abs), (pageLawful hc hH).Rep w s0 a → p = a.log.length + 1 →
    a.next = p + 1 →
    (∀ L, Nat.log2 (insertTags (pageBackend c) H p ts w).2.wr.nextPage ≤ L →
      Extra (ts.length * (4 * L + 6)) w.wr (insertTags (pageBackend c) H p ts w).2.wr) ∧
    ((insertTags (pageBackend c) H p ts w).1 = .ok () → ∃ a', (pageLawful hc hH).Rep (insertTags (pageBackend c) H p ts w).2 s0 a' ∧
      a'.log = a.log ∧ a'.next = a.next) := by
  intro ts
  induction ts with
  | nil => intro w a ht _ _; exact ⟨fun L _ => (Extra.refl _).le (by omega), fun _ => ⟨a, ht, rfl, rfl⟩⟩
  | cons t ts ih =>
    intro w a ht hp hn
    have hcost := C88_tag ht (H t) p
    rcases (pageLawful hc hH).tagInsert (H t) p ⟨t, rfl⟩ ht hp hn with ⟨w1, e, h1⟩ | ⟨e, w1, _, h⟩
    · rw [e] at hcost
      obtain ⟨i1, i2⟩ := ih w1 _ h1 hp hn
      have hs : insertTags (pageBackend c) H p (t :: ts) w = insertTags (pageBackend c) H p ts w1 := by
        conv_lhs => unfold insertTags
        rw [e]
      rw [hs]
      refine ⟨fun L hL => ?_, i2⟩
      have hl := (i1 L hL).log hL
      have hl0 := hcost.log hl
      refine hcost.trans (i1 L hL) ?_
      have := Nat.add_one_mul ts.length (4 * L + 6)
      rw [List.length_cons]
      omega
    · exact h.elim

/-- Pages granted to a request in a file of `2 ^ L` pages: for the tracked position two for a level of the tree and three more;
for each event what C84 grants it, two for a level and one more; for each of its tags four for a level and six more. -/
def requestRoom (L pageSize : Nat) (tracking : Option Tracking) (records : List Record) : Nat :=
  (if tracking.isSome then 2 * L + 3 else 0) +
    (records.map fun r => r.event.tags.length * (4 * L + 6) + (2 * L + 1 + eventRoom pageSize r)).sum

theorem appendValues_adds : ∀ (vs : List (Record × ((EventValue × Nat) × Option (EventValue × Nat)))) (last : Nat) (w : PW) (a : Abs),
    (pageLawful hc hH).Rep w s0 a → a.next = a.log.length + 1 → (∀ x ∈ vs, (pageBackend c).validate x.1 = .ok x.2) →
    ∀ L, Nat.log2 (appendValues (pageBackend c) H vs last w).2.wr.nextPage ≤ L →
      Extra (requestRoom L c.g.pageSize none (vs.map (·.1))) w.wr (appendValues (pageBackend c) H vs last w).2.wr := by
  intro vs
  induction vs with
  | nil => intro last w a _ _ _ L _; exact (Extra.refl _).le (by omega)
  | cons x vs ih =>
    obtain ⟨r, v⟩ := x
    intro last w a ht hn hvs
    obtain ⟨hi1, hi2⟩ := (pageLawful hc hH).issue ht
    have hi0 : Extra 0 w.wr ((pageBackend c).issue w).2.wr := ⟨Nat.le_refl _, Nat.le_refl _, Nat.le_refl _, Nat.le_refl _, rfl⟩
    obtain ⟨t1, t2⟩ := insertTags_adds ((pageBackend c).issue w).1 r.event.tags ((pageBackend c).issue w).2 _ hi2
      (by rw [hi1]; exact hn) (by rw [hi1])
    have hs : appendValues (pageBackend c) H ((r, v) :: vs) last w =
      (match insertTags (pageBackend c) H ((pageBackend c).issue w).1 r.event.tags ((pageBackend c).issue w).2 with
      | (.error e, w2) => (.error e, w2)
      | (.ok _, w2) =>
        match (pageBackend c).eventAppend r v ((pageBackend c).issue w).1 w2 with
        | (.error e, w3) => (.error e, w3)
        | (.ok _, w3) => appendValues (pageBackend c) H vs ((pageBackend c).issue w).1 w3) := by
      conv_lhs => unfold appendValues
      generalize (pageBackend c).issue w = x
      obtain ⟨p, w1⟩ := x
      simp only
      rcases insertTags (pageBackend c) H p r.event.tags w1 with ⟨_ | _, w2⟩
      · rfl
      · simp only
        rcases (pageBackend c).eventAppend r v p w2 with ⟨_ | _, w3⟩ <;> rfl
    rw [hs]
    have hroom : ∀ L, requestRoom L c.g.pageSize none (((r, v) :: vs).map (·.1)) =
        r.event.tags.length * (4 * L + 6) + (2 * L + 1 + eventRoom c.g.pageSize r) +
          requestRoom L c.g.pageSize none (vs.map (·.1)) := by
      intro L; simp [requestRoom]
    rcases hins : insertTags (pageBackend c) H ((pageBackend c).issue w).1 r.event.tags ((pageBackend c).issue w).2 with ⟨e | u, w2⟩
    · rw [hins] at t1
      intro L hL
      rw [hroom]
      exact hi0.trans (t1 L hL) (by omega)
    · rw [hins] at t1 t2
      obtain ⟨a2, h2, hlog, hnext⟩ := t2 rfl
      have hcost := C88_event h2 (hvs (r, v) (by simp)) ((pageBackend c).issue w).1
      rcases (pageLawful hc hH).eventAppend r v ((pageBackend c).issue w).1 h2 (hvs (r, v) (by simp))
        (by rw [hlog, hi1]; exact hn) (by rw [hnext, hi1]) with ⟨w3, e3, h3⟩ | ⟨_, _, _, h⟩
      · intro L hL
        simp only [e3] at hL hcost ⊢
        have hrest := ih ((pageBackend c).issue w).1 w3 _ h3 (by simp only [List.length_append, List.length_singleton, hlog, hnext]; omega)
          (fun x hx => hvs x (by simp [hx])) L hL
        have l3 := hrest.log hL
        have l2 := hcost.log l3
        rw [hroom]
        refine (hi0.trans (t1 L l2) (Nat.le_refl _)).trans (hcost.trans hrest (Nat.le_refl _)) ?_
        omega
      · exact h.elim

theorem validateAll_ok {δ σ υ ι : Type} {B : Backend δ σ υ ι} : ∀ {rs : List Record} {vs : List (Record × υ)}, validateAll B rs = .ok vs →
    vs.map (·.1) = rs ∧ ∀ x ∈ vs, B.validate x.1 = .ok x.2 := by
  intro rs
  induction rs with
  | nil => intro vs h; cases h; exact ⟨rfl, fun x hx => by cases hx⟩
  | cons r rs ih =>
    intro vs h
    unfold validateAll at h
    split at h
    · cases h
    · next v hv =>
      split at h
      · cases h
      · next vs' hvs =>
        cases h
        obtain ⟨h1, h2⟩ := ih hvs
        refine ⟨by simp [h1], fun x hx => ?_⟩
        rcases List.mem_cons.mp hx with rfl | hx
        · exact hv
        · exact h2 x hx

end

/-- C88: a request that is processed, in whatever state of the transaction and whether it is accepted or refused, adds to the
pages to be written, to the pages given up and to the length of the file at most the pages granted to it. -/
theorem C88_request {env : Env} (hc : ConfOk c kw) (hH : ∀ t, Codec.NormalizedTo kw (env.H t)) {w : PW} {s0 s : Spec.Db}
    (ht : (pageLawful hc hH).Rep w s0 (Abs.of env.H s)) (req : Request) (cancel : Nat → Cancel) :
    Extra (requestRoom (Nat.log2 (processAppend (pageBackend c) env req cancel w).2.wr.nextPage) c.g.pageSize req.tracking
      (req.events.map fun e => ⟨e, req.tracking⟩)) w.wr (processAppend (pageBackend c) env req cancel w).2.wr := by
  have hrefl : ∀ n, Extra n w.wr w.wr := fun n => (Extra.refl _).le (Nat.zero_le n)
  unfold processAppend
  split
  · exact hrefl _
  split
  · exact hrefl _
  · next vs hvs =>
    obtain ⟨hv1, hv2⟩ := validateAll_ok hvs
    rw [← hv1]
    have happ : ∀ (w : PW) (a : Abs), (pageLawful hc hH).Rep w s0 a → a.next = a.log.length + 1 → ∀ L,
        Nat.log2 (if vs.isEmpty then ((.ok 0 : Except Err Nat), w) else appendValues (pageBackend c) env.H vs 0 w).2.wr.nextPage ≤ L →
        Extra (requestRoom L c.g.pageSize none (vs.map (·.1))) w.wr
          (if vs.isEmpty then ((.ok 0 : Except Err Nat), w) else appendValues (pageBackend c) env.H vs 0 w).2.wr := by
      intro w a ht hn L hL
      split at hL
      · next h => rw [if_pos h]; exact (Extra.refl _).le (by omega)
      · next h => rw [if_neg h]; exact appendValues_adds vs 0 w a ht hn hv2 L hL
    unfold applyRequest
    cases htr : req.tracking with
    | none => exact happ w _ ht rfl _ (Nat.le_refl _)
    | some t =>
      simp only
      have hcost := C88_track ht t.source t.position
      have hroom : ∀ L, requestRoom L c.g.pageSize (some t) (vs.map (·.1)) = 2 * L + 3 + requestRoom L c.g.pageSize none (vs.map (·.1)) := by
        intro L; simp [requestRoom]
      have hrep := (pageLawful hc hH).trackUpsert t.source t.position ht
      rcases he : (pageBackend c).trackUpsert t.source t.position w with ⟨e | u, w1⟩
      · rw [he] at hcost
        simp only at hcost ⊢
        rw [hroom]
        refine hcost.le ?_
        have := hcost.log (Nat.le_refl _)
        omega
      · rw [he] at hcost hrep
        rcases hrep with hrep | ⟨_, _, _, h⟩
        · split at hrep
          · obtain ⟨m, w', h, -⟩ := hrep; cases h
          split at hrep
          · obtain ⟨m, w', h, -⟩ := hrep; cases h
          obtain ⟨w', h, h1⟩ := hrep
          cases h
          simp only at hcost ⊢
          have h2 := happ w1 _ h1 rfl _ (Nat.le_refl _)
          have l1 := h2.log (Nat.le_refl _)
          have l0 := hcost.log l1
          rw [hroom]
          exact hcost.trans h2 (by omega)
        · exact h.elim

theorem cost_loadPage (msg : String) (p : Nat) (w : Writer) : Cost (loadPage msg p) 0 w := by
  have := cost_getPage p w
  unfold Cost at this ⊢
  unfold loadPage
  rcases h : getPage p w with ⟨_ | _, w'⟩ <;> rw [h] at this <;> exact this

theorem cost_scan {β : Type} {D : Scan β} (hD : ∀ n w, Cost (D.leaf n) 0 w) : ∀ (fuel : Nat) (st : List (Nat × Nat)) (acc : List β)
    (w : Writer), Cost (D.run fuel st acc) 0 w := by
  intro fuel
  induction fuel with
  | zero =>
    intro st acc w
    cases st with
    | nil => exact .pure _ _ _
    | cons x st => exact .fail _ _ _
  | succ fuel ih =>
    intro st acc w
    cases st with
    | nil => exact .pure _ _ _
    | cons x st =>
      obtain ⟨p, i⟩ := x
      unfold Scan.run
      refine (cost_loadPage _ p w).after fun n w1 _ => ?_
      split
      · split
        · exact ih _ _ _
        · exact ih _ _ _
      · refine (hD n w1).after fun r w2 _ => ?_
        split
        · exact .pure _ _ _
        · exact ih _ _ _

theorem cost_freeEntries (fuel : Nat) (small : Option Nat) : ∀ (ts : List Nat) (vs : List FreeValue) (w : Writer),
    Cost (freeEntries fuel small ts vs) 0 w := by
  intro ts
  induction ts with
  | nil => intro vs w; exact .pure _ _ _
  | cons t ts ih =>
    intro vs w
    unfold freeEntries
    split
    · exact .pure _ _ _
    · split
      · exact .fail _ _ _
      · refine Cost.after (m := freeIds fuel _) ?_ fun l w1 _ => (ih _ w1).after fun _ _ _ => .pure _ _ _
        unfold freeIds
        split
        · exact .pure _ _ _
        · refine cost_scan (fun n w => ?_) _ _ _ _
          unfold tsnScan
          simp only
          split
          · exact .pure _ _ _
          · exact .fail _ _ _

theorem cost_findReusable (small : Option Nat) (w : Writer) : Cost (findReusable small) 0 w := by
  unfold findReusable
  refine .getW ((cost_scan (fun n w => ?_) _ _ _ w).after fun l w1 _ => cost_modW _ _ rfl rfl rfl rfl)
  unfold freeScan
  simp only
  split
  · exact cost_freeEntries _ _ _ _ _
  · exact .fail _ _ _

/-- C88: a transaction begins with nothing to write and nothing given up, and does not make the file longer. -/
theorem C88_begin {d : PDb} {w : PW} (h : (pageBackend c).begin d = .ok w) :
    w.wr.dirty = [] ∧ w.wr.freed = [] ∧ ∃ hd, d.header = .ok hd ∧ w.wr.nextPage = hd.nextPage := by
  change PDb.writer c d = _ at h
  unfold PDb.writer at h
  cases hp : latestPage d.m.h0 d.m.h1 with
  | error e => rw [hp] at h; cases h
  | ok p =>
    rw [hp] at h
    cases hh : asHeader p.node with
    | error e => simp only [hh, bind, Except.bind] at h; cases h
    | ok hd =>
      simp only [hh, bind, Except.bind] at h
      have hc := cost_findReusable d.oldest (newWriter c d hd)
      split at h
      · cases h
      · next w1 e =>
        cases h
        have := hc.adds e
        obtain ⟨a1, a2, a3, a4, -⟩ := this
        refine ⟨List.length_eq_zero_iff.mp (Nat.le_zero.mp a1), List.length_eq_zero_iff.mp (Nat.le_zero.mp a2), hd, ?_,
          Nat.le_antisymm a3 a4⟩
        unfold PDb.header
        simp only [hp, bind, Except.bind, hh]

/-- C88: what an append on its own has changed when its commit begins. -/
theorem C88_append {env : Env} (hc : ConfOk c kw) (hH : ∀ t, Codec.NormalizedTo kw (env.H t)) {d : PDb} {s : Spec.Db}
    (hd : (pageLawful hc hH).RepD d s) {w w' : PW} (hw : (pageBackend c).begin d = .ok w) {req : Request} {cancel : Nat → Cancel}
    {r : Except Err Nat} (hp : processAppend (pageBackend c) env req cancel w = (r, w')) : ∃ h, d.header = .ok h ∧
      let room := requestRoom (Nat.log2 w'.wr.nextPage) c.g.pageSize req.tracking (req.events.map fun e => ⟨e, req.tracking⟩)
      w'.wr.dirty.length ≤ room ∧ w'.wr.freed.length ≤ room ∧ w'.wr.nextPage ≤ h.nextPage + room := by
  obtain ⟨h1, h2, h, hh, h3⟩ := C88_begin hw
  rcases (pageLawful hc hH).begin hd with ⟨w1, e, ht⟩ | ⟨_, _, h⟩
  · rw [hw] at e
    cases e
    have := C88_request hc hH ht req cancel
    rw [hp] at this
    obtain ⟨a1, a2, a3, -⟩ := this
    rw [h1] at a1
    rw [h2] at a2
    rw [h3] at a3
    exact ⟨h, hh, by simpa using a1, by simpa using a2, a3⟩
  · exact h.elim

/-- C88: the commit adds to that only pages of the list of free pages, and of these there are at most four for each free page. -/
theorem C88_commit {env : Env} (hc : ConfOk c kw) (hH : ∀ t, Codec.NormalizedTo kw (env.H t)) {w : PW} {s0 s : Spec.Db}
    (ht : (pageLawful hc hH).Rep w s0 (Abs.of env.H s)) {ord : Writer → List Nat} (hord : ∀ w, (ord w).Perm w.freed) :
    ∃ w', processFreed ord w.wr = (.ok (), w') ∧
      (∀ p ∈ w'.dirty.ids, p ∈ w.wr.dirty.ids ∨ p ∈ (listing w'.view w'.nextPage w'.freeRoot).map (·.1)) ∧
      w'.dirty.length ≤ w.wr.dirty.length + (1 + 4 * (freeListing w'.view w'.nextPage w'.freeRoot).length) := by
  obtain ⟨h, _, _, _, _, _, F, L, S, PE', PT', PK', PF', ix', T⟩ := ht
  obtain ⟨⟨⟩, w', e, PF'', N, R⟩ := T.ready hord
  have hown := R.own
  have hcard := hown.card_lt
  simp only [Multiset.card_add] at hcard
  obtain ⟨Old, hi⟩ := R.inv
  obtain ⟨es, hes, -⟩ := hi.rep
  have hs0 : Sees0 w'.view PF'' := ⟨fun q n hq => hown.sees q n (Multiset.mem_add.mpr (.inl hq)), fun q hq h0 => by
    have := (hown.lt (p := q) (by rw [ids_add]; exact Multiset.mem_add.mpr (.inl hq))).1
    omega⟩
  have hat := free_at hes hs0 w'.nextPage (by omega)
  have hin : ∀ p ∈ w'.dirty.ids, p ∈ w.wr.dirty.ids ∨ p ∈ (listing w'.view w'.nextPage w'.freeRoot).map (·.1) := by
    intro p hp
    have hin := hown.dirtyIn p hp
    rw [ids_add, Multiset.mem_add] at hin
    rcases hin with hin | hin
    · refine .inr ?_
      rw [← hat] at hin
      simpa [ids] using hin
    · refine .inl ?_
      rcases T.inv.own.clean p (by rw [ids_add]; exact Multiset.mem_add.mpr (.inr hin)) with h1 | h1
      · exact h1
      · exact absurd (hown.mayDirty p hp) h1
  refine ⟨w', e, hin, ?_⟩
  have hlen : (listing w'.view w'.nextPage w'.freeRoot).length ≤ 1 + 4 * (freeListing w'.view w'.nextPage w'.freeRoot).length := by
    have h1 := free_card hes
    rw [← freeListing_spec hes hs0 (fuel := w'.nextPage) (by omega), Multiset.coe_card] at h1
    rw [← hat, Multiset.coe_card] at h1
    exact h1
  have hsub : w'.dirty.ids ⊆ w.wr.dirty.ids ++ (listing w'.view w'.nextPage w'.freeRoot).map (·.1) := by
    intro p hp
    exact List.mem_append.mpr (hin p hp)
  have := (hown.dirtyNodup.subperm hsub).length_le
  simp only [Pages.ids, List.length_append, List.length_map] at this
  omega

/-- The pages granted to the requests of a batch. -/
def batchRoom (L pageSize : Nat) (js : List Job) : Nat :=
  (js.map fun j => requestRoom L pageSize j.req.tracking (j.req.events.map fun e => ⟨e, j.req.tracking⟩)).sum

theorem requestRoom_mono {L M : Nat} (h : L ≤ M) (ps : Nat) (t : Option Tracking) (rs : List Record) :
    requestRoom L ps t rs ≤ requestRoom M ps t rs := by
  unfold requestRoom
  have hs : ∀ rs : List Record, (rs.map fun r => r.event.tags.length * (4 * L + 6) + (2 * L + 1 + eventRoom ps r)).sum ≤
      (rs.map fun r => r.event.tags.length * (4 * M + 6) + (2 * M + 1 + eventRoom ps r)).sum := by
    intro rs
    induction rs with
    | nil => exact Nat.le_refl _
    | cons r rs ih =>
      simp only [List.map_cons, List.sum_cons]
      have := Nat.mul_le_mul_left r.event.tags.length (show 4 * L + 6 ≤ 4 * M + 6 by omega)
      omega
  have := hs rs
  split <;> omega

theorem batchRoom_mono {L M : Nat} (h : L ≤ M) (ps : Nat) (js : List Job) : batchRoom L ps js ≤ batchRoom M ps js := by
  unfold batchRoom
  induction js with
  | nil => exact Nat.le_refl _
  | cons j js ih =>
    simp only [List.map_cons, List.sum_cons]
    have := requestRoom_mono h ps j.req.tracking (j.req.events.map fun e => ⟨e, j.req.tracking⟩)
    omega

theorem stepJob_state {B : Backend δ σ υ ι} {env : Env} {b b' : Batch σ} {j : Job} (h : stepJob B env b j = .ok b') :
    b'.w = (processAppend B env j.req j.cancel b.w).2 := by
  unfold stepJob at h
  split at h
  · cases h
  · next e => cases h; rw [e]
  · next e => cases h; rw [e]

/-- What a request taken into the batch adds. -/
theorem stepJob_adds {env : Env} (hc : ConfOk c kw) (hH : ∀ t, Codec.NormalizedTo kw (env.H t)) {b b' : Batch PW} {s0 s : Spec.Db}
    (ht : (pageLawful hc hH).Rep b.w s0 (Abs.of env.H s)) {j : Job} (h : stepJob (pageBackend c) env b j = .ok b') {L : Nat}
    (hL : Nat.log2 b'.w.wr.nextPage ≤ L) : Extra (batchRoom L c.g.pageSize [j]) b.w.wr b'.w.wr := by
  have h1 := C88_request hc hH ht j.req j.cancel
  rw [← stepJob_state h] at h1
  refine h1.le ?_
  simpa [batchRoom] using requestRoom_mono hL c.g.pageSize j.req.tracking (j.req.events.map fun e => ⟨e, j.req.tracking⟩)

theorem batchRoom_append (L ps : Nat) (js ks : List Job) : batchRoom L ps (js ++ ks) = batchRoom L ps js + batchRoom L ps ks := by
  simp [batchRoom]

open Classical in
/-- What the loop adds that takes further requests into the batch. -/
theorem drain_adds {env : Env} (he : EnvOk env) (hc : ConfOk c kw) (hH : ∀ t, Codec.NormalizedTo kw (env.H t)) (max : Nat) (s0 : Spec.Db) :
    ∀ (vis : Nat) (q q' : List Msg) (b b' : Batch PW) (js : List Job), BInv (pageLawful hc hH).toWorkable b s0 js →
      (∀ j ∈ appendJobs q, AfterOk j.req) → drain (pageBackend c) env max vis q b = .ok (b', q') →
      ∃ ks, BInv (pageLawful hc hH).toWorkable b' s0 (js ++ ks) ∧ appendJobs q = ks ++ appendJobs q' ∧
        ∀ L, Nat.log2 b'.w.wr.nextPage ≤ L → Extra (batchRoom L c.g.pageSize ks) b.w.wr b'.w.wr := by
  have stop : ∀ (q : List Msg) (b : Batch PW) (js : List Job), BInv (pageLawful hc hH).toWorkable b s0 js →
      ∃ ks, BInv (pageLawful hc hH).toWorkable b s0 (js ++ ks) ∧ appendJobs q = ks ++ appendJobs q ∧
        ∀ L, Nat.log2 b.w.wr.nextPage ≤ L → Extra (batchRoom L c.g.pageSize ks) b.w.wr b.w.wr :=
    fun q b js hb => ⟨[], by simpa using hb, by simp, fun L _ => (Extra.refl _).le (Nat.zero_le _)⟩
  intro vis
  induction vis with
  | zero =>
    intro q q' b b' js hb _ h
    simp only [drain, Except.ok.injEq, Prod.mk.injEq] at h
    obtain ⟨rfl, rfl⟩ := h
    exact stop q b js hb
  | succ vis ih =>
    intro q q' b b' js hb ha h
    cases q with
    | nil =>
      simp only [drain, Except.ok.injEq, Prod.mk.injEq] at h
      obtain ⟨rfl, rfl⟩ := h
      exact stop [] b js hb
    | cons m q =>
      simp only [drain] at h
      split at h
      · cases h; exact stop _ b js hb
      split at h
      · cases h; exact stop _ b js hb
      rename_i hna
      have hna : b.abort = none := by simpa using hna
      cases m with
      | shutdown =>
        cases h
        exact stop _ b js hb
      | append j =>
        simp only at h
        split at h
        · cases h
        rename_i b1 hstep
        rcases stepJob_spec he (pageLawful hc hH) hb hna j (ha j (by simp [appendJobs])) with ⟨b2, h2, hb2⟩ | ⟨-, m, h2⟩
        · rw [hstep] at h2
          cases h2
          obtain ⟨ks, k1, k2, k3⟩ := ih q q' b1 b' _ hb2 (fun j hj => ha j (by simp [appendJobs, hj])) h
          refine ⟨j :: ks, by simpa using k1, by simp [appendJobs, k2], fun L hL => ?_⟩
          have g2 := k3 L hL
          have g1 := stepJob_adds hc hH (hb.good hna).1 hstep (g2.log hL)
          exact g1.trans g2 (by rw [← batchRoom_append]; exact Nat.le_refl _)
        · rw [hstep] at h2; cases h2

open Classical in
/-- C88: what a batch has changed when its commit begins, or when it is given up: no more pages than are granted to the requests
it took from the queue. -/
theorem C88_batch {env : Env} (he : EnvOk env) (hc : ConfOk c kw) (hH : ∀ t, Codec.NormalizedTo kw (env.H t)) {d : PDb} {s : Spec.Db}
    (hd : (pageLawful hc hH).RepD d s) {w : PW} (hw : (pageBackend c).begin d = .ok w) {j : Job} {q q' : List Msg}
    (ha : ∀ k ∈ j :: appendJobs q, AfterOk k.req) {b b' : Batch PW} {max vis : Nat}
    (h0 : stepJob (pageBackend c) env (Batch.new w) j = .ok b) (h1 : drain (pageBackend c) env max vis q b = .ok (b', q')) :
    ∃ ks h, appendJobs q = ks ++ appendJobs q' ∧ b'.responders = (j :: ks).map (·.id) ∧ d.header = .ok h ∧
      let room := batchRoom (Nat.log2 b'.w.wr.nextPage) c.g.pageSize (j :: ks)
      b'.w.wr.dirty.length ≤ room ∧ b'.w.wr.freed.length ≤ room ∧ b'.w.wr.nextPage ≤ h.nextPage + room := by
  obtain ⟨e1, e2, h, hh, e3⟩ := C88_begin hw
  rcases (pageLawful hc hH).begin hd with ⟨w1, e, ht⟩ | ⟨_, _, h⟩
  · rw [hw] at e
    cases e
    have hb := binv_new (pageLawful hc hH).toWorkable ht
    rcases stepJob_spec he (pageLawful hc hH) hb rfl j (ha j (by simp)) with ⟨b2, h2, hb2⟩ | ⟨-, m, h2⟩
    · rw [h0] at h2
      cases h2
      obtain ⟨ks, k1, k2, k3⟩ := drain_adds he hc hH max s vis q q' b b' _ hb2 (fun k hk => ha k (by simp [hk])) h1
      refine ⟨ks, h, k2, by simpa using k1.resp, hh, ?_⟩
      have g2 := k3 _ (Nat.le_refl _)
      have g1 := stepJob_adds hc hH ht h0 (g2.log (Nat.le_refl _))
      obtain ⟨a1, a2, a3, -⟩ := g1.trans g2 (by rw [← batchRoom_append])
      simp only [Batch.new] at a1 a2 a3
      rw [e1] at a1
      rw [e2] at a2
      rw [e3] at a3
      exact ⟨by simpa using a1, by simpa using a2, a3⟩
    · rw [h0] at h2; cases h2
  · exact h.elim

section Examples

/-- In a file of a million pages an event with little data and one tag takes 130 pages at most. -/
example : requestRoom 20 4096 none [⟨⟨"T", [1, 2], ["t"], none, []⟩, none⟩] = 86 + 44 := by decide

/-- Two small events with the same tag and one tracked source in a new database. -/
example : ∃ (d : PDb) (w w' : PW), (pageBackend exConf).begin d = .ok w ∧
    processAppend (pageBackend exConf) exConstEnv exReq noCancel w = (.ok 2, w') ∧
    w'.wr.dirty.length ≤ 14 * Nat.log2 w'.wr.nextPage + 23 := by
  obtain ⟨d, d', hd, -, happ, -⟩ := exStored
  unfold Db.append at happ
  rw [if_neg (by simp [exReq])] at happ
  cases hw : (pageBackend exConf).begin d with
  | error e => rw [hw] at happ; cases happ
  | ok w =>
    rw [hw] at happ
    simp only at happ
    rcases hp : processAppend (pageBackend exConf) exConstEnv exReq noCancel w with ⟨e | p, w'⟩
    · rw [show (fun _ => Cancel.never) = noCancel from rfl, hp] at happ; cases happ
    · rw [show (fun _ => Cancel.never) = noCancel from rfl, hp] at happ
      simp only at happ
      have hp2 : p = 2 := by
        rcases hcm : (pageBackend exConf).commit exIO w' with ⟨e | u, d2⟩
        · rw [hcm] at happ; cases happ
        · rw [hcm] at happ; cases happ; rfl
      subst hp2
      refine ⟨d, w, w', hw, hp, ?_⟩
      obtain ⟨h, -, h1, -⟩ := C88_append exConf_ok exConstEnv_width hd hw hp
      refine h1.trans ?_
      generalize Nat.log2 w'.wr.nextPage = L
      have e1 : eventRoom exConf.g.pageSize ⟨exEv 1, some ⟨"up", 9⟩⟩ = 3 := by decide +kernel
      have e2 : eventRoom exConf.g.pageSize ⟨exEv 2, some ⟨"up", 9⟩⟩ = 3 := by decide +kernel
      simp only [requestRoom, exReq, List.map_cons, List.map_nil, List.sum_cons, List.sum_nil, e1, e2, Option.isSome_some, if_true,
        show (exEv 1).tags.length = 1 from rfl, show (exEv 2).tags.length = 1 from rfl]
      omega

/-- The same request as a batch of its own, the queue being empty; two such requests in a batch are granted twice as much. -/
example : ∃ (d : PDb) (w : PW) (b : Batch PW), (pageBackend exConf).begin d = .ok w ∧
    stepJob (pageBackend exConf) exConstEnv (Batch.new w) ⟨7, exReq, noCancel⟩ = .ok b ∧
    drain (pageBackend exConf) exConstEnv 1000 5 [] b = .ok (b, []) ∧ b.responders = [7] ∧
    b.w.wr.dirty.length ≤ batchRoom (Nat.log2 b.w.wr.nextPage) exConf.g.pageSize [⟨7, exReq, noCancel⟩] ∧
    ∀ L, batchRoom L exConf.g.pageSize [⟨7, exReq, noCancel⟩, ⟨8, exReq, noCancel⟩] =
      2 * batchRoom L exConf.g.pageSize [⟨7, exReq, noCancel⟩] := by
  obtain ⟨d, d', hd, -, happ, -⟩ := exStored
  unfold Db.append at happ
  rw [if_neg (by simp [exReq])] at happ
  cases hw : (pageBackend exConf).begin d with
  | error e => rw [hw] at happ; cases happ
  | ok w =>
    rw [hw] at happ
    simp only at happ
    rcases hp : processAppend (pageBackend exConf) exConstEnv exReq noCancel w with ⟨e | p, w'⟩
    · rw [show (fun _ => Cancel.never) = noCancel from rfl, hp] at happ; cases happ
    · have hs : stepJob (pageBackend exConf) exConstEnv (Batch.new w) ⟨7, exReq, noCancel⟩ =
          .ok ⟨w', [7], [.ok p], none, 0 + exReq.events.length⟩ := by
        unfold stepJob
        simp only [Batch.new, hp]
        rfl
      have hdr : drain (pageBackend exConf) exConstEnv 1000 5 [] ⟨w', [7], [.ok p], none, 0 + exReq.events.length⟩ =
          .ok (⟨w', [7], [.ok p], none, 0 + exReq.events.length⟩, []) := rfl
      obtain ⟨ks, h, h1, -, -, h3, -⟩ := C88_batch (⟨fun l => List.Perm.refl l⟩ : EnvOk exConstEnv) exConf_ok exConstEnv_width hd hw (by
        intro k hk
        simp only [appendJobs, List.mem_singleton] at hk
        subst hk
        intro _ h; simp only [exReq, Option.mem_def, Option.some.injEq] at h; subst h; simp) hs hdr
      have hk : ks = [] := by
        cases ks with
        | nil => rfl
        | cons => cases h1
      subst hk
      refine ⟨d, w, _, hw, hs, hdr, rfl, h3, fun L => ?_⟩
      simp only [batchRoom, List.map_cons, List.map_nil, List.sum_cons, List.sum_nil]
      omega

end Examples

end Uma.Props
