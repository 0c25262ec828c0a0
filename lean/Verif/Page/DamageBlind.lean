import Verif.Page.DamageCommit

/-!
# A transaction that never needs the missing page

The root page of the tag index cannot be read.  Starting a transaction, appending events and settling the free list do not
read it, and succeed.
-/

namespace Uma.Page
open Uma.Codec Uma.Mvcc Uma.Spec Uma.Db

/-- The events and the free list are as they should be; the pages `z` belong to neither, nor to anything that is read. -/
def Spare (kw ps : Nat) (hps : 1024 ≤ ps) (w : Writer) (z : List Nat) : Prop :=
  ∃ Old A Q PF Rest K, Tr (evLayout kw ps hps) K ∧ w.eventsRoot = K.id ∧ FreeInv kw ps hps Old A (K.pg + Q) w PF Rest z

variable {kw ps : Nat} {hps : 1024 ≤ ps} {w : Writer} {z : List Nat}

theorem Spare.issue (h : Spare kw ps hps w z) : Spare kw ps hps (issuePosition w).2 z := by
  obtain ⟨Old, A, Q, PF, Rest, K, hK, hr, I⟩ := h
  have o := I.own
  obtain ⟨es, h1, h2, h3⟩ := I.rep
  exact ⟨Old, A, Q, PF, Rest, K, hK, hr, ⟨es, h1, fun e he => ⟨(h2 e he).cur, (h2 e he).old⟩, h3⟩,
    ⟨o.1, o.2, o.3, o.4, o.5, o.6, o.7, o.8, o.9, o.10⟩, I.nodup, I.le, I.old, I.older, I.wkw, I.wps⟩

theorem Spare.eventAppend (h : Spare kw ps hps w z) {r : Record} {v : (EventValue × Nat) × Option (EventValue × Nat)}
    (hv : validateEvent ps r = .ok v) (pos : Nat) : Run (evAppend v pos) w fun _ w' => Spare kw ps hps w' z := by
  obtain ⟨Old, A, Q, PF, Rest, K, hK, hr, I⟩ := h
  refine (evAppend_spec hK hr I.wkw I.wps pos hv (Q := PF + Q) (I.own.congr (by abel))).mono ?_
  rintro _ w' ⟨K', hK', hroot', -, hown, hk, -⟩
  exact ⟨Old, A, Q, PF, Rest, K', hK', hroot',
    I.keep hk.toKeep0 (Multiset.le_add_right _ _) (hown.congr (by abel)) rfl rfl rfl rfl rfl rfl rfl rfl⟩

theorem Spare.settles (h : Spare kw ps hps w z) {ord : Writer → List Nat} (hord : ∀ w, (ord w).Perm w.freed) :
    ∃ w', processFreed ord w = (.ok (), w') := by
  obtain ⟨_, _, _, _, _, _, _, _, I⟩ := h
  obtain ⟨u, w', h1, -⟩ := processFreed_spec hord I
  exact ⟨w', h1⟩

variable {c : Conf} {hc : ConfOk c kw} {H : String → Db.TagHash} {d : PDb} {hp : HPage} {h : Header}
  {PE PT PK PF : Multiset (Nat × Node)} {ix : Nat → List Nat} {F : Multiset (Nat × Nat)} {s : Spec.Db}

/-- `Mvcc::writer` on a database without the page `r` of the tag index. -/
theorem LiveAt.beginBlind (L : LiveAt c hc H d hp h PE PT PK PF ix F s) {r : Nat} {n : Node} {PT0 : Multiset (Nat × Node)}
    (hPT : PT = {(r, n)} + PT0) {b : Nat → Option Node} (hb : Sees b (PF + (PE + PT0 + PK))) (hr : b r = none) :
    ∃ w, findReusable d.oldest { newWriter c d h with base := b } = (.ok (), w) ∧ Spare kw c.g.pageSize hc.ps w [r] ∧
      w.view r = none ∧ w.tagsRoot = h.tagsRoot := by
  obtain ⟨w0, hw0⟩ : ∃ w0 : Writer, w0 = { newWriter c d h with base := b } := ⟨_, rfl⟩
  rw [← hw0]
  have hsub : ∀ p ∈ ids (PF + (PE + PT0 + PK)), p ∈ ids (PF + (PE + PT + PK)) := by
    intro p hp
    subst hPT
    simp only [ids_add, Multiset.mem_add] at hp ⊢
    tauto
  have hown : Own w0 (May h F d.oldest) (F.map (·.1) + {r}) (PF + (PE + PT0 + PK)) := by
    rw [hw0]
    refine ⟨hb, ?_, L.limit, by simp [newWriter, Pages.ids], by simp [newWriter, Pages.ids], by simp [newWriter],
      by simp [newWriter, Pages.ids], by simp [newWriter], fun p hp => .inl hp, fun p hp => .inr (L.not_may (hsub p hp))⟩
    have := L.account
    rw [hPT] at this
    simp only [newWriter, List.map_nil, Multiset.coe_nil, add_zero]
    rw [← this]
    simp only [ids_add]
    have e : ids {(r, n)} = {r} := rfl
    rw [e]
    abel
  obtain ⟨es, hes, hF⟩ := L.free
  have hrep : FreeRep kw c.g.pageSize hc.ps (fun _ => False) w0 PF F := by
    rw [hw0]
    refine ⟨es, hes, fun e he => ⟨fun ht => ?_, fun hf => hf.elim⟩, hF⟩
    exfalso
    obtain ⟨p, hp⟩ := List.exists_mem_of_ne_nil _ (hes.ne_nil e he)
    have := L.freeLe (p, e.tsn) (by rw [hF]; exact mem_freeSet.mpr ⟨e, he, rfl, hp⟩)
    simp only [newWriter] at ht
    omega
  obtain ⟨u, w, hrun, l, hl, hreused, hreus, hkeep, hrep', hown'⟩ := findReusable_beside (small := d.oldest) hrep
    (by rw [hw0]; exact ⟨rfl, rfl⟩) (fun x hx ho => .inr ⟨x.2, hx, ho⟩) hown
  have hq : ((w.reused ++ w.reusable : List (Nat × Nat)) : Multiset (Nat × Nat)) = F.filter fun x => oldEnough d.oldest x.2 = true := by
    rw [hreused, hreus, List.nil_append, ← hl]
    exact Multiset.coe_eq_coe.mpr (optimize_perm l)
  have hsplit : ((w.reused ++ w.reusable : List (Nat × Nat)) : Multiset (Nat × Nat)) +
      (F.filter fun x => ¬ oldEnough d.oldest x.2 = true) = F := by
    rw [hq]; exact Multiset.filter_add_not _ _
  have htsn : w.tsn = h.tsn + 1 := by rw [hkeep.step.tsn, hw0]; rfl
  have hkw : w0.kw = kw := by rw [hw0]; exact L.width
  have hwps : w0.pageSize = c.g.pageSize := by rw [hw0]; rfl
  obtain ⟨K, hK, e1, e2, -⟩ := L.trees.events
  refine ⟨w, hrun, ⟨fun t => oldEnough d.oldest t = true ∧ t < h.tsn + 1, May h F d.oldest, PT0 + PK, PF,
    F.filter fun x => ¬ oldEnough d.oldest x.2 = true, K, hK, ?_, ?_, ?_, ?_, ?_, ?_, ?_, hkeep.step.kw.trans hkw, hkeep.step.pageSize.trans hwps⟩, ?_, ?_⟩
  · rw [show w.eventsRoot = h.eventsRoot by rw [hkeep.step.eventsRoot, hw0]; rfl, e1]
  · rw [hsplit]
    obtain ⟨es, h1, h2, h3⟩ := hrep'
    exact ⟨es, h1, fun e he => ⟨(h2 e he).cur, fun ho => (h2 e he).old ho.1⟩, h3⟩
  · rw [← e2]
    exact hown'.congr (by abel)
  · rw [hsplit]
    exact Multiset.Nodup.of_map _ (Multiset.nodup_add.mp L.nodup).2.1
  · intro x hx
    have := L.freeLe x (Multiset.mem_filter.mp hx).1
    omega
  · intro x hx
    have hx : x ∈ F.filter fun x => oldEnough d.oldest x.2 = true := by rw [← hq]; exact Multiset.mem_coe.mpr hx
    obtain ⟨h1, h2⟩ := Multiset.mem_filter.mp hx
    have := L.freeLe x h1
    exact ⟨h2, by omega⟩
  · intro t ht; rw [htsn]; exact ht.2
  · have hnd : r ∉ ids (PF + (PE + PT0 + PK)) := by
      intro hin
      have := L.account ▸ bodyIds_nodup h.nextPage
      rw [hPT] at this
      have this := (Multiset.nodup_add.mp this).1
      simp only [ids_add] at this hin
      have e : ids {(r, n)} = {r} := rfl
      rw [e, show ids PF + (ids PE + ({r} + ids PT0) + ids PK) = {r} + (ids PF + (ids PE + ids PT0 + ids PK)) by abel] at this
      exact Multiset.disjoint_left.mp (Multiset.nodup_add.mp this).2.2 (Multiset.mem_singleton_self r) hin
    unfold Writer.view
    have hd : w.dirty.get r = none := by
      cases hg : w.dirty.get r with
      | none => rfl
      | some m => exact absurd (hown'.dirtyIn r (Pages.mem_ids.mpr ⟨m, hg⟩)) hnd
    rw [hd]
    show w.base r = none
    rw [hkeep.step.base, hw0]
    exact hr
  · rw [hkeep.step.tagsRoot, hw0]; rfl

/-! ## Appending events without tags -/

/-- On the damaged database events without tags are stored as on the undamaged one. -/
theorem appendValues_lock (H : String → Db.TagHash) : ∀ (vs : List (Record × ((EventValue × Nat) × Option (EventValue × Nat))))
    (last : Nat) (w' w : PW), Shadow c w' w → Spare kw c.g.pageSize hc.ps w'.wr z → (∀ x ∈ vs, x.1.event.tags = []) →
    (∀ x ∈ vs, validateEvent c.g.pageSize x.1 = .ok x.2) →
    (appendValues (pageBackend c) H vs last w').1 = (appendValues (pageBackend c) H vs last w).1 ∧
      Shadow c (appendValues (pageBackend c) H vs last w').2 (appendValues (pageBackend c) H vs last w).2 ∧
      Spare kw c.g.pageSize hc.ps (appendValues (pageBackend c) H vs last w').2.wr z
  | [], _, _, _, hs, hsp, _, _ => ⟨rfl, hs, hsp⟩
  | (r, v) :: vs, last, w', w, hs, hsp, ht, hv => by
    have e : ∀ w : PW, appendValues (pageBackend c) H ((r, v) :: vs) last w =
        match PW.run (evAppend v w.wr.nextPos) { w with wr := (issuePosition w.wr).2 } with
        | (.error e, w3) => (.error e, w3)
        | (.ok _, w3) => appendValues (pageBackend c) H vs w.wr.nextPos w3 := by
      intro w
      rw [appendValues, show r.event.tags = [] from ht (r, v) List.mem_cons_self]
      rw [show (pageBackend c).issue w = (w.wr.nextPos, { w with wr := (issuePosition w.wr).2 }) from rfl]
      simp only [insertTags]
      rw [show ∀ p w, (pageBackend c).eventAppend r v p w = PW.run (evAppend v p) w from fun _ _ => rfl]
      generalize PW.run (evAppend v w.wr.nextPos) _ = x
      obtain ⟨x1 | x1, x2⟩ := x <;> rfl
    have hs1 : Shadow c { w' with wr := (issuePosition w'.wr).2 } { w with wr := (issuePosition w.wr).2 } := by
      refine ⟨hs.db, hs.hp, ?_, hs.base⟩
      show (issuePosition w.wr).2 = _
      rw [hs.wr]; rfl
    have hn : w'.wr.nextPos = w.wr.nextPos := by rw [hs.wr]; rfl
    obtain ⟨u, w1, h1, hsp1⟩ := hsp.issue.eventAppend (hv (r, v) List.mem_cons_self) w.wr.nextPos
    have h1' : PW.run (evAppend v w.wr.nextPos) { w' with wr := (issuePosition w'.wr).2 } = (.ok u, { w' with wr := w1 }) := by
      unfold PW.run; simp only [h1]
    rw [e w', e w, hn, h1']
    rcases hs1.run (m := evAppend v w.wr.nextPos) (fun hb => Tame.evAppend hb _ _) with ⟨h3, h4⟩ | ⟨e, h3, -⟩
    · rw [h1'] at h3 h4
      generalize PW.run (evAppend v w.wr.nextPos) { w with wr := (issuePosition w.wr).2 } = x at h3 h4 ⊢
      obtain ⟨x1, x2⟩ := x
      simp only at h3 h4
      subst h3
      exact appendValues_lock H vs _ _ _ h4 hsp1 (fun x hx => ht x (List.mem_cons_of_mem _ hx))
        (fun x hx => hv x (List.mem_cons_of_mem _ hx))
    · rw [h1'] at h3; cases h3

theorem validateAll_mem : ∀ {rs : List Record} {vs : List (Record × ((EventValue × Nat) × Option (EventValue × Nat)))},
    validateAll (pageBackend c) rs = .ok vs → ∀ x ∈ vs, x.1 ∈ rs ∧ validateEvent c.g.pageSize x.1 = .ok x.2
  | [], vs, h => by cases h; simp
  | r :: rs, vs, h => by
    unfold validateAll at h
    split at h
    · cases h
    next v hv =>
    split at h
    · cases h
    next vs' hvs =>
    cases h
    intro x hx
    rcases List.mem_cons.mp hx with rfl | hx
    · exact ⟨List.mem_cons_self, hv⟩
    · obtain ⟨h1, h2⟩ := validateAll_mem hvs x hx
      exact ⟨List.mem_cons_of_mem _ h1, h2⟩

end Uma.Page
