import Verif.Page.Reuse

/-!
# Bringing the free list up to date (umadb-core/src/mvcc.rs 1335-1368)

Before a transaction is committed the pages it took from the free list are removed from it and the pages it freed are
put in.  Doing so changes pages of the free list, which takes and frees more pages, so this goes on until nothing is left.
-/

namespace Uma.Page
open Uma.Codec

/-- `n` turns of `while c { b? }`; `none`: not finished. -/
def loopN (c : Writer → Bool) (b : W Unit) : Nat → Writer → Option (Except Err Unit × Writer)
  | 0, _ => none
  | n + 1, w =>
    if c w then
      match b w with
      | (.ok _, w') => loopN c b n w'
      | (.error e, w') => some (.error e, w')
    else some (.ok (), w)

open Classical in
/-- A loop `while c { b? }`; one that never ends is modelled as an error. -/
noncomputable def whileW (c : Writer → Bool) (b : W Unit) : W Unit := fun w =>
  if h : ∃ n r, loopN c b n w = some r then h.choose_spec.choose else (.error (.internal "does not end"), w)

/-- mvcc.rs 1343-1346: every removal takes one entry from `reused`, `reusable` together, so the fuel suffices. -/
def removeAll : Nat → W Unit
  | 0 => fail (.internal "out of fuel")
  | n + 1 => do
    let w ← getW
    match w.reused with
    | [] => pure ()
    | (p, t) :: r => do
      modW fun w => { w with reused := r }
      freeRemove t p
      removeAll n

/-- mvcc.rs 1353-1365. -/
def insertAll : List Nat → W Unit
  | [] => pure ()
  | p :: l => do
    modW fun w => { w with dirty := w.dirty.del p }
    let w ← getW
    freeInsert w.tsn p
    insertAll l

def unsettled (w : Writer) : Bool := !w.reused.isEmpty || !w.freed.isEmpty

/-- One turn, mvcc.rs 1342-1365; `ord` is the order in which the set of freed pages is iterated. -/
def processOnce (ord : Writer → List Nat) : W Unit := do
  let w ← getW
  removeAll (w.reused.length + w.reusable.length + 1)
  let w ← getW
  modW fun w => { w with freed := [] }
  insertAll (ord w)

/-- `process_freed_page_ids`, mvcc.rs 1335-1368. -/
noncomputable def processFreed (ord : Writer → List Nat) : W Unit := whileW unsettled (processOnce ord)

/-! ## Loops -/

theorem loopN_unique {c : Writer → Bool} {b : W Unit} : ∀ {n m : Nat} {w : Writer} {r s : Except Err Unit × Writer},
    loopN c b n w = some r → loopN c b m w = some s → r = s
  | 0, _, _, _, _, h, _ => by cases h
  | _ + 1, 0, _, _, _, _, h => by cases h
  | n + 1, m + 1, w, r, s, h, k => by
    simp only [loopN] at h k
    split at h
    · next hc =>
      rw [if_pos hc] at k
      split at h
      · next hb => rw [hb] at k; exact loopN_unique h k
      · next hb => rw [hb] at k; cases h; cases k; rfl
    · next hc => rw [if_neg hc] at k; cases h; cases k; rfl

theorem whileW_eq {c : Writer → Bool} {b : W Unit} {n : Nat} {w : Writer} {r : Except Err Unit × Writer}
    (h : loopN c b n w = some r) : whileW c b w = r := by
  have hex : ∃ n r, loopN c b n w = some r := ⟨n, r, h⟩
  unfold whileW
  rw [dif_pos hex]
  exact loopN_unique hex.choose_spec.choose_spec h

/-! ## Correctness -/

/-- What stays the same. -/
structure Same (w w' : Writer) : Prop where
  base : w'.base = w.base
  kw : w'.kw = w.kw
  pageSize : w'.pageSize = w.pageSize
  tsn : w'.tsn = w.tsn
  eventsRoot : w'.eventsRoot = w.eventsRoot
  tagsRoot : w'.tagsRoot = w.tagsRoot
  trackRoot : w'.trackRoot = w.trackRoot
  nextPos : w'.nextPos = w.nextPos
  grows : w.nextPage ≤ w'.nextPage

theorem Same.refl (w : Writer) : Same w w := ⟨rfl, rfl, rfl, rfl, rfl, rfl, rfl, rfl, Nat.le_refl _⟩

theorem Same.trans {a b c : Writer} (h : Same a b) (k : Same b c) : Same a c :=
  ⟨k.1.trans h.1, k.2.trans h.2, k.3.trans h.3, k.4.trans h.4, k.5.trans h.5, k.6.trans h.6, k.7.trans h.7,
    k.8.trans h.8, Nat.le_trans h.9 k.9⟩

theorem Step.same {w w' : Writer} {r : Nat} (h : Step w { w' with freeRoot := r }) : Same w w' :=
  ⟨h.1, h.2, h.3, h.4, h.6, h.7, h.8, h.9, h.11⟩

variable {kw ps : Nat} {hps : 1024 ≤ ps} {Old : Nat → Prop} {A : Nat → Prop} {Q : Multiset (Nat × Node)}

/-- The free list holds `F`: what is or may be taken by the transaction, and `Rest`.  The pages `l` are being put in,
or left alone. -/
structure FreeInv (kw ps : Nat) (hps : 1024 ≤ ps) (Old : Nat → Prop) (A : Nat → Prop) (Q : Multiset (Nat × Node)) (w : Writer)
    (P : Multiset (Nat × Node)) (Rest : Multiset (Nat × Nat)) (l : List Nat) : Prop where
  rep : FreeRep kw ps hps Old w P ((w.reused ++ w.reusable : List (Nat × Nat)) + Rest)
  own : Own w A (Rest.map (·.1) + (l : Multiset Nat)) (P + Q)
  nodup : (((w.reused ++ w.reusable : List (Nat × Nat)) : Multiset (Nat × Nat)) + Rest).Nodup
  le : ∀ x ∈ Rest, x.2 ≤ w.tsn
  old : ∀ x ∈ w.reused ++ w.reusable, Old x.2
  older : ∀ t, Old t → t < w.tsn
  wkw : w.kw = kw
  wps : w.pageSize = ps

theorem removeAll_spec : ∀ (n : Nat) {w : Writer} {P : Multiset (Nat × Node)} {Rest : Multiset (Nat × Nat)} {z : List Nat},
    w.reused.length + w.reusable.length < n → FreeInv kw ps hps Old A Q w P Rest z →
    Run (removeAll n) w fun _ w' => ∃ P', FreeInv kw ps hps Old A Q w' P' Rest z ∧ w'.reused = [] ∧ Same w w' ∧
      (w.reused ≠ [] → w'.reusable.length < w.reused.length + w.reusable.length) ∧ (w.reused = [] → w' = w ∧ P' = P) ∧
      ∃ used, w.reused ++ w.reusable = used ++ w'.reusable
  | 0, w, _, _, _, hn, _ => by omega
  | n + 1, w, P, Rest, z, hn, h => by
    unfold removeAll
    refine .get ?_
    cases hr : w.reused with
    | nil => exact .pure ⟨P, h, hr, .refl _, fun hne => absurd rfl hne, fun _ => ⟨rfl, rfl⟩, [], rfl⟩
    | cons x r =>
      obtain ⟨p, t⟩ := x
      refine .andThen (Q := fun _ w' => w' = { w with reused := r }) (.modW rfl) ?_
      rintro _ w1 hw1
      have hin : (p, t) ∈ ((w.reused ++ w.reusable : List (Nat × Nat)) : Multiset (Nat × Nat)) + Rest := by simp [hr]
      have hot : Old t := h.old (p, t) (by simp [hr])
      have hrep : FreeRep kw ps hps Old w1 P ((w.reused ++ w.reusable : List (Nat × Nat)) + Rest) := by
        rw [hw1]
        obtain ⟨es, h1, h2, h3⟩ := h.rep
        exact ⟨es, h1, fun e he => ⟨(h2 e he).cur, (h2 e he).old⟩, h3⟩
      have hown : Own w1 A (Rest.map (·.1) + (z : Multiset Nat)) (P + Q) := by
        rw [hw1]; have := h.own; exact ⟨this.1, this.2, this.3, this.4, this.5, this.6, this.7, this.8, this.9, this.10⟩
      have ht1 : w1.tsn = w.tsn := by rw [hw1]
      have hne : t ≠ w1.tsn := by rw [ht1]; exact Nat.ne_of_lt (h.older t hot)
      refine (freeRemove_spec hrep hin hot hne hown).andThen ?_
      rintro _ w2 ⟨P2, hr2, ho2, k2⟩
      have hq : w2.reused ++ w2.reusable = r ++ w.reusable := by
        have := k2.step.queue
        rw [hw1] at this; exact this
      have hs2 : Same w w2 := by
        have : Same w1 w2 := k2.step.same
        rw [hw1] at this
        exact ⟨this.1, this.2, this.3, this.4, this.5, this.6, this.7, this.8, this.9⟩
      have herase : (((w.reused ++ w.reusable : List (Nat × Nat)) : Multiset (Nat × Nat)) + Rest).erase (p, t) =
          ((w2.reused ++ w2.reusable : List (Nat × Nat)) : Multiset (Nat × Nat)) + Rest := by
        rw [hq, hr, List.cons_append, ← Multiset.cons_coe, Multiset.cons_add, Multiset.erase_cons_head]
      have hlen : w2.reused.length + w2.reusable.length = r.length + w.reusable.length := by
        have := congrArg List.length hq
        simpa using this
      have hinv : FreeInv kw ps hps Old A Q w2 P2 Rest z := by
        refine ⟨herase ▸ hr2, ho2, herase ▸ h.nodup.erase _, ?_, ?_, ?_, ?_, ?_⟩
        · rw [hs2.tsn]; exact h.le
        · rw [hq]; intro x hx; refine h.old x ?_
          rw [hr, List.cons_append]; exact List.mem_cons_of_mem _ hx
        · rw [hs2.tsn]; exact h.older
        · rw [hs2.kw]; exact h.wkw
        · rw [hs2.pageSize]; exact h.wps
      rw [hr, List.length_cons] at hn
      refine (removeAll_spec n (by omega) hinv).mono ?_
      rintro _ w3 ⟨P3, h3, hr3, hs3, hlt, heq, used, hused⟩
      refine ⟨P3, h3, hr3, hs2.trans hs3, fun _ => ?_, fun e => by (cases e), (p, t) :: used, ?_⟩
      rotate_left
      · rw [hq] at hused
        rw [List.cons_append, hused, List.cons_append]
      rw [List.length_cons]
      by_cases he : w2.reused = []
      · rw [(heq he).1]
        have : w2.reused.length = 0 := by rw [he]; rfl
        omega
      · have := hlt he
        omega

theorem insertAll_spec : ∀ (l : List Nat) {w : Writer} {P : Multiset (Nat × Node)} {Rest : Multiset (Nat × Nat)} {z : List Nat},
    FreeInv kw ps hps Old A Q w P Rest (l ++ z) →
    Run (insertAll l) w fun _ w' => ∃ P', FreeInv kw ps hps Old A Q w' P' (((l.map fun p => (p, w.tsn) : List (Nat × Nat)) : Multiset (Nat × Nat)) + Rest) z ∧
      Same w w' ∧ w'.reused ++ w'.reusable = w.reused ++ w.reusable ∧
      w'.nextPage + w.reusable.length + w.dirty.length = w.nextPage + w'.reusable.length + w'.dirty.length
  | [], w, P, Rest, z, h => .pure ⟨P, by simpa using h, .refl _, rfl, rfl⟩
  | p :: l, w, P, Rest, z, h => by
    unfold insertAll
    have hnd := h.own.nodup
    have hpX : p ∉ ids (P + Q) ∧ p ∉ Rest.map (·.1) := by
      constructor
      · intro hp
        rw [add_assoc, add_assoc] at hnd
        exact Multiset.disjoint_left.mp (Multiset.nodup_add.mp hnd).2.2 hp (by simp)
      · intro hp
        exact Multiset.disjoint_left.mp (Multiset.nodup_add.mp (Multiset.nodup_add.mp hnd).2.1).2.2 hp (by simp)
    have hdel : w.dirty.del p = w.dirty := by
      unfold Pages.del
      rw [List.filter_eq_self]
      intro x hx
      rw [bne_iff_ne]
      rintro rfl
      exact hpX.1 (h.own.dirtyIn x.1 (List.mem_map.mpr ⟨x, hx, rfl⟩))
    refine .andThen (Q := fun _ w' => w' = w) (.modW (by rw [hdel])) ?_
    rintro _ w1 hw1
    rw [hw1]
    refine .get ?_
    have hnew : (p, w.tsn) ∉ ((w.reused ++ w.reusable : List (Nat × Nat)) : Multiset (Nat × Nat)) + Rest := by
      intro hp
      rcases Multiset.mem_add.mp hp with hp | hp
      · exact Nat.lt_irrefl _ (h.older _ (h.old _ (Multiset.mem_coe.mp hp)))
      · exact hpX.2 (Multiset.mem_map.mpr ⟨_, hp, rfl⟩)
    have hle : ∀ x ∈ ((w.reused ++ w.reusable : List (Nat × Nat)) : Multiset (Nat × Nat)) + Rest, x.2 ≤ w.tsn := by
      intro x hx
      rcases Multiset.mem_add.mp hx with hx | hx
      · exact Nat.le_of_lt (h.older _ (h.old _ (Multiset.mem_coe.mp hx)))
      · exact h.le x hx
    refine (freeInsert_spec h.rep h.wkw h.wps hnew h.nodup hle h.own).andThen ?_
    rintro _ w2 ⟨P2, hr2, ho2, k2⟩
    have hs2 : Same w w2 := k2.step.same
    have hq : w2.reused ++ w2.reusable = w.reused ++ w.reusable := k2.step.queue
    have hinv : FreeInv kw ps hps Old A Q w2 P2 ((p, w.tsn) ::ₘ Rest) (l ++ z) := by
      have e : (p, w.tsn) ::ₘ (((w.reused ++ w.reusable : List (Nat × Nat)) : Multiset (Nat × Nat)) + Rest) =
          ((w2.reused ++ w2.reusable : List (Nat × Nat)) : Multiset (Nat × Nat)) + (p, w.tsn) ::ₘ Rest := by
        rw [hq, Multiset.add_cons]
      refine ⟨e ▸ hr2, ?_, e ▸ Multiset.nodup_cons.mpr ⟨hnew, h.nodup⟩, ?_, ?_, ?_, ?_, ?_⟩
      · have hX : ((p, w.tsn) ::ₘ Rest).map (·.1) + ((l ++ z : List Nat) : Multiset Nat) =
            Rest.map (·.1) + ((p :: l ++ z : List Nat) : Multiset Nat) := by
          rw [List.cons_append, Multiset.map_cons, ← Multiset.cons_coe, Multiset.cons_add, Multiset.add_cons]
        rw [hX]; exact ho2
      · rw [hs2.tsn]; intro x hx
        rcases Multiset.mem_cons.mp hx with rfl | hx
        · exact Nat.le_refl _
        · exact h.le x hx
      · rw [hq]; exact h.old
      · rw [hs2.tsn]; exact h.older
      · rw [hs2.kw]; exact h.wkw
      · rw [hs2.pageSize]; exact h.wps
    refine (insertAll_spec l hinv).mono ?_
    rintro _ w3 ⟨P3, h3, hs3, hq3, ht3⟩
    refine ⟨P3, ?_, hs2.trans hs3, hq3.trans hq, ?_⟩
    · rw [hs2.tsn] at h3
      have e : ((((p :: l).map fun p => (p, w.tsn)) : List (Nat × Nat)) : Multiset (Nat × Nat)) + Rest =
          ((l.map fun p => (p, w.tsn) : List (Nat × Nat)) : Multiset (Nat × Nat)) + (p, w.tsn) ::ₘ Rest := by
        rw [List.map_cons, ← Multiset.cons_coe, Multiset.cons_add, Multiset.add_cons]
      rw [e]; exact h3
    · have ht2 : w2.nextPage + w.reusable.length + w.dirty.length = w.nextPage + w2.reusable.length + w2.dirty.length := k2.tight
      omega

/-- The outcome: nothing is left to do, and only pages freed by this transaction were added. -/
structure Settled (kw ps : Nat) (hps : 1024 ≤ ps) (Old : Nat → Prop) (A : Nat → Prop) (Q : Multiset (Nat × Node)) (w : Writer)
    (Rest : Multiset (Nat × Nat)) (w' : Writer) (P' : Multiset (Nat × Node)) (N : Multiset Nat) (z : List Nat) : Prop where
  inv : FreeInv kw ps hps Old A Q w' P' (N.map (fun p => (p, w.tsn)) + Rest) z
  reused : w'.reused = []
  freed : w'.freed = []
  same : Same w w'
  suffix : ∃ used, w.reused ++ w.reusable = used ++ w'.reusable

theorem Own.dirty_le {w : Writer} {X : Multiset Nat} {P : Multiset (Nat × Node)} (h : Own w A X P) : w.dirty.length ≤ P.card := by
  have h1 : (w.dirty.ids : Multiset Nat) ≤ ids P :=
    (Multiset.le_iff_subset (Multiset.coe_nodup.mpr h.dirtyNodup)).mpr fun p hp => h.dirtyIn p (Multiset.mem_coe.mp hp)
  have := Multiset.card_le_card h1
  simpa [Pages.ids] using this

/-- The loop ends. -/
theorem process_loop {ord : Writer → List Nat} (hord : ∀ w, (ord w).Perm w.freed) : ∀ (n M : Nat) {w : Writer}
    {P : Multiset (Nat × Node)} {Rest : Multiset (Nat × Nat)} {z : List Nat}, FreeInv kw ps hps Old A Q w P Rest z →
    w.reused.length + w.reusable.length = n → P.card + Q.card + w.freed.length = M + w.dirty.length →
    ∃ k w' P' N, loopN unsettled (processOnce ord) k w = some (.ok (), w') ∧ Settled kw ps hps Old A Q w Rest w' P' N z := by
  intro n
  induction n using Nat.strong_induction_on with
  | _ n ihn =>
  intro M
  induction M using Nat.strong_induction_on with
  | _ M ihM =>
  intro w P Rest z h hn hM
  by_cases hc : unsettled w = true
  · obtain ⟨_, w1, e1, P1, h1, hr1, hs1, hlt, heq, used, hused⟩ :=
      removeAll_spec (w.reused.length + w.reusable.length + 1) (Nat.lt_succ_self _) h
    have hp := hord w1
    have h1' : FreeInv kw ps hps Old A Q { w1 with freed := [] } P1 Rest (ord w1 ++ z) := by
      have ho := h1.own
      refine ⟨?_, ⟨ho.sees, ?_, ho.limit, ho.dirtyIn, ho.dirtyNodup, ho.cached, ho.mayDirty, ho.mayReuse, ho.mayNew, ho.clean⟩, h1.nodup, h1.le,
        h1.old, h1.older, h1.wkw, h1.wps⟩
      · obtain ⟨es, g1, g2, g3⟩ := h1.rep
        exact ⟨es, g1, fun e he => ⟨(g2 e he).cur, (g2 e he).old⟩, g3⟩
      · have := ho.account
        rw [← this, ← Multiset.coe_add, Multiset.coe_eq_coe.mpr hp]
        show ids (P1 + Q) + (([] : List Nat) : Multiset Nat) + _ + _ = _
        simp only [Multiset.coe_nil, add_zero]
        abel
    obtain ⟨_, w2, e2, P2, h2, hs2, hq2, ht2⟩ := insertAll_spec (ord w1) h1'
    have hs2 : Same w1 w2 := ⟨hs2.1, hs2.2, hs2.3, hs2.4, hs2.5, hs2.6, hs2.7, hs2.8, hs2.9⟩
    have hq2 : w2.reused ++ w2.reusable = w1.reused ++ w1.reusable := hq2
    have ht2 : w2.nextPage + w1.reusable.length + w1.dirty.length = w1.nextPage + w2.reusable.length + w2.dirty.length := ht2
    have h2 : FreeInv kw ps hps Old A Q w2 P2 (((ord w1).map fun p => (p, w1.tsn) : List (Nat × Nat)) + Rest) z := h2
    have hturn : processOnce ord w = (.ok (), w2) := by
      unfold processOnce
      show (removeAll (w.reused.length + w.reusable.length + 1) >>= _) w = _
      rw [run_bind e1]
      exact e2
    have hdl := h2.own.dirty_le
    rw [Multiset.card_add] at hdl
    have hlen : w2.reused.length + w2.reusable.length = w1.reusable.length := by
      have := congrArg List.length hq2
      rw [hr1] at this
      simpa using this
    have hrec : ∃ k w' P' N, loopN unsettled (processOnce ord) k w2 = some (.ok (), w') ∧
        Settled kw ps hps Old A Q w2 (((ord w1).map fun p => (p, w1.tsn) : List (Nat × Nat)) + Rest) w' P' N z := by
      by_cases hre : w.reused = []
      · obtain ⟨rfl, rfl⟩ := heq hre
        have hfr : w1.freed ≠ [] := by
          intro e; simp [unsettled, hre, e] at hc
        have hlf : (ord w1).length = w1.freed.length := hp.length_eq
        have hpos : 0 < w1.freed.length := List.length_pos_iff.mpr hfr
        have a1 := congrArg Multiset.card h.own.account
        have a2 := congrArg Multiset.card h2.own.account
        simp only [Multiset.card_add, card_ids, card_bodyIds, Multiset.coe_card, List.length_map, Multiset.card_map] at a1 a2
        have l1 := h.own.limit
        have l2 := h2.own.limit
        refine ihM (M - (ord w1).length) (by omega) h2 (by rw [hlen]; rw [hre] at hn; simpa using hn) (by omega)
      · have := hlt hre
        exact ihn (w2.reused.length + w2.reusable.length) (by omega) (P2.card + Q.card + w2.freed.length - w2.dirty.length) h2 rfl
          (by omega)
    obtain ⟨k, w', P', N, hk, hS⟩ := hrec
    have hs : Same w w2 := hs1.trans hs2
    refine ⟨k + 1, w', P', N + (ord w1 : Multiset Nat), ?_, ?_, hS.reused, hS.freed, hs.trans hS.same, ?_⟩
    · simp only [loopN]
      rw [if_pos hc, hturn]
      exact hk
    · have := hS.inv
      rw [hs.tsn, hs1.tsn, ← Multiset.map_coe, ← add_assoc, ← Multiset.map_add] at this
      exact this
    · obtain ⟨used', hu⟩ := hS.suffix
      rw [hq2, hr1, List.nil_append] at hu
      exact ⟨used ++ used', by rw [hused, hu, List.append_assoc]⟩
  · have : w.reused = [] ∧ w.freed = [] := by
      simpa [unsettled] using hc
    refine ⟨1, w, P, 0, ?_, ?_, this.1, this.2, .refl _, [], by simp [this.1]⟩
    · simp only [loopN]; rw [if_neg hc]
    · simpa using h

/-- `process_freed_page_ids` succeeds: afterwards exactly the pages that are not part of a tree are in the free list. -/
theorem processFreed_spec {ord : Writer → List Nat} (hord : ∀ w, (ord w).Perm w.freed) {w : Writer} {P : Multiset (Nat × Node)}
    {Rest : Multiset (Nat × Nat)} {z : List Nat} (h : FreeInv kw ps hps Old A Q w P Rest z) :
    Run (processFreed ord) w fun _ w' => ∃ P' N, Settled kw ps hps Old A Q w Rest w' P' N z := by
  have hd := h.own.dirty_le
  rw [Multiset.card_add] at hd
  obtain ⟨k, w', P', N, hk, hS⟩ := process_loop hord _ (P.card + Q.card + w.freed.length - w.dirty.length) h rfl (by omega)
  exact ⟨(), w', whileW_eq hk, P', N, hS⟩

section Examples

-- Page 10 was taken from the free list and page 30 was freed.  Removing 10 copies the path to 20 and 21 and frees 2 and 6;
-- inserting 30 then copies page 7 and frees it, so that a second turn is needed.
def unsettledSample : Writer := { freeDeep with reused := [(10, 3)], freed := [15], nextPage := 20 }

example : (processOnce (·.freed) unsettledSample).1 = .ok () ∧ (processOnce (·.freed) unsettledSample).2.freed = [7] ∧
    (processOnce (·.freed) unsettledSample).2.reused = [] := by decide +kernel
example : ((loopN unsettled (processOnce (·.freed)) 3 unsettledSample).map fun r => (r.2.freed, r.2.reused, r.2.nextPage)) =
    some ([], [], 23) := by decide +kernel
example : (loopN unsettled (processOnce (·.freed)) 2 unsettledSample).isNone = true := by decide +kernel

end Examples

end Uma.Page
