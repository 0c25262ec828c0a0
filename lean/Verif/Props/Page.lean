import Verif.Props.Crash
import Verif.Props.Sizes
import Verif.Page.Reach

/-!
# Page-level properties: C14, C15, C16, C19, C44

For databases made of pages in a file (`Verif/Page`).
-/

namespace Uma.Page
open Uma.Codec Uma.Mvcc Uma.Spec

variable {kw ps : Nat} {hps : 1024 ≤ ps} {v : Nat → Option Node}

/-- Looking up a position at which nothing is recorded. -/
theorem evLookup_absent {K : Kid Nat (Nat × Record)} (hK : Tr (evLayout kw ps hps) K)
    (hs : Sees v K.pg) {fuel : Nat} (hf : K.pg.card ≤ fuel) {pos : Nat} (h : ∀ r, (pos, r) ∉ ents K.sq) :
    evLookup v fuel K.id pos = .error (.databaseCorrupted "Event at position not found") := by
  obtain ⟨fs, k, n, hF, h1, h2, h3, h4⟩ := findLeaf_spec (Y := evLayout kw ps hps) (v := v)
    (pick := fun keys _ => ub keys pos) (fun keys kids _ => ub_le keys pos) hK fuel hf hs
  obtain ⟨es, hke, hes, _⟩ := hF.leaf
  have hpg : k.pg = {(k.id, evNode es)} + epg es := by rw [hke]; rfl
  have hsq : k.sq = (es.map EvEnt.pair).map .ent := by rw [hke]; rfl
  have hn : n = evNode es := by
    have := hs _ _ (Multiset.mem_of_le h4 (show (k.id, evNode es) ∈ k.pg by rw [hpg]; simp))
    rw [h3] at this; exact Option.some.inj this
  have hKsq : K.sq = zl fs ++ k.sq ++ zr fs := by rw [← hF.eq]; exact plug_sq _ _ _
  unfold evLookup
  rw [show findLeaf evOps (fun keys _ => ub keys pos) v fuel K.id = .ok n from h1, hn]
  simp only [evNode]
  cases hsi : searchIdx (es.map (·.pos)) pos with
  | error i => rfl
  | ok i =>
    obtain ⟨h6, -⟩ := searchIdx_ok hsi
    rw [List.getElem?_map] at h6
    obtain ⟨e', h7, h8⟩ := Option.map_eq_some_iff.mp h6
    refine absurd ?_ (h e'.rcd)
    refine mem_ents.mpr ?_
    rw [hKsq, hsq, List.mem_append, List.mem_append]
    exact .inl (.inr (List.mem_map.mpr ⟨(pos, e'.rcd), List.mem_map.mpr ⟨e', List.mem_of_getElem? h7, by rw [← h8]; rfl⟩, rfl⟩))

/-- What `listing` and `freeListing` say about the database, from the pages readers see. -/
def usedPages (c : Conf) (d : PDb) (h : Header) : List Nat := reachable (d.base c) h
def freePages (c : Conf) (d : PDb) (h : Header) : List (Nat × Nat) := freeListing (d.base c) h.nextPage h.freeRoot

section
variable {c : Conf} {kw : Nat} {H : String → Db.TagHash} {hc : ConfOk c kw} {d : PDb} {hp : HPage} {h : Header}
  {PE PT PK PF : Multiset (Nat × Codec.Node)} {ix : Nat → List Nat} {F : Multiset (Nat × Nat)} {s : Spec.Db}

theorem LiveAt.sees0 (L : LiveAt c hc H d hp h PE PT PK PF ix F s) : Sees0 (d.base c) (PF + (PE + PT + PK)) :=
  ⟨L.sees, fun p hp => by have := L.body hp; omega⟩

theorem LiveAt.free_eq (L : LiveAt c hc H d hp h PE PT PK PF ix F s) : (freePages c d h : Multiset (Nat × Nat)) = F := by
  obtain ⟨es, hes, rfl⟩ := L.free
  have hcard := L.card
  exact freeListing_spec hes (L.sees0.sub (Multiset.le_add_right _ _)) (by omega)

/-- Any view of the pages of the database leads to exactly these pages. -/
theorem LiveAt.reach_eq (L : LiveAt c hc H d hp h PE PT PK PF ix F s) {v : Nat → Option Codec.Node}
    (hv : Sees v (PF + (PE + PT + PK))) : (reachable v h : Multiset Nat) = ids (PF + (PE + PT + PK)) := by
  have hcard := L.card
  have hs : Sees0 v (PF + (PE + PT + PK)) := ⟨hv, L.sees0.2⟩
  have hPE : ((listing (v) h.nextPage h.eventsRoot : List _) : Multiset (Nat × Codec.Node)) = PE := by
    obtain ⟨K, hK, h1, h2, -⟩ := L.trees.events
    rw [h1, h2]
    rw [h2] at hcard
    exact events_at hK.tr (hs.sub (le_of_eq_add (PF + (PT + PK)) (by rw [h2]; abel))) _ (by omega)
  have hPT : ((listing (v) h.nextPage h.tagsRoot : List _) : Multiset (Nat × Codec.Node)) = PT := by
    obtain ⟨K, hK, h1, h2, -⟩ := L.trees.tags
    rw [h1, h2]
    rw [h2] at hcard
    exact tags_at hK.tr (hs.sub (le_of_eq_add (PF + (PE + PK)) (by rw [h2]; abel))) _ (by omega)
  have hPF : ((listing (v) h.nextPage h.freeRoot : List _) : Multiset (Nat × Codec.Node)) = PF := by
    obtain ⟨es, hes, -⟩ := L.free
    exact free_at hes (hs.sub (Multiset.le_add_right _ _)) _ (by omega)
  have hPK : (((if h.trackRoot = 0 then [] else [h.trackRoot]).flatMap (listing (v) h.nextPage) : List _) :
      Multiset (Nat × Codec.Node)) = PK := by
    rcases L.trees.track with ⟨h1, h2, -⟩ | ⟨K, hK, h1, h2, -⟩
    · rw [h1, h2]; rfl
    · obtain ⟨n, hn, -⟩ := hK.tr.root
      have h0 : h.trackRoot ≠ 0 := by
        rw [h1]
        exact hs.2 _ (by rw [h2]; simp only [ids_add, Multiset.mem_add]; exact .inr (.inr (mem_ids_of hn)))
      rw [if_neg h0, List.flatMap_singleton, h1, h2]
      rw [h2] at hcard
      exact track_at hK.tr (hs.sub (le_of_eq_add (PF + (PE + PT)) (by rw [h2]; abel))) _ (by omega)
  unfold reachable ids
  rw [← Multiset.map_coe]
  congr 1
  simp only [List.flatMap_cons]
  rw [← Multiset.coe_add, ← Multiset.coe_add, ← Multiset.coe_add, hPE, hPT, hPF, hPK]
  abel

theorem LiveAt.used_eq (L : LiveAt c hc H d hp h PE PT PK PF ix F s) :
    (usedPages c d h : Multiset Nat) = ids (PF + (PE + PT + PK)) := L.reach_eq L.sees

end

end Uma.Page

namespace Uma.Props
open Uma.Spec Uma.Db Uma.Page Uma.Mvcc

variable {c : Conf} {kw : Nat}

/-- `event_tree_lookup` at the events root of the newest header, events_tree.rs. -/
def lookup (c : Conf) (d : PDb) (pos : Nat) : Except Err Record := (d.snap c).lookup pos

/-- C16: looking up a recorded position yields the record there, any other position - 0 or beyond the end - an error. -/
theorem C16_lookup {env : Env} (hc : ConfOk c kw) (hH : ∀ t, Codec.NormalizedTo kw (env.H t)) {d : PDb} {s : Spec.Db}
    (hd : (pageLawful hc hH).RepD d s) (pos : Nat) :
    (∀ r, 1 ≤ pos → s.log[pos - 1]? = some r → lookup c d pos = .ok r) ∧
    (pos = 0 ∨ s.log.length < pos → lookup c d pos = .error (.databaseCorrupted "Event at position not found")) := by
  obtain ⟨hp, h, PE, PT, PK, PF, ix, F, L, S⟩ := hd
  refine ⟨fun r h1 h2 => L.refines.lookup pos r (mem_numberFrom.mpr ⟨h1, h2⟩), fun hpos => ?_⟩
  obtain ⟨K, hK, h1, h2, hq⟩ := L.trees.events
  unfold lookup PDb.snap
  rw [L.header_eq]
  show evLookup _ _ h.eventsRoot pos = _
  rw [h1]
  have hcard := L.card
  have hturns := turns_ge (c := c) (nextPos := h.nextPosition) (nextPage := h.nextPage)
  rw [h2] at hcard
  refine evLookup_absent hK.tr (L.sees.sub (le_of_eq_add (PF + (PT + PK)) (by rw [h2]; abel))) (by omega) fun r hr => ?_
  rw [hq.ents] at hr
  obtain ⟨k1, k2⟩ := mem_numberFrom.mp hr
  have := (List.getElem?_eq_some_iff.mp k2).1
  omega

open Classical in
/-- C15: `append` answers `Ok p` with `p` beyond the old end of the log, so the request was stored now and not before.
Whatever happens later - other appends, crashes - the event at the `i`-th new position, looked up or read, is the `i`-th
event of the request: type, data, tags, uuid, metadata, and the tracking info. -/
theorem C15_exact {env : Env} (he : EnvOk env) (hc : ConfOk c kw) (hH : ∀ t, Codec.NormalizedTo kw (env.H t)) {d d1 d2 : PDb}
    {s : Spec.Db} (hd : (pageLawful hc hH).RepD d s) {req : Request} (ha : AfterOk req) {io : Page.IO} {p : Nat}
    (hap : Db.append (pageBackend c) env req io d = (.ok p, d1)) (hnew : s.log.length < p) (hlater : Happens c env d1 d2)
    {i : Nat} {e : Event} (hi : req.events[i]? = some e) :
    p = s.log.length + req.events.length ∧
    lookup c d2 (s.log.length + 1 + i) = .ok ⟨e, req.tracking⟩ ∧
    ∃ xs, ReadsAll (pageBackend c) env d2 xs ∧ xs[s.log.length + i]? = some ⟨s.log.length + 1 + i, e, req.tracking⟩ := by
  have hne : req.events ≠ [] := by rintro h; rw [h] at hi; cases hi
  obtain ⟨h1, h2⟩ : Says (.ok p) (Spec.append (Accepted c.g.pageSize) s req).1 ∧
      Live c hc env.H d1 (Spec.append (Accepted c.g.pageSize) s req).2 := by
    rcases api_append_spec he (pageLawful hc hH) hd ha hne io with ⟨h1, h2⟩ | ⟨e, h1, -⟩
    · rw [hap] at h1 h2; exact ⟨h1, h2⟩
    · rw [hap] at h1; cases h1
  have hcase := append_case (valid := Accepted c.g.pageSize) s req
  obtain ⟨hp, hlog⟩ : p = s.log.length + req.events.length ∧
      (Spec.append (Accepted c.g.pageSize) s req).2.log = s.log ++ req.events.map fun e => ⟨e, req.tracking⟩ := by
    generalize Spec.append (Accepted c.g.pageSize) s req = x at hcase h1 h2
    cases hcase with
    | took _ _ _ =>
      simp only [Says, if_neg hne] at h1
      exact ⟨h1, rfl⟩
    | repeated cc _ _ _ =>
      simp only [Says] at h1
      have := repeatPosition_le s.log cc req.events
      omega
    | _ => simp [Says] at h1
  obtain ⟨s2, hd2, ⟨l, hl⟩, -⟩ := happens_grown he hc hH hlater h2
  have hget : s2.log[s.log.length + i]? = some ⟨e, req.tracking⟩ := by
    rw [← hl, hlog, List.append_assoc, List.getElem?_append_right (by omega), Nat.add_sub_cancel_left,
      List.getElem?_append_left (by
        have := (List.getElem?_eq_some_iff.mp hi).1
        simpa using this), List.getElem?_map, hi]
    rfl
  refine ⟨hp, ?_, _, readsAll he (pageLawful hc hH) hd2, ?_⟩
  · exact (C16_lookup hc hH hd2 _).1 _ (by omega) (by rw [show s.log.length + 1 + i - 1 = s.log.length + i by omega]; exact hget)
  · have hnum : ∀ (l : Log) n j, (numberFrom n l)[j]? = l[j]?.map fun r => (n + j, r) := by
      intro l
      induction l with
      | nil => intro n j; simp [numberFrom]
      | cons a l ih =>
        intro n j
        cases j with
        | zero => simp [numberFrom]
        | succ j => simp only [numberFrom, List.getElem?_cons_succ, ih]; congr 1; funext r; congr 1; omega
    simp only [sequenced, List.getElem?_map, hnum, hget, Option.map_some, toSeq]
    congr 2
    omega

/-- Page accounting: below the allocation limit every page is a header page, or reachable from the roots, or in the free
list - exactly one of these, reachable along one path only and recorded once only; nothing else is reachable or free. -/
structure Accounted (c : Conf) (d : PDb) : Prop where
  header : ∃ h, d.header = .ok h ∧ 2 ≤ h.nextPage ∧
    (usedPages c d h).Nodup ∧ ((freePages c d h).map (·.1)).Nodup ∧
    ∀ p, p < h.nextPage ↔ p < 2 ∧ p ∉ usedPages c d h ∧ p ∉ (freePages c d h).map (·.1) ∨
      2 ≤ p ∧ p ∈ usedPages c d h ∧ p ∉ (freePages c d h).map (·.1) ∨
      2 ≤ p ∧ p ∉ usedPages c d h ∧ p ∈ (freePages c d h).map (·.1)

theorem live_accounted {H : String → TagHash} {hc : ConfOk c kw} {d : PDb} {s : Spec.Db} (hd : Live c hc H d s) : Accounted c d := by
  obtain ⟨hp, h, PE, PT, PK, PF, ix, F, L, S⟩ := hd
  have hnd := L.nodup
  have hu := LiveAt.used_eq L
  have hf : (((freePages c d h).map (·.1) : List Nat) : Multiset Nat) = F.map (·.1) := by
    rw [← LiveAt.free_eq L]; rfl
  have hacc := L.account
  rw [← hu, ← hf, Multiset.coe_add, Multiset.coe_nodup, List.nodup_append] at hnd
  rw [← hu, ← hf, Multiset.coe_add] at hacc
  have hmem : ∀ p, (p ∈ usedPages c d h ∨ p ∈ (freePages c d h).map (·.1)) ↔ 2 ≤ p ∧ p < h.nextPage := by
    intro p
    rw [← mem_bodyIds, ← hacc, Multiset.mem_coe, List.mem_append]
  have hlim := L.limit
  refine ⟨h, L.header_eq, L.limit, hnd.1, hnd.2.1, fun p => ?_⟩
  have h1 := hmem p
  have h2 : p ∈ usedPages c d h → p ∉ (freePages c d h).map (·.1) := fun a b => hnd.2.2 p a p b rfl
  by_cases ha : p ∈ usedPages c d h
  · have := h2 ha
    have := h1.mp (.inl ha)
    simp only [ha, h2 ha]
    simp
    omega
  · by_cases hb : p ∈ (freePages c d h).map (·.1)
    · have := h1.mp (.inr hb)
      simp only [ha, hb]
      simp
      omega
    · have : ¬ (2 ≤ p ∧ p < h.nextPage) := fun hx => by rcases h1.mpr hx with hx | hx <;> contradiction
      simp only [ha, hb]
      simp
      omega

/-- C19: after anything has happened - served queues, direct appends, failed commits, crashes, with any reader being
the oldest at the start of each transaction - the pages are accounted for exactly. -/
theorem C19_accounting {env : Env} (he : EnvOk env) (hc : ConfOk c kw) (hH : ∀ t, Codec.NormalizedTo kw (env.H t)) {d d' : PDb}
    {s : Spec.Db} (hd : (pageLawful hc hH).RepD d s) (h : Happens c env d d') : Accounted c d' := by
  obtain ⟨s', hd', -⟩ := happens_grown he hc hH h hd
  exact live_accounted hd'

/-! ## The free list as a set, C44 -/

/-- The free list in the working pages of the transaction `w` holds the pairs (page, transaction) `l`; the transaction may
take back those of the transactions `Old`. -/
def Working (kw ps : Nat) (hps : 1024 ≤ ps) (Old : Nat → Prop) (w : Writer) (l : List (Nat × Nat)) : Prop :=
  w.kw = kw ∧ w.pageSize = ps ∧ l.Nodup ∧ (∀ x ∈ l, x.2 ≤ w.tsn) ∧
    ∃ A X P Q, FreeRep kw ps hps Old w P l ∧ Own w A X (P + Q)

section
variable {ps : Nat} {hps : 1024 ≤ ps} {Old : Nat → Prop} {w : Writer} {l : List (Nat × Nat)}

/-- Reading the free list in the working pages finds exactly the pairs it holds. -/
theorem C44_reads (h : Working kw ps hps Old w l) : (freeListing w.view w.nextPage w.freeRoot).Perm l := by
  obtain ⟨-, -, -, -, A, X, P, Q, ⟨es, h1, -, h2⟩, h3⟩ := h
  have hcard := h3.card_lt
  simp only [Multiset.card_add] at hcard
  rw [← Multiset.coe_eq_coe, h2]
  refine freeListing_spec h1 ⟨fun p n hp => h3.sees p n (Multiset.mem_add.mpr (.inl hp)), fun p hp => ?_⟩ (by omega)
  have : p ∈ bodyIds w.nextPage := by
    rw [← h3.account]
    simp only [ids_add, Multiset.mem_add]
    tauto
  have := (mem_bodyIds.mp this).1
  omega

/-- Recording a freed page adds exactly it, under the current transaction. -/
theorem C44_insert (h : Working kw ps hps Old w l) {p : Nat} (hp : (p, w.tsn) ∉ l) :
    ∃ w', freeInsert w.tsn p w = (.ok (), w') ∧ w'.tsn = w.tsn ∧ Working kw ps hps Old w' ((p, w.tsn) :: l) := by
  obtain ⟨h1, h2, h3, h4, A, X, P, Q, h5, h6⟩ := h
  obtain ⟨u, w', k1, P', k2, k3, k4⟩ := freeInsert_spec h5 h1 h2 (p := p) (by simpa using hp) (by simpa using h3)
    (by simpa using h4) h6
  refine ⟨w', k1, k4.step.tsn, k4.step.kw.trans h1, k4.step.pageSize.trans h2, List.nodup_cons.mpr ⟨hp, h3⟩, ?_, A, X, P', Q, ?_, k3⟩
  · have ht : w'.tsn = w.tsn := k4.step.tsn
    intro x hx
    rcases List.mem_cons.mp hx with rfl | hx
    · exact ht.ge
    · rw [ht]; exact h4 x hx
  · exact k2

/-- Taking back a page removes exactly it. -/
theorem C44_remove (h : Working kw ps hps Old w l) {p t : Nat} (hp : (p, t) ∈ l) (hold : Old t) (ht : t ≠ w.tsn) :
    ∃ w', freeRemove t p w = (.ok (), w') ∧ w'.tsn = w.tsn ∧ Working kw ps hps Old w' (l.erase (p, t)) := by
  obtain ⟨h1, h2, h3, h4, A, X, P, Q, h5, h6⟩ := h
  obtain ⟨u, w', k1, P', k2, k3, k4⟩ := freeRemove_spec h5 (p := p) (t := t) (by simpa using hp) hold ht h6
  refine ⟨w', k1, k4.step.tsn, k4.step.kw.trans h1, k4.step.pageSize.trans h2, h3.erase _, ?_, A, X, P', Q, ?_, k3⟩
  · have ht : w'.tsn = w.tsn := k4.step.tsn
    intro x hx
    rw [ht]; exact h4 x (List.mem_of_mem_erase hx)
  · convert k2 using 1
    rw [Multiset.coe_erase]
    have : (instBEqProd : BEq (Nat × Nat)) = instBEqOfDecidableEq :=
      congrArg BEq.mk (funext fun a => funext fun b => Bool.eq_iff_iff.mpr (by simp [← Prod.ext_iff]))
    rw [this]

end

/-- What commits do to the free list. -/
inductive FreeOp where
  | insert (p : Nat)
  | remove (p t : Nat)

/-- The operation on the pages. -/
def FreeOp.run (w : Writer) : FreeOp → Except Err Unit × Writer
  | .insert p => freeInsert w.tsn p w
  | .remove p t => freeRemove t p w

/-- The operation on a set of pairs, in transaction `n`. -/
def FreeOp.set (n : Nat) (l : List (Nat × Nat)) : FreeOp → List (Nat × Nat)
  | .insert p => (p, n) :: l
  | .remove p t => l.erase (p, t)

/-- Commits record pages not yet recorded, and take back recorded pages that they found to be reclaimable. -/
def FreeOp.Fits (o : Option Nat) (n : Nat) (l : List (Nat × Nat)) : FreeOp → Prop
  | .insert p => (p, n) ∉ l
  | .remove p t => (p, t) ∈ l ∧ t < n ∧ ∀ r ∈ o, t ≤ r

def freeOps : List FreeOp → Writer → Except Err Unit × Writer
  | [], w => (.ok (), w)
  | op :: ops, w => match op.run w with
    | (.ok (), w') => freeOps ops w'
    | (.error e, w') => (.error e, w')

def FitsAll (o : Option Nat) (n : Nat) : List FreeOp → List (Nat × Nat) → Prop
  | [], _ => True
  | op :: ops, l => op.Fits o n l ∧ FitsAll o n ops (op.set n l)

theorem freeOps_spec {ps : Nat} {hps : 1024 ≤ ps} {o : Option Nat} {n : Nat} : ∀ (ops : List FreeOp) {w : Writer} {l : List (Nat × Nat)},
    Working kw ps hps (fun t => oldEnough o t = true ∧ t < n) w l → w.tsn = n → FitsAll o n ops l →
    ∃ w', freeOps ops w = (.ok (), w') ∧ Working kw ps hps (fun t => oldEnough o t = true ∧ t < n) w' (ops.foldl (FreeOp.set n) l)
  | [], w, l, h, _, _ => ⟨w, rfl, h⟩
  | .insert p :: ops, w, l, h, hn, hf => by
    subst hn
    obtain ⟨w1, h1, h2, h3⟩ := C44_insert h hf.1
    obtain ⟨w', k1, k2⟩ := freeOps_spec ops h3 h2 hf.2
    refine ⟨w', ?_, k2⟩
    simp only [freeOps, FreeOp.run, h1]
    exact k1
  | .remove p t :: ops, w, l, h, hn, hf => by
    obtain ⟨⟨hin, hlt, ho⟩, hrest⟩ := hf
    obtain ⟨w1, h1, h2, h3⟩ := C44_remove h hin (by
      refine ⟨?_, hlt⟩
      cases o with
      | none => rfl
      | some r => simpa [oldEnough] using ho r rfl) (by omega)
    obtain ⟨w', k1, k2⟩ := freeOps_spec ops h3 (h2.trans hn) hrest
    refine ⟨w', ?_, k2⟩
    simp only [freeOps, FreeOp.run, h1]
    exact k1

/-- The transaction with which a database begins: its free list is that in the pages, each page recorded once, and the
pages it may reuse are those freed at or before the oldest reader, or all when there is no reader. -/
theorem C44_begin {H : String → TagHash} (hc : ConfOk c kw) {d : PDb} {s : Spec.Db} (hd : Live c hc H d s) :
    ∃ h w, d.header = .ok h ∧ d.writer c = .ok w ∧ w.wr.tsn = h.tsn + 1 ∧
      Working kw c.g.pageSize hc.ps (fun t => oldEnough d.oldest t = true ∧ t < h.tsn + 1) w.wr (freePages c d h) ∧
      w.wr.reusable.Perm ((freePages c d h).filter fun x => decide (∀ r ∈ d.oldest, x.2 ≤ r)) := by
  obtain ⟨hp, h, PE, PT, PK, PF, ix, F, L, S⟩ := hd
  obtain ⟨w, h1, h2, T⟩ := L.begin
  have hF := LiveAt.free_eq L
  have hall : ((w.reused ++ w.reusable : List (Nat × Nat)) : Multiset (Nat × Nat)) +
      (F.filter fun x => ¬ oldEnough d.oldest x.2 = true) = F := by
    rw [T.queue]; exact Multiset.filter_add_not _ _
  refine ⟨h, _, L.header_eq, h1, T.tsn, ⟨T.inv.wkw, T.inv.wps, ?_, ?_, May h F d.oldest, _, PF, _, ?_, T.inv.own⟩, ?_⟩
  · rw [← Multiset.coe_nodup, hF, ← hall]; exact T.inv.nodup
  · intro x hx
    have := L.freeLe x (by rw [← hF]; exact hx)
    have := T.tsn
    simp only; omega
  · have := T.inv.rep
    rw [hall, ← hF] at this
    exact this
  · have hq := T.queue
    rw [h2, List.nil_append, ← hF] at hq
    rw [← Multiset.coe_eq_coe]
    refine hq.trans ?_
    rw [Multiset.filter_coe]
    congr 1
    refine List.filter_congr fun x _ => ?_
    cases d.oldest <;> simp [oldEnough]

/-- C44: whatever records and takes back pages in a transaction, in whatever order, the free list read from the pages
afterwards is the set changed in the same way. -/
theorem C44_free_list_set {H : String → TagHash} (hc : ConfOk c kw) {d : PDb} {s : Spec.Db} (hd : Live c hc H d s) {h : Codec.Header}
    (hh : d.header = .ok h) {w : PW} (hw : d.writer c = .ok w) (ops : List FreeOp)
    (hops : FitsAll d.oldest (h.tsn + 1) ops (freePages c d h)) :
    ∃ w', freeOps ops w.wr = (.ok (), w') ∧
      (freeListing w'.view w'.nextPage w'.freeRoot).Perm (ops.foldl (FreeOp.set (h.tsn + 1)) (freePages c d h)) := by
  obtain ⟨h', w', h1, h2, h3, h4, -⟩ := C44_begin hc hd
  rw [hh] at h1; cases h1
  rw [hw] at h2; cases h2
  obtain ⟨w', k1, k2⟩ := freeOps_spec ops h4 h3 hops
  exact ⟨w', k1, C44_reads k2⟩

/-- C44, over whole commits: entries of the new free list are old ones or made by this transaction; an old entry
disappears only if no reader can need the page, which then is in use or was freed again by this transaction; a page that
goes out of use is recorded under this transaction. -/
theorem C44_commit {env : Env} (he : EnvOk env) (hc : ConfOk c kw) (hH : ∀ t, Codec.NormalizedTo kw (env.H t)) {d d' : PDb}
    {s : Spec.Db} (hd : (pageLawful hc hH).RepD d s) {max vis : Nat} {j : Job} {q q' : List Msg} {b : Batch PW}
    (ha : AfterOkAll (.append j :: q)) (hb : Builds (pageBackend c) env max vis d j q b q') (hab : b.abort = none) {io : Page.IO}
    (hcom : PW.commit c io b.w = (.ok (), d')) :
    ∃ h h', d.header = .ok h ∧ d'.header = .ok h' ∧ h'.tsn = h.tsn + 1 ∧
      (∀ p t, (p, t) ∈ freePages c d' h' → (p, t) ∈ freePages c d h ∨ t = h'.tsn) ∧
      (∀ p t, (p, t) ∈ freePages c d h → (p, t) ∈ freePages c d' h' ∨
        (∀ r ∈ d.oldest, t ≤ r) ∧ (p ∈ usedPages c d' h' ∨ (p, h'.tsn) ∈ freePages c d' h')) ∧
      (∀ p ∈ usedPages c d h, p ∈ usedPages c d' h' ∨ (p, h'.tsn) ∈ freePages c d' h') := by
  classical
  obtain ⟨js, -, -, hbi⟩ := hb.binv he (pageLawful hc hH) hd ha
  obtain ⟨h, PE, PT, PK, PF, ix, F, L, S, PE', PT', PK', PF', ix', T⟩ := (hbi.good hab).1
  have hdb := hb.db
  rcases hbw : b.w with ⟨d0, hp, w⟩
  rw [hbw] at hcom L S T hdb
  simp only at L S T hdb
  subst hdb
  rcases commit_spec L S T io with ⟨d2, hp', h', PF'', F', h1, L', S', -, C⟩ | ⟨e, d2, h1, -⟩
  swap
  · rw [h1] at hcom; cases hcom
  rw [hcom] at h1; cases h1
  have hF : ∀ x, x ∈ freePages c d0 h ↔ x ∈ F := fun x => by rw [← LiveAt.free_eq L]; rfl
  have hF' : ∀ x, x ∈ freePages c d' h' ↔ x ∈ F' := fun x => by rw [← LiveAt.free_eq L']; rfl
  have hU : ∀ x, x ∈ usedPages c d0 h ↔ x ∈ ids (PF + (PE + PT + PK)) := fun x => by rw [← LiveAt.used_eq L]; rfl
  have hU' : ∀ x, x ∈ usedPages c d' h' ↔ x ∈ ids (PF'' + (PE' + PT' + PK')) := fun x => by rw [← LiveAt.used_eq L']; rfl
  refine ⟨h, h', L.header_eq, L'.header_eq, C.tsn, fun p t => ?_, fun p t => ?_, fun p => ?_⟩
  · rw [hF, hF']; exact C.entries _
  · rw [hF, hF', hU', hF']
    intro hx
    by_cases ho : oldEnough d0.oldest t = true
    · have hp : p ∈ bodyIds h'.nextPage := by
        have : p ∈ bodyIds h.nextPage := by
          rw [← L.account]; exact Multiset.mem_add.mpr (.inr (Multiset.mem_map.mpr ⟨_, hx, rfl⟩))
        have := mem_bodyIds.mp this
        have := C.grows
        exact mem_bodyIds.mpr (by omega)
      have hold : ∀ r ∈ d0.oldest, t ≤ r := by
        intro r hr
        rw [Option.mem_def.mp hr] at ho
        simpa [oldEnough] using ho
      rw [← L'.account, Multiset.mem_add] at hp
      rcases hp with hp | hp
      · exact .inr ⟨hold, .inl hp⟩
      · obtain ⟨⟨p', t'⟩, hx', rfl⟩ := Multiset.mem_map.mp hp
        rcases C.entries _ hx' with hx'' | ht
        · have hnd := (Multiset.nodup_add.mp L.nodup).2.1
          have : (p', t') = (p', t) := Multiset.inj_on_of_nodup_map hnd _ hx'' _ hx rfl
          cases this
          exact .inl hx'
        · simp only at ht; subst ht
          exact .inr ⟨hold, .inr hx'⟩
    · exact .inl (C.later _ hx ho)
  · rw [hU, hU', hF']
    intro hp
    obtain ⟨n, hn⟩ := mem_ids.mp hp
    rcases C.kept _ hn with h1 | h1
    · exact .inl (mem_ids_of h1)
    · exact .inr h1

/-! ## Tracking as a map, C14 -/

/-- Runs tracking updates in one transaction; the list tells which were accepted. -/
def updates {δ σ υ ι : Type} (B : Backend δ σ υ ι) : List (String × Nat) → σ → List (String × Nat) × σ
  | [], w => ([], w)
  | u :: us, w => match B.trackUpsert u.1 u.2 w with
    | (.ok (), w') => let r := updates B us w'; (u :: r.1, r.2)
    | (.error _, w') => updates B us w'

/-- The updates to be accepted: the source is not too long and the position is new. -/
def accepted (track : String → Option Nat) : List (String × Nat) → List (String × Nat)
  | [] => []
  | u :: us =>
    if u.1.utf8ByteSize ≤ 255 ∧ ∀ p ∈ track u.1, p < u.2 then u :: accepted (fun s => if s = u.1 then some u.2 else track s) us
    else accepted track us

/-- Value of the last update of `src`. -/
def lastOf (us : List (String × Nat)) (src : String) : Option Nat := ((us.filter (·.1 = src)).getLast?).map (·.2)

theorem lastOf_cons (u : String × Nat) (us : List (String × Nat)) (src : String) :
    lastOf (u :: us) src = (lastOf us src).or (if src = u.1 then some u.2 else none) := by
  unfold lastOf
  by_cases h : u.1 = src
  · rw [List.filter_cons_of_pos (by simpa using h), List.getLast?_cons, if_pos h.symm]
    cases (us.filter (·.1 = src)).getLast? <;> simp
  · rw [List.filter_cons_of_neg (by simpa using h), if_neg (fun e => h e.symm)]
    cases (us.filter (·.1 = src)).getLast? <;> simp

theorem updates_spec (hc : ConfOk c kw) {H : String → TagHash} (hH : ∀ t, Codec.NormalizedTo kw (H t)) :
    ∀ (us : List (String × Nat)) {w : PW} {s0 : Spec.Db} {a : Abs}, (pageLawful hc hH).Rep w s0 a →
      (updates (pageBackend c) us w).1 = accepted a.track us ∧
      (pageLawful hc hH).Rep (updates (pageBackend c) us w).2 s0
        { a with track := fun src => (lastOf (accepted a.track us) src).or (a.track src) }
  | [], w, s0, a, h => by
    have : (fun src => (lastOf [] src).or (a.track src)) = a.track := by funext src; simp [lastOf]
    refine ⟨rfl, ?_⟩
    show (pageLawful hc hH).Rep w s0 { a with track := fun src => (lastOf [] src).or (a.track src) }
    rw [this]; exact h
  | u :: us, w, s0, a, h => by
    have hstep := ((pageLawful hc hH).trackUpsert u.1 u.2 h).resolve_right fun ⟨_, _, _, hf⟩ => hf.elim
    unfold updates accepted
    by_cases h1 : 255 < u.1.utf8ByteSize
    · rw [if_pos h1] at hstep
      rw [if_neg (by omega)]
      obtain ⟨m, w', e, hr⟩ := hstep
      rw [e]; exact updates_spec hc hH us hr
    · rw [if_neg h1] at hstep
      by_cases h2 : ∃ p ∈ a.track u.1, u.2 ≤ p
      · rw [if_pos h2] at hstep
        rw [if_neg (by rintro ⟨-, h3⟩; obtain ⟨p, hp, hle⟩ := h2; have := h3 p hp; omega)]
        obtain ⟨m, w', e, hr⟩ := hstep
        rw [e]; exact updates_spec hc hH us hr
      · rw [if_neg h2] at hstep
        rw [if_pos ⟨by omega, fun p hp => Nat.lt_of_not_le fun hle => h2 ⟨p, hp, hle⟩⟩]
        obtain ⟨w', e, hr⟩ := hstep
        rw [e]
        obtain ⟨k1, k2⟩ := updates_spec hc hH us hr
        refine ⟨congrArg (u :: ·) k1, ?_⟩
        convert k2 using 2
        funext src
        show _ = Option.or (lastOf (accepted (Spec.setTrack a.track ⟨u.1, u.2⟩) us) src) _
        simp only [lastOf_cons]
        show Option.or (Option.or (lastOf (accepted (Spec.setTrack a.track ⟨u.1, u.2⟩) us) src) _) _ = _
        simp only [Spec.setTrack]
        cases lastOf (accepted _ us) src with
        | some p => rfl
        | none =>
          by_cases hs : src = u.1
          · simp [hs]
          · simp [hs]

/-- C14: any updates of any sources in one transaction, committed.  Those with a new position are accepted; looking up a
source finds its last accepted update, or what it had before; so updates of one source do not change another. -/
theorem C14_tracking_map (hc : ConfOk c kw) {H : String → TagHash} (hH : ∀ t, Codec.NormalizedTo kw (H t)) {d : PDb} {s : Spec.Db}
    (hd : (pageLawful hc hH).RepD d s) (us : List (String × Nat)) (io : Page.IO) {w : PW} (hw : d.writer c = .ok w) {d' : PDb}
    (hcom : PW.commit c io (updates (pageBackend c) us w).2 = (.ok (), d')) (src : String) :
    d.track c src = .ok (s.track src) ∧ (updates (pageBackend c) us w).1 = accepted s.track us ∧
    d'.track c src = .ok ((lastOf (accepted s.track us) src).or (s.track src)) := by
  refine ⟨(pageLawful hc hH).trackR src hd, ?_⟩
  rcases (pageLawful hc hH).begin hd with ⟨w', hb, hr⟩ | ⟨e, -, hf⟩
  swap
  · exact hf.elim
  have hb : d.writer c = .ok w' := hb
  rw [hw] at hb; cases hb
  obtain ⟨k1, k2⟩ := updates_spec hc hH us hr
  refine ⟨k1, ?_⟩
  rcases (pageLawful hc hH).commit io (s := ⟨s.log, fun src => (lastOf (accepted s.track us) src).or (s.track src)⟩) k2 with
    ⟨d2, h1, h2⟩ | ⟨e, d2, h1, -⟩
  · have h1 : PW.commit c io (updates (pageBackend c) us w).2 = (.ok (), d2) := h1
    rw [hcom] at h1; cases h1
    exact (pageLawful hc hH).trackR src h2
  · have h1 : PW.commit c io (updates (pageBackend c) us w).2 = (.error e, d2) := h1
    rw [hcom] at h1; cases h1

/-! ## Examples -/

section Examples

/-- `exReq` appended to a new database. -/
theorem exStored : ∃ (d d' : PDb), (pageLawful exConf_ok exConstEnv_width).RepD d Spec.Db.empty ∧ AfterOk exReq ∧
    Db.append (pageBackend exConf) exConstEnv exReq exIO d = (.ok 2, d') ∧
    (pageLawful exConf_ok exConstEnv_width).RepD d' exAfter := by
  obtain ⟨d, d', b, hd, ha, -, ⟨w, b1, h1, h2, h3⟩, hab, hres, -, -, hcom, hd', -⟩ := exCommitted
  refine ⟨d, d', hd, ha _ List.mem_cons_self, ?_, hd'⟩
  unfold Db.drain at h3
  cases h3
  unfold stepJob at h2
  simp only [Batch.new] at h2
  have hp : ∃ w', processAppend (pageBackend exConf) exConstEnv exReq noCancel w = (.ok 2, w') ∧ b.w = w' := by
    generalize processAppend (pageBackend exConf) exConstEnv exReq noCancel w = x at h2 ⊢
    match x, h2 with
    | (.ok p, w'), h2 => cases h2; cases hres; exact ⟨w', rfl, rfl⟩
    | (.error e, w'), h2 => cases e <;> first | (cases h2; done) | (cases h2; cases hres)
  obtain ⟨w', hp, rfl⟩ := hp
  unfold Db.append
  rw [if_neg (by simp [exReq]), h1]
  simp only
  rw [show (fun _ => Cancel.never) = noCancel from rfl, hp]
  simp only
  rw [show (pageBackend exConf).commit exIO b.w = (.ok (), d') from hcom]

theorem exAfter_log : exAfter.log = [⟨exEv 1, some ⟨"up", 9⟩⟩, ⟨exEv 2, some ⟨"up", 9⟩⟩] := rfl

/-- C16 with two recorded events. -/
example : ∃ d' : PDb, lookup exConf d' 1 = .ok ⟨exEv 1, some ⟨"up", 9⟩⟩ ∧ lookup exConf d' 2 = .ok ⟨exEv 2, some ⟨"up", 9⟩⟩ ∧
    lookup exConf d' 0 = .error (.databaseCorrupted "Event at position not found") ∧
    lookup exConf d' 3 = .error (.databaseCorrupted "Event at position not found") := by
  obtain ⟨d, d', -, -, -, hd'⟩ := exStored
  have h := fun pos => C16_lookup (env := exConstEnv) exConf_ok exConstEnv_width hd' pos
  exact ⟨d', (h 1).1 _ (by omega) rfl, (h 2).1 _ (by omega) rfl, (h 0).2 (.inl rfl), (h 3).2 (.inr (by decide))⟩

/-- C15: the second event of the request, read after a further append of the same request (which is a repetition). -/
example : ∃ d d1 d2 : PDb, (pageLawful exConf_ok exConstEnv_width).RepD d Spec.Db.empty ∧
    Db.append (pageBackend exConf) exConstEnv exReq exIO d = (.ok 2, d1) ∧ Happens exConf exConstEnv d1 d2 ∧
    lookup exConf d2 2 = .ok ⟨exEv 2, some ⟨"up", 9⟩⟩ := by
  obtain ⟨d, d', hd, ha, hap, -⟩ := exStored
  have hh : Happens exConf exConstEnv d' _ := .append exReq exIO (.nothing d') ha
  exact ⟨d, d', _, hd, hap, hh, (C15_exact exEnvOk exConf_ok exConstEnv_width hd ha hap (by decide) hh
    (i := 1) (e := exEv 2) rfl).2.1⟩

/-- C19 and C44: accounting after `exReq`; recording two pages in a transaction and taking back any page no reader needs. -/
example : ∃ (d' : PDb) (h : Codec.Header) (w : PW), Accounted exConf d' ∧ Live exConf exConf_ok exConstEnv.H d' exAfter ∧
    d'.header = .ok h ∧ d'.writer exConf = .ok w ∧ FitsAll d'.oldest (h.tsn + 1) [.insert 1000, .insert 1001] (freePages exConf d' h) ∧
    ∀ p t, (p, t) ∈ freePages exConf d' h → (∀ r ∈ d'.oldest, t ≤ r) →
      FitsAll d'.oldest (h.tsn + 1) [.insert 1000, .remove p t] (freePages exConf d' h) := by
  obtain ⟨d, d', hd, ha, hap, hd'⟩ := exStored
  obtain ⟨h, w, h1, h2, -, ⟨-, -, -, hle, -⟩, -⟩ := C44_begin exConf_ok hd'
  have hold : ∀ p t, (p, t) ∈ freePages exConf d' h → t < h.tsn + 1 := by
    obtain ⟨hp, h', PE, PT, PK, PF, ix, F, L, S⟩ := hd'
    rw [L.header_eq] at h1; cases h1
    intro p t hx
    have := L.freeLe (p, t) (by rw [← LiveAt.free_eq L]; exact hx)
    simp only at this; omega
  have hn : ∀ p, (p, h.tsn + 1) ∉ freePages exConf d' h := fun p hx => absurd (hold p _ hx) (by omega)
  refine ⟨d', h, w, live_accounted hd', hd', h1, h2, ⟨hn _, ?_, trivial⟩, fun p t hx ho => ⟨hn _, ⟨?_, hold p t hx, ho⟩, trivial⟩⟩
  · simp only [FreeOp.Fits, FreeOp.set, List.mem_cons, Prod.mk.injEq]
    rintro (⟨h, -⟩ | h)
    · omega
    · exact hn _ h
  · exact List.mem_cons_of_mem _ hx

/-- C14: with "up" at 9, of four updates the one not above 9 is refused. -/
example : accepted exAfter.track [("up", 9), ("a", 3), ("up", 10), ("a", 4)] = [("a", 3), ("up", 10), ("a", 4)] := by decide

end Examples

end Uma.Props
