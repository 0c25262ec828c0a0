import Verif.Props.Damage
import Verif.Props.Page

/-!
# Damage in one tree does no harm to what is read from the others: C89

Unlike in C56 nothing is assumed about the damaged pages: they may be unreadable, or hold anything.
-/

namespace Uma.Props
open Uma.Codec Uma.Mvcc Uma.Spec Uma.Page Uma.Db

/-- All pages below this root of the header of `d` read in `d'` as in `d`. -/
def TreeIntact (c : Conf) (d' d : PDb) (root : Header → Nat) : Prop :=
  ∀ h, d.header = .ok h → ∀ x ∈ listing (d.base c) h.nextPage (root h), d'.read c x.1 = .ok x.2

variable {c : Conf} {kw : Nat} {d' d : PDb} {s : Spec.Db} {env : Env} {hc : ConfOk c kw} {H : String → TagHash} {hp : HPage} {h : Header}
  {PE PT PK PF : Multiset (Nat × Node)} {ix : Nat → List Nat} {F : Multiset (Nat × Nat)}

theorem TreeIntact.sees {root : Header → Nat} (hi : TreeIntact c d' d root) (hh : d.header = .ok h) {P : Multiset (Nat × Node)}
    (ha : At (d.base c) (root h) P) (hcard : P.card ≤ h.nextPage) : Sees (d'.base c) P := by
  intro p n hpn
  rw [← ha h.nextPage hcard] at hpn
  unfold PDb.base
  rw [hi h hh (p, n) hpn]
  rfl

theorem _root_.Uma.Page.LiveAt.part (L : LiveAt c hc H d hp h PE PT PK PF ix F s) {P : Multiset (Nat × Node)} (hle : P ≤ PF + (PE + PT + PK)) :
    Sees0 (d.base c) P ∧ P.card ≤ h.nextPage := by
  refine ⟨⟨L.sees.sub hle, fun p hp => ?_⟩, ?_⟩
  · have := L.body (Multiset.mem_of_le (Multiset.map_le_map hle) hp)
    omega
  · have h1 := Multiset.card_le_card hle
    have h2 := L.card
    simp only [Multiset.card_add] at h1
    omega

theorem _root_.Uma.Page.LiveAt.at_events (L : LiveAt c hc H d hp h PE PT PK PF ix F s) : At (d.base c) h.eventsRoot PE := by
  obtain ⟨K, hK, e, rfl, -⟩ := L.trees.events
  rw [e]
  exact events_at hK.tr (L.part (le_of_eq_add (PF + (PT + PK)) (by abel))).1

theorem _root_.Uma.Page.LiveAt.at_tags (L : LiveAt c hc H d hp h PE PT PK PF ix F s) : At (d.base c) h.tagsRoot PT := by
  obtain ⟨K, hK, e, rfl, -⟩ := L.trees.tags
  rw [e]
  exact tags_at hK.tr (L.part (le_of_eq_add (PF + (PE + PK)) (by abel))).1

theorem _root_.Uma.Page.LiveAt.at_track (L : LiveAt c hc H d hp h PE PT PK PF ix F s) : h.trackRoot = 0 ∧ PK = 0 ∨ At (d.base c) h.trackRoot PK := by
  rcases L.trees.track with ⟨e1, e2, -⟩ | ⟨K, hK, e, rfl, -⟩
  · exact .inl ⟨e1, e2⟩
  · right
    rw [e]
    exact track_at hK.tr (L.part (le_of_eq_add (PF + (PE + PT)) (by abel))).1

theorem _root_.Uma.Page.LiveAt.at_free (L : LiveAt c hc H d hp h PE PT PK PF ix F s) : At (d.base c) h.freeRoot PF ∧
    (freeListing (d.base c) h.nextPage h.freeRoot : Multiset (Nat × Nat)) = F := by
  obtain ⟨es, h1, h2⟩ := L.free
  have := L.part (P := PF) (Multiset.le_add_right _ _)
  exact ⟨free_at h1 this.1, by rw [freeListing_spec h1 this.1 this.2, h2]⟩

theorem bind_error {α β : Type} {m : W α} {f : α → W β} {w w' : Writer} {e : Err} (h : m w = (.error e, w')) :
    (m >>= f) w = (.error e, w') := by
  show (match m w with
    | (.ok a, w') => f a w'
    | (.error e, w') => (.error e, w')) = _
  rw [h]

theorem header_same (hm : d'.m = d.m) : d'.header = d.header := by unfold PDb.header; rw [hm]

/-- The tree of events reads the same. -/
theorem _root_.Uma.Page.LiveAt.scan_same (L : LiveAt c hc H d hp h PE PT PK PF ix F s) (hm : d'.m = d.m) (hs : Sees (d'.base c) PE) :
    (d'.snap c).scan = (d.snap c).scan ∧ ∀ p r, (p, r) ∈ numberFrom 1 s.log → (d'.snap c).lookup p = .ok r := by
  obtain ⟨K, hK, e1, rfl, hsq⟩ := L.trees.events
  have hlen : (numberFrom 1 s.log).length = s.log.length := by
    have : ∀ (l : Log) n, (numberFrom n l).length = l.length := by
      intro l; induction l with
      | nil => intro n; rfl
      | cons a l ih => intro n; simp [numberFrom, ih]
    exact this _ _
  have hcard := L.card
  have hnext := L.next
  have hwalk : walkCost K ≤ turns c h.nextPosition h.nextPage := by
    unfold walkCost turns
    rw [hsq.ents, hlen, Nat.mul_add]
    omega
  have hh : d'.header = .ok h := (header_same hm).trans L.header_eq
  constructor
  · funext st b
    unfold PDb.snap
    rw [hh, L.header_eq]
    show evScan _ _ _ _ _ = evScan _ _ _ _ _
    rw [e1, evScan_spec hK.tr hsq hs hwalk st b, evScan_spec hK.tr hsq (L.sees.sub (le_of_eq_add (PF + (PT + PK)) (by abel))) hwalk st b]
  · intro p r hpr
    unfold PDb.snap
    rw [hh]
    show evLookup _ _ _ _ = _
    rw [e1]
    refine evLookup_spec hK.tr hsq.strict hs ?_ (by rw [hsq.ents]; exact hpr)
    have := turns_ge (c := c) (nextPos := h.nextPosition) (nextPage := h.nextPage)
    omega

/-- C89: as long as the pages of the tree of events are what they were, a read is answered correctly if its query has an item without
tags or no item at all, whatever the pages of the tag index, of the tracked positions and of the free list hold now. -/
theorem C89_events (he : EnvOk env) (hc : ConfOk c kw) (hH : ∀ t, Codec.NormalizedTo kw (env.H t)) (hd : Live c hc env.H d s)
    (hm : d'.m = d.m) (hi : TreeIntact c d' d (·.eventsRoot)) (query : Option Query)
    (hq : (query.getD ⟨[]⟩).items = [] ∨ ∃ it ∈ (query.getD ⟨[]⟩).items, it.tags = []) (start : Option Nat) (backwards : Bool)
    (limit : Option Nat) : ∃ hd, Db.read (pageBackend c) env d' query start backwards limit =
      .ok (Spec.read s.log (query.getD ⟨[]⟩) start backwards limit, hd) ∧ (limit = none → hd = Spec.head s.log) ∧
      (limit ≠ none → hd = (Spec.read s.log (query.getD ⟨[]⟩) start backwards limit).getLast?.map (·.position)) := by
  have hsh := shows he hc hH hd
  have hb : ¬ ByIndex (query.getD ⟨[]⟩) := by
    rintro ⟨h1, h2⟩
    rcases hq with h | ⟨it, hi, ht⟩
    · exact h1 h
    · exact h2 it hi ht
  obtain ⟨hp, h, PE, PT, PK, PF, ix, F, L, -⟩ := hd
  have hsees := hi.sees L.header_eq L.at_events (L.part (le_of_eq_add (PF + (PT + PK)) (by abel))).2
  obtain ⟨hscan, -⟩ := L.scan_same hm hsees
  obtain ⟨h0, hr0⟩ := hsh.reads query start backwards limit
  unfold Db.read at hr0 ⊢
  rw [show (pageBackend c).snapR d' = d'.snap c from rfl, readConditional_scan hscan hb]
  rw [show (pageBackend c).snapR d = d.snap c from rfl] at hr0
  split at hr0
  · cases hr0
  · simp only [Except.ok.injEq, Prod.mk.injEq] at hr0
    refine ⟨_, by rw [hr0.1], fun hl => ?_, fun hl => ?_⟩
    · subst hl
      show headOfNext d'.nextPos = _
      unfold PDb.nextPos
      rw [header_same hm]
      exact hsh.head
    · cases limit with
      | none => exact absurd rfl hl
      | some n => rfl

/-- C89: the head is known whatever the pages hold. -/
theorem C89_head (he : EnvOk env) (hc : ConfOk c kw) (hH : ∀ t, Codec.NormalizedTo kw (env.H t)) (hd : Live c hc env.H d s)
    (hm : d'.m = d.m) : Db.head (pageBackend c) d' = Spec.head s.log := by
  rw [← (shows he hc hH hd).head]
  show headOfNext d'.nextPos = headOfNext d.nextPos
  unfold PDb.nextPos
  rw [header_same hm]

/-- C89: so are the tracked positions as long as the pages of their tree are what they were. -/
theorem C89_tracking (hd : Live c hc env.H d s) (hm : d'.m = d.m) (hi : TreeIntact c d' d (·.trackRoot)) (src : String) :
    (pageBackend c).trackR d' src = .ok (s.track src) := by
  obtain ⟨hp, h, PE, PT, PK, PF, ix, F, L, -⟩ := hd
  show d'.track c src = _
  unfold PDb.track
  rw [header_same hm, L.header_eq]
  have hsub := L.part (P := PK) (le_of_eq_add (PF + (PE + PT)) (by abel))
  have hsees : Sees (d'.base c) PK := by
    rcases L.at_track with ⟨-, e⟩ | ha
    · rw [e]; exact fun p n h => absurd h (by simp)
    · exact hi.sees L.header_eq ha hsub.2
  have := turns_ge (c := c) (nextPos := h.nextPosition) (nextPage := h.nextPage)
  exact trackLookup_spec L.trees.track hsees hsub.1.2 (by omega) src

/-- C89: and all reads are answered correctly as long as the pages of the events and of the tag index are what they were. -/
theorem C89_index (he : EnvOk env) (hc : ConfOk c kw) (hH : ∀ t, Codec.NormalizedTo kw (env.H t)) (hd : Live c hc env.H d s)
    (hm : d'.m = d.m) (hi : TreeIntact c d' d (·.eventsRoot)) (ht : TreeIntact c d' d (·.tagsRoot)) (query : Option Query) (start : Option Nat) (backwards : Bool) (limit : Option Nat) :
    ∃ hd, Db.read (pageBackend c) env d' query start backwards limit =
      .ok (Spec.read s.log (query.getD ⟨[]⟩) start backwards limit, hd) ∧
      (limit = none → hd = Spec.head s.log) ∧
      (limit ≠ none → hd = (Spec.read s.log (query.getD ⟨[]⟩) start backwards limit).getLast?.map (·.position)) := by
  have hh0 := C89_head he hc hH hd hm
  obtain ⟨hp, h, PE, PT, PK, PF, ix, F, L, -⟩ := hd
  have hE := L.part (P := PE) (le_of_eq_add (PF + (PT + PK)) (by abel))
  have hT := L.part (P := PT) (le_of_eq_add (PF + (PE + PK)) (by abel))
  have sE := hi.sees L.header_eq L.at_events hE.2
  have sT := ht.sees L.header_eq L.at_tags hT.2
  have hcard := L.card
  have href : Refines env.H (d'.snap c) s.log := by
    unfold PDb.snap
    rw [header_same hm, L.header_eq]
    have htr : Trees kw c.g.pageSize hc.ps hc.kw h.eventsRoot h.tagsRoot 0 PE PT 0 s.log ix (fun _ => none) :=
      ⟨L.trees.events, L.trees.tags, .inl ⟨rfl, rfl, fun _ => rfl⟩⟩
    refine htr.refines rfl hc.bs L.index (fun p n hp => ?_) (by omega) hT.1.2 (by rw [L.next]; omega)
    rw [add_zero, Multiset.mem_add] at hp
    exact hp.elim (sE p n) (sT p n)
  unfold Db.read
  rcases readConditional_correct env.H env.ord he.ord _ _ href (query.getD ⟨[]⟩) start backwards limit
    false Cancel.never with h | ⟨_, j, hj⟩
  · rw [show (pageBackend c).snapR d' = d'.snap c from rfl, h]
    refine ⟨_, rfl, fun hl => ?_, fun hl => ?_⟩
    · subst hl
      exact hh0
    · cases limit with
      | none => exact absurd rfl hl
      | some n => rfl
  · simp [Cancel.never] at hj

/-- C89: what the free list and the free pages hold matters to no reader at all. -/
theorem C89_free (he : EnvOk env) (hc : ConfOk c kw) (hH : ∀ t, Codec.NormalizedTo kw (env.H t)) (hd : Live c hc env.H d s)
    (hm : d'.m = d.m) (hi : ∀ h, d.header = .ok h → ∀ p, p ∉ (listing (d.base c) h.nextPage h.freeRoot).map (·.1) →
      p ∉ (freeListing (d.base c) h.nextPage h.freeRoot).map (·.1) → d'.read c p = d.read c p) : Shows c env d' s := by
  have hd0 := hd
  obtain ⟨hp, h, PE, PT, PK, PF, ix, F, L, -⟩ := hd
  obtain ⟨hf1, hf2⟩ := L.at_free
  have hnd := L.nodup
  have hread : ∀ p n, (p, n) ∈ PE + PT + PK → d'.read c p = .ok n := by
    intro p n hpn
    have hsees := L.sees p n (Multiset.mem_add.mpr (.inr hpn))
    have hold : d.read c p = .ok n := by
      unfold PDb.base at hsees
      cases hr : d.read c p with
      | error e => rw [hr] at hsees; cases hsees
      | ok m => rw [hr] at hsees; cases hsees; rfl
    rw [← hold]
    have hmem := mem_ids_of hpn
    rw [ids_add, show ids PF + ids (PE + PT + PK) + F.map (·.1) = ids (PE + PT + PK) + (ids PF + F.map (·.1)) by abel] at hnd
    have hdis := Multiset.disjoint_left.mp (Multiset.nodup_add.mp hnd).2.2 hmem
    rw [Multiset.mem_add, not_or] at hdis
    refine hi h L.header_eq p (fun hin => hdis.1 ?_) (fun hin => hdis.2 ?_)
    · have := hf1 h.nextPage (L.part (Multiset.le_add_right _ _)).2
      rw [← this]
      simpa [ids] using hin
    · rw [← hf2]
      simpa using hin
  have hint : ∀ (root : Header → Nat) (P : Multiset (Nat × Node)), P ≤ PE + PT + PK → At (d.base c) (root h) P → TreeIntact c d' d root := by
    intro root P hle ha h' hh' x hx
    rw [L.header_eq] at hh'
    cases hh'
    have hx' : x ∈ P := by
      rw [← ha h.nextPage (L.part (hle.trans (Multiset.le_add_left _ _))).2]
      exact hx
    exact hread x.1 x.2 (Multiset.mem_of_le hle hx')
  have iE := hint (·.eventsRoot) PE (le_of_eq_add (PT + PK) (by abel)) L.at_events
  have iT := hint (·.tagsRoot) PT (le_of_eq_add (PE + PK) (by abel)) L.at_tags
  refine ⟨fun q st b l => (C89_index he hc hH hd0 hm iE iT q st b l).imp fun _ h => h.1, C89_head he hc hH hd0 hm, fun src => C89_tracking hd0 hm ?_ src⟩
  rcases L.at_track with ⟨e, -⟩ | ha
  · intro h' hh' x hx
    rw [L.header_eq] at hh'
    cases hh'
    simp only [e] at hx
    cases hn : h.nextPage with
    | zero => rw [hn] at hx; simp [listing] at hx
    | succ k =>
      rw [hn] at hx
      simp [listing, PDb.base, PDb.read, Except.toOption] at hx
  · exact hint (·.trackRoot) PK (le_of_eq_add (PE + PT) (by abel)) ha

/-- C89 is about reading: in every database there is a byte in the free list whose change makes every append fail, with an error that
says why, while everything is still read correctly. -/
theorem C89_append (he : EnvOk env) (hc : ConfOk c kw) (hH : ∀ t, Codec.NormalizedTo kw (env.H t)) (hd : Live c hc env.H d s) :
    ∃ p, Shows c env (spoil c p d) s ∧ ∀ req io, req.events ≠ [] →
      Db.append (pageBackend c) env req io (spoil c p d) = (.error (.databaseCorrupted "Free list page load error"), spoil c p d) := by
  have hd0 := hd
  obtain ⟨hp, h, PE, PT, PK, PF, ix, F, L, -⟩ := hd
  have hps : 5 ≤ c.g.pageSize := by have := hc.ps; omega
  obtain ⟨n, hn⟩ : ∃ n, (h.freeRoot, n) ∈ PF := by
    obtain ⟨es, h1, -⟩ := L.free
    rcases h1 with ⟨K, hK, e1, rfl, -, -⟩ | ⟨-, rfl⟩
    · obtain ⟨n, hn, -⟩ := hK.root
      exact ⟨n, by rw [e1]; exact hn⟩
    · exact ⟨_, Multiset.mem_singleton.mpr rfl⟩
  have hr := L.file h.freeRoot n (Multiset.mem_add.mpr (.inl hn))
  rw [← L.width] at hr
  refine ⟨h.freeRoot, C89_free he hc hH hd0 rfl fun h' hh' p hp1 _ => ?_, fun req io hev => ?_⟩
  · rw [L.header_eq] at hh'
    cases hh'
    have hne : p ≠ h.freeRoot := by
      rintro rfl
      apply hp1
      have := (L.at_free.1) h.nextPage (L.part (Multiset.le_add_right _ _)).2
      rw [List.mem_map]
      refine ⟨(h.freeRoot, n), ?_, rfl⟩
      rw [← Multiset.mem_coe, this]
      exact hn
    unfold PDb.read
    split
    · rfl
    · simp only [spoil, if_neg hne]
      split
      · rfl
      · rw [readPage_slot, slot_bump (by omega) hne, ← readPage_slot]
  · have hb : (pageBackend c).begin (spoil c h.freeRoot d) = .error (.databaseCorrupted "Free list page load error") := by
      show PDb.writer c (spoil c h.freeRoot d) = _
      unfold PDb.writer
      have h1 : latestPage (spoil c h.freeRoot d).m.h0 (spoil c h.freeRoot d).m.h1 = .ok hp := L.latest
      have hlim := L.body (p := h.freeRoot) (by rw [ids_add]; exact Multiset.mem_add.mpr (.inl (mem_ids_of hn)))
      have hget : getPage h.freeRoot (newWriter c (spoil c h.freeRoot d) h) = (.error (.pageNotFound h.freeRoot), newWriter c (spoil c h.freeRoot d) h) := by
        unfold getPage
        rw [show (newWriter c (spoil c h.freeRoot d) h).dirty.get h.freeRoot = none from rfl]
        simp only
        rw [show (newWriter c (spoil c h.freeRoot d) h).deser h.freeRoot = none from rfl]
        simp only
        rw [show (newWriter c (spoil c h.freeRoot d) h).base h.freeRoot = none from spoil_read hps hr]
      have hload : loadPage "Free list page load error" h.freeRoot (newWriter c (spoil c h.freeRoot d) h) =
          (.error (.databaseCorrupted "Free list page load error"), newWriter c (spoil c h.freeRoot d) h) := by
        unfold loadPage
        rw [hget]
      have hscan : ∀ (D : Scan (Nat × Nat)) (k : Nat), D.msg = "Free list page load error" →
          D.run (k + 1) [(h.freeRoot, 0)] [] (newWriter c (spoil c h.freeRoot d) h) =
          (.error (.databaseCorrupted "Free list page load error"), newWriter c (spoil c h.freeRoot d) h) := by
        intro D k hm
        rw [Scan.run, hm]
        exact bind_error hload
      have hfind : findReusable (spoil c h.freeRoot d).oldest (newWriter c (spoil c h.freeRoot d) h) =
          (.error (.databaseCorrupted "Free list page load error"), newWriter c (spoil c h.freeRoot d) h) := by
        unfold findReusable
        have hf : 2 * (newWriter c (spoil c h.freeRoot d) h).nextPage = 2 * h.nextPage - 1 + 1 := by
          show 2 * h.nextPage = _
          omega
        show (((freeScan (2 * (newWriter c (spoil c h.freeRoot d) h).nextPage) (spoil c h.freeRoot d).oldest).run
          (2 * (newWriter c (spoil c h.freeRoot d) h).nextPage) [(h.freeRoot, 0)] []) >>= fun l =>
            modW fun w => { w with reusable := Mvcc.optimize l }) (newWriter c (spoil c h.freeRoot d) h) = _
        refine bind_error ?_
        rw [hf]
        exact hscan _ _ rfl
      simp only [h1, bind, Except.bind, asHeader, L.node]
      rw [hfind]
    unfold Db.append
    rw [if_neg hev, hb]

section Examples

/-- Two events with a tag and a tracked position are stored.  The root of the tag index is overwritten on the disk: all events are still read,
the head is known, and so is the tracked position; only queries by tag find nothing (`C56_index_false`). -/
example : ∃ (d : PDb) (h : Header), d.header = .ok h ∧
    (∃ hd, Db.read (pageBackend exConf) exConstEnv (spoil exConf h.tagsRoot d) none none false none =
      .ok (Spec.read exAfter.log ⟨[]⟩ none false none, hd)) ∧
    Db.head (pageBackend exConf) (spoil exConf h.tagsRoot d) = some 2 ∧
    (pageBackend exConf).trackR (spoil exConf h.tagsRoot d) "up" = .ok (some 9) := by
  obtain ⟨d, d', -, -, -, hd'⟩ := exStored
  have hps : 5 ≤ exConf.g.pageSize := by have := exConf_ok.ps; omega
  have he : EnvOk exConstEnv := ⟨fun l => List.Perm.refl l⟩
  have hd0 := hd'
  obtain ⟨hp, h, PE, PT, PK, PF, ix, F, L, -⟩ := hd'
  obtain ⟨n, hn⟩ : ∃ n, (h.tagsRoot, n) ∈ PT := by
    obtain ⟨K, hK, e1, e2, -⟩ := L.trees.tags
    obtain ⟨n, hn, -⟩ := hK.tr.root
    exact ⟨n, by rw [e1, e2]; exact hn⟩
  have hnd := L.nodup
  rw [show ids (PF + (PE + PT + PK)) + F.map (·.1) = ids PT + (ids (PE + PK) + (ids PF + F.map (·.1))) by simp only [ids_add]; abel] at hnd
  have hdis := Multiset.disjoint_left.mp (Multiset.nodup_add.mp hnd).2.2 (mem_ids_of hn)
  simp only [Multiset.mem_add, not_or] at hdis
  have hint : ∀ (root : Header → Nat) (P : Multiset (Nat × Node)), P ≤ PE + PK → (At (d'.base exConf) (root h) P) →
      TreeIntact exConf (spoil exConf h.tagsRoot d') d' root := by
    intro root P hle ha h' hh' x hx
    rw [L.header_eq] at hh'
    cases hh'
    have hle' : P ≤ PF + (PE + PT + PK) := hle.trans (le_of_eq_add (PF + PT) (by abel))
    have hx' : x ∈ P := by rw [← ha h.nextPage (L.part hle').2]; exact hx
    have hne : x.1 ≠ h.tagsRoot := fun e => hdis.1 (e ▸ mem_ids_of (n := x.2) (Multiset.mem_of_le hle hx'))
    have h1 := spoil_other (c := exConf) (d := d') hps hne
    rw [L.sees x.1 x.2 (Multiset.mem_of_le hle' hx')] at h1
    unfold PDb.base at h1
    cases hr : (spoil exConf h.tagsRoot d').read exConf x.1 with
    | error e => rw [hr] at h1; cases h1
    | ok m => rw [hr] at h1; cases h1; rfl
  refine ⟨d', h, L.header_eq, ?_, ?_, ?_⟩
  · obtain ⟨hd, h1, -⟩ := C89_events he exConf_ok exConstEnv_width hd0 (d' := spoil exConf h.tagsRoot d') rfl
      (hint (·.eventsRoot) PE (Multiset.le_add_right _ _) L.at_events) none (.inl rfl) none false none
    exact ⟨hd, h1⟩
  · exact C89_head he exConf_ok exConstEnv_width hd0 rfl
  · refine C89_tracking hd0 (d' := spoil exConf h.tagsRoot d') rfl ?_ "up"
    rcases L.at_track with ⟨e, -⟩ | ha
    · intro h' hh' x hx
      rw [L.header_eq] at hh'
      cases hh'
      simp only [e] at hx
      cases hn : h.nextPage with
      | zero => rw [hn] at hx; simp [listing] at hx
      | succ k =>
        rw [hn] at hx
        simp [listing, PDb.base, PDb.read, Except.toOption] at hx
    · exact hint (·.trackRoot) PK (Multiset.le_add_left _ _) ha

end Examples

end Uma.Props
