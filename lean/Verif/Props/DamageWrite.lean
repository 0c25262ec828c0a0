import Verif.Props.Damage
import Verif.Page.DamageBlind
import Verif.Db.AppendApi

/-!
# Writing to a database with damaged pages: C56
-/

namespace Uma.Props
open Uma.Codec Uma.Mvcc Uma.Spec Uma.Page Uma.Db

variable {c : Conf} {kw : Nat} {d' d : PDb} {s : Spec.Db}

theorem _root_.Uma.Page.Scarred.worn (h : Scarred c d' d) : Worn c d' d := ⟨h.mem, fun _ _ => h.pages⟩

/-- Any number of pages may be damaged, if the file keeps its length. -/
theorem C56_scarred (hps : 0 < c.g.pageSize) (hm : d'.m = d.m) (hca : d'.cache = d.cache) (ho : d'.oldest = d.oldest) (hl : d'.file.len = d.file.len)
    (hk : d'.file.known = d.file.known) (hz' : d'.file.Zeroed) (hz : d.file.Zeroed)
    (hs : ∀ p, 2 ≤ p → slot c d'.file p = slot c d.file p ∨
      (∃ n, readPage c.g d.m.kw p d.file = .ok n) ∧ Hurt (slot c d'.file p) (slot c d.file p)) : Scarred c d' d := by
  refine ⟨hm, hca, ho, hl, hk, hz', hz, fun p hp => ?_⟩
  rcases hs p hp with h | ⟨⟨n, hr⟩, hh⟩
  · refine .inl fun i h1 h2 => ?_
    by_cases hi : i < d.file.len
    · have h3 : (slot c d'.file p)[i - p * c.g.pageSize]? = (slot c d.file p)[i - p * c.g.pageSize]? := by rw [h]
      simp only [slot, File.readAt, List.getElem?_map, hl] at h3
      rw [List.getElem?_range (by omega)] at h3
      simp only [Option.map_some, Option.some.injEq] at h3
      rwa [show p * c.g.pageSize + (i - p * c.g.pageSize) = i by omega] at h3
    · rw [hz i (by omega), hz' i (by omega)]
  · refine .inr ⟨?_, hurt_unreadable hr hh⟩
    rw [readPage_slot] at hr
    split at hr
    · cases hr
    next hlen =>
      simp only [slot, File.readAt, List.length_map, List.length_range] at hlen
      omega

theorem pair_eq {α β : Type} {x : α × β} {a : α} (h : x.1 = a) : x = (a, x.2) := by rw [← h]

theorem lost_fatal {e : Err} (h : Lost e) : Fatal e := by
  rcases h with ⟨p, rfl⟩ | ⟨m, rfl⟩ <;> exact ⟨rfl, rfl, rfl⟩

/-- The damaged database holds `s`, as far as it can be read. -/
def Marred (c : Conf) {kw : Nat} (hc : ConfOk c kw) (H : String → Db.TagHash) (d' : PDb) (s : Spec.Db) : Prop :=
  ∃ d, Scarred c d' d ∧ Live c hc H d s

/-- A damaged database serves the writer, as long as no condition is checked through the tag index. -/
noncomputable def marredWorkable {H : String → Db.TagHash} (hc : ConfOk c kw) (hH : ∀ t, NormalizedTo kw (H t)) :
    Workable (pageBackend c) H (Accepted c.g.pageSize) where
  RepD := Marred c hc H
  Rep w' s0 a := ∃ w, Shadow c w' w ∧ Tx c hc H w s0 a
  Fails := Lost
  fails := lost_fatal
  Asks q := ¬ ByIndex q
  begin := by
    rintro d' s ⟨d, hs, hd⟩
    have hb : ∃ w, (pageBackend c).begin d = .ok w ∧ Tx c hc H w s (Abs.of H s) := by
      rcases (pageLawful hc hH).begin hd with h | ⟨_, _, h⟩
      · exact h
      · exact h.elim
    obtain ⟨w, h1, h2⟩ := hb
    have h1 : d.writer c = .ok w := h1
    show (∃ w, d'.writer c = .ok w ∧ _) ∨ ∃ e, d'.writer c = .error e ∧ _
    rcases hs.writer with ⟨e, -, h⟩ | ⟨w', w2, h3, h4, h5⟩ | h
    · rw [h1] at h; cases h
    · rw [h1] at h4; cases h4
      exact .inl ⟨w', h3, w, h5, h2⟩
    · exact .inr h
  checks := by
    rintro w' s0 s q ⟨w, hs, hw⟩ hq ord hord start limit cn
    rcases readConditional_worse (H := H) (ord := ord) hs.snap (force := false) (.inr hq) start false limit cn with h | h
    · rw [h]
      rcases (pageLawful hc hH).checks (q := q) hw trivial ord hord start limit cn with h | h | ⟨_, _, h⟩
      · exact .inl h
      · exact .inr (.inl h)
      · exact h.elim
    · exact .inr (.inr h)
  nextPos := by
    rintro w' s0 a ⟨w, hs, hw⟩
    have h := (pageLawful hc hH).nextPos hw
    rw [← h]
    show w'.wr.nextPos = w.wr.nextPos
    rw [hs.wr]; rfl
  issue := by
    rintro w' s0 a ⟨w, hs, hw⟩
    obtain ⟨h1, h2⟩ := (pageLawful hc hH).issue hw
    refine ⟨?_, ((pageBackend c).issue w).2, ?_, h2⟩
    · rw [← h1]
      show w'.wr.nextPos = w.wr.nextPos
      rw [hs.wr]; rfl
    · refine ⟨hs.db, hs.hp, ?_, hs.base⟩
      show { w.wr with nextPos := w.wr.nextPos + 1 } = _
      rw [hs.wr]; rfl
  validate := (pageLawful hc hH).validate
  tagInsert := by
    rintro w' s0 a h p hh ⟨w, hs, hw⟩ hp hn
    rcases (pageLawful hc hH).tagInsert h p hh hw hp hn with ⟨w2, h1, h2⟩ | ⟨_, _, _, h⟩
    · have h1 : PW.run (tagsInsert c.bs h p) w = (.ok (), w2) := h1
      rcases hs.run (m := tagsInsert c.bs h p) (fun hb => Tame.tagsInsert hb _ _ _) with ⟨h3, h4⟩ | ⟨e, h3, h4⟩
      · rw [h1] at h3 h4
        exact .inl ⟨_, pair_eq h3, w2, h4, h2⟩
      · exact .inr ⟨e, _, pair_eq h3, h4⟩
    · exact h.elim
  eventAppend := by
    rintro w' s0 a r v p ⟨w, hs, hw⟩ hv hp hn
    rcases (pageLawful hc hH).eventAppend r v p hw hv hp hn with ⟨w2, h1, h2⟩ | ⟨_, _, _, h⟩
    · have h1 : PW.run (evAppend v p) w = (.ok (), w2) := h1
      rcases hs.run (m := evAppend v p) (fun hb => Tame.evAppend hb _ _) with ⟨h3, h4⟩ | ⟨e, h3, h4⟩
      · rw [h1] at h3 h4
        exact .inl ⟨_, pair_eq h3, w2, h4, h2⟩
      · exact .inr ⟨e, _, pair_eq h3, h4⟩
    · exact h.elim
  trackUpsert := by
    rintro w' s0 a src pos ⟨w, hs, hw⟩
    rcases (pageLawful hc hH).trackUpsert src pos hw with h | ⟨_, _, _, h⟩
    · have key : ∀ {x w2}, (pageBackend c).trackUpsert src pos w = (x, w2) →
          (∃ w3, (pageBackend c).trackUpsert src pos w' = (x, w3) ∧ Shadow c w3 w2) ∨
          ∃ e w3, (pageBackend c).trackUpsert src pos w' = (.error e, w3) ∧ Lost e := by
        intro x w2 h1
        have h1 : PW.run (trackUpsert src pos) w = (x, w2) := h1
        rcases hs.run (m := trackUpsert src pos) (fun hb => Tame.trackUpsert hb _ _) with ⟨h3, h4⟩ | ⟨e, h3, h4⟩
        · rw [h1] at h3 h4
          exact .inl ⟨_, pair_eq h3, h4⟩
        · exact .inr ⟨e, _, pair_eq h3, h4⟩
      split at h
      · next hlong =>
        obtain ⟨m, w2, h1, h2⟩ := h
        rcases key h1 with ⟨w3, h3, h4⟩ | h
        · left; rw [if_pos hlong]; exact ⟨m, w3, h3, w2, h4, h2⟩
        · exact .inr h
      · next hlong =>
        split at h
        · next hold =>
          obtain ⟨m, w2, h1, h2⟩ := h
          rcases key h1 with ⟨w3, h3, h4⟩ | h
          · left; rw [if_neg hlong, if_pos hold]; exact ⟨m, w3, h3, w2, h4, h2⟩
          · exact .inr h
        · next hold =>
          obtain ⟨w2, h1, h2⟩ := h
          rcases key h1 with ⟨w3, h3, h4⟩ | h
          · left; rw [if_neg hlong, if_neg hold]; exact ⟨w3, h3, w2, h4, h2⟩
          · exact .inr h
    · exact h.elim
  commit := by
    rintro w' s0 s io ⟨w, hs, hw⟩
    rcases hs.commit io with ⟨h1, h2⟩ | ⟨e, h1, h2, -⟩
    · rcases (pageLawful hc hH).commit (io.for w'.wr.base) hw with ⟨d, h3, h4⟩ | ⟨e, d, h3, h4, h5⟩
      · have h3 : PW.commit c (io.for w'.wr.base) w = (.ok (), d) := h3
        rw [h3] at h1 h2
        exact .inl ⟨_, pair_eq h1, d, h2, h4⟩
      · have h3 : PW.commit c (io.for w'.wr.base) w = (.error e, d) := h3
        rw [h3] at h1 h2
        exact .inr ⟨e, _, pair_eq h1, h4, h5.imp (fun h => ⟨d, h2, h⟩) fun h => ⟨d, h2, h⟩⟩
    · obtain ⟨_, _, _, _, _, _, _, L, S, -⟩ := hw
      refine .inr ⟨e, _, h1, lost_fatal h2, .inl ⟨_, hs.db.again _, _, _, _, _, _, _, _, _, L.recache (fun _ _ h => .inl h) _, ?_⟩⟩
      exact ⟨S.1, S.2, S.3, S.4, S.5, S.6, S.7, S.8⟩

variable {env : Env}

/-- The condition of the request, if any, asks for events whatever their tags: by an item without tags, or without items. -/
def SparesIndex (req : Request) : Prop :=
  ∀ cond ∈ req.condition, cond.failIfEventsMatch.items = [] ∨ ∃ it ∈ cond.failIfEventsMatch.items, it.tags = []

theorem SparesIndex.asks {req : Request} (h : SparesIndex req) : ∀ cond ∈ req.condition, ¬ ByIndex cond.failIfEventsMatch := by
  rintro cond hc ⟨h1, h2⟩
  rcases h cond hc with h | ⟨it, hi, ht⟩
  · exact h1 h
  · exact h2 it hi ht

open Classical in
/-- C56: an append to a damaged database is answered as on the undamaged one, and stored, or fails and then is stored entirely
or not at all; nothing else is lost. -/
theorem C56_append (he : EnvOk env) (hc : ConfOk c kw) (hH : ∀ t, NormalizedTo kw (env.H t)) (hd : Marred c hc env.H d' s)
    {req : Request} (ha : AfterOk req) (hne : req.events ≠ []) (hq : SparesIndex req) (io : IO) :
    (Says (Db.append (pageBackend c) env req io d').1 (Spec.append (Accepted c.g.pageSize) s req).1 ∧
      Marred c hc env.H (Db.append (pageBackend c) env req io d').2 (Spec.append (Accepted c.g.pageSize) s req).2) ∨
    ∃ e, (Db.append (pageBackend c) env req io d').1 = .error e ∧ Fatal e ∧
      (Marred c hc env.H (Db.append (pageBackend c) env req io d').2 s ∨
        Marred c hc env.H (Db.append (pageBackend c) env req io d').2 (Spec.append (Accepted c.g.pageSize) s req).2) :=
  (marredWorkable hc hH).api_append_spec (valid := Accepted c.g.pageSize) he hd ha hne hq.asks io

open Classical in
/-- C56: the writer thread on a damaged database answers every request as `Served` says: correctly, or, for a whole batch, with
a failure; what it answered is stored. -/
theorem C56_thread (he : EnvOk env) (hc : ConfOk c kw) (hH : ∀ t, NormalizedTo kw (env.H t)) (hd : Marred c hc env.H d' s)
    (max : Nat) (vis : Nat → Nat) (io : Nat → IO) (q : List Msg) (ha : AfterOkAll q) (hq : ∀ j ∈ appendJobs q, SparesIndex j.req) :
    ∃ js rest as hs s', appendJobs q = js ++ rest ∧ Served (Accepted c.g.pageSize) s (clientReqs js) as hs s' ∧
      (serve (pageBackend c) env max vis io d' q).answers = as ∧ (serve (pageBackend c) env max vis io d' q).heads = hs ∧
      Marred c hc env.H (serve (pageBackend c) env max vis io d' q).db s' ∧
      ((serve (pageBackend c) env max vis io d' q).panicked = false → NoShutdown q → rest = []) ∧
      ((serve (pageBackend c) env max vis io d' q).panicked = true → ∃ j ∈ rest, MayPanic j) := by
  obtain ⟨js, rest, as, hs, s', h1, h2, h3, h4, h5, h6, h7⟩ :=
    (marredWorkable hc hH).writerThread_spec (valid := Accepted c.g.pageSize) he max vis io q.length 0 q ⟨d', [], [], false⟩ s
      (Nat.le_refl _) hd rfl ha (fun j hj => (hq j hj).asks)
  exact ⟨js, rest, as, hs, s', h1, h2, by simpa [serve] using h3, by simpa [serve] using h4, h5, h6, h7⟩

/-- C56: what is left in a damaged database after appends, batches and failures is read correctly or not at all. -/
theorem C56_read_back (he : EnvOk env) (hc : ConfOk c kw) (hH : ∀ t, NormalizedTo kw (env.H t)) (hd : Marred c hc env.H d' s)
    (query : Option Query) (hq : (query.getD ⟨[]⟩).items = [] ∨ ∃ it ∈ (query.getD ⟨[]⟩).items, it.tags = [])
    (start : Option Nat) (backwards : Bool) (limit : Option Nat) :
    (∃ h, Db.read (pageBackend c) env d' query start backwards limit =
      .ok (Spec.read s.log (query.getD ⟨[]⟩) start backwards limit, h) ∧ (limit = none → h = Spec.head s.log)) ∨
    ∃ e, Db.read (pageBackend c) env d' query start backwards limit = .error e ∧ Lost e := by
  obtain ⟨d, hs, hl⟩ := hd
  exact C56_reads he hc hH hl hs.worn query hq start backwards limit

/-! ## Conditions checked through the tag index -/

/-- Spoiling a page is damage in the sense of `Scarred`, to the database without the page in its cache. -/
theorem spoil_scarred (hps : 5 ≤ c.g.pageSize) {p : Nat} {n : Node} (hr : readPage c.g d.m.kw p d.file = .ok n) (hz : d.file.Zeroed) :
    Scarred c (spoil c p d) { d with cache := fun q => if q = p then none else d.cache q } := by
  have hl : c.g.pageSize ≤ (slot c d.file p).length := by
    rw [readPage_slot] at hr
    split at hr
    · cases hr
    · omega
  refine C56_scarred (by omega) rfl rfl rfl rfl rfl (fun i hi => ?_) hz fun q _ => ?_
  · simp only [spoil, bump] at hi ⊢
    rw [if_neg]
    · exact hz i hi
    · rintro rfl
      simp only [slot, File.readAt, List.length_map, List.length_range] at hl
      omega
  · by_cases hq : q = p
    · subst hq
      exact .inr ⟨⟨n, hr⟩, slot_bump_self (by omega)⟩
    · exact .inl (slot_bump (by omega) hq)

theorem appendValues_untagged (hc : ConfOk c kw) {w' w : PW} {z : List Nat} (hs : Shadow c w' w)
    (hsp : Spare kw c.g.pageSize hc.ps w'.wr z) {req : Request} (ht : ∀ e ∈ req.events, e.tags = []) (htr : req.tracking = none)
    (hck : checkCondition env ((pageBackend c).snap w') req (fun _ => Cancel.never) = none) :
    (processAppend (pageBackend c) env req (fun _ => Cancel.never) w').1 =
      (processAppend (pageBackend c) env { req with condition := none } (fun _ => Cancel.never) w).1 ∧
    Shadow c (processAppend (pageBackend c) env req (fun _ => Cancel.never) w').2
      (processAppend (pageBackend c) env { req with condition := none } (fun _ => Cancel.never) w).2 ∧
    Spare kw c.g.pageSize hc.ps (processAppend (pageBackend c) env req (fun _ => Cancel.never) w').2.wr z := by
  unfold processAppend
  rw [hck]
  simp only [checkCondition]
  cases hv : validateAll (pageBackend c) (req.events.map fun e => ⟨e, req.tracking⟩) with
  | error e => exact ⟨rfl, hs, hsp⟩
  | ok vs =>
    have hvs := validateAll_mem hv
    simp only [applyRequest, htr]
    split
    · exact ⟨rfl, hs, hsp⟩
    · refine appendValues_lock (hc := hc) env.H vs 0 w' w hs hsp (fun x hx => ?_) fun x hx => (hvs x hx).2
      obtain ⟨e, he, h1⟩ := List.mem_map.mp (hvs x hx).1
      rw [← h1]; exact ht e he

/-- C56 fails for conditions that are checked through the tag index: in every database there is a byte whose change makes
every append of events without tags go through as if it had no such condition. -/
theorem C56_condition_false (hc : ConfOk c kw) (hd : Live c hc env.H d s) :
    ∃ p d0, Live c hc env.H d0 s ∧ Scarred c (spoil c p d) d0 ∧ ∀ (req : Request) (cond : Condition) (io : IO),
      req.events ≠ [] → (∀ e ∈ req.events, e.tags = []) → req.tracking = none → req.condition = some cond →
      cond.failIfEventsMatch.items ≠ [] → (∀ it ∈ cond.failIfEventsMatch.items, it.tags ≠ []) →
      ∃ io', io'.fault = io.fault ∧ (Db.append (pageBackend c) env req io (spoil c p d)).1 =
          (Db.append (pageBackend c) env { req with condition := none } io' d0).1 ∧
        Scarred c (Db.append (pageBackend c) env req io (spoil c p d)).2
          (Db.append (pageBackend c) env { req with condition := none } io' d0).2 := by
  obtain ⟨hp, h, PE, PT, PK, PF, ix, F, L, S⟩ := hd
  obtain ⟨n, hn⟩ : ∃ n, (h.tagsRoot, n) ∈ PT := by
    obtain ⟨K, hK, e1, e2, -⟩ := L.trees.tags
    obtain ⟨n, hn, -⟩ := hK.tr.root
    exact ⟨n, by rw [e1, e2]; exact hn⟩
  have hr := L.file h.tagsRoot n (Multiset.mem_add.mpr (.inr (Multiset.mem_add.mpr (.inl (Multiset.mem_add.mpr (.inr hn))))))
  rw [← L.width] at hr
  have hps : 5 ≤ c.g.pageSize := by have := hc.ps; omega
  have hsc := spoil_scarred hps hr L.zeroed
  have L0 : LiveAt c hc env.H { d with cache := fun q => if q = h.tagsRoot then none else d.cache q } hp h PE PT PK PF ix F s := by
    have := L.recache (cache := fun q => if q = h.tagsRoot then none else d.cache q) (fun p m hm => by
      split at hm
      · cases hm
      · exact .inl hm) d.oldest
    exact this
  have S0 : SafeAt c kw { d with cache := fun q => if q = h.tagsRoot then none else d.cache q } hp h (PF + (PE + PT + PK)) :=
    ⟨S.1, S.2, S.3, S.4, S.5, S.6, S.7, S.8⟩
  refine ⟨h.tagsRoot, _, ⟨_, _, _, _, _, _, _, _, L0, S0⟩, hsc, ?_⟩
  generalize hd0 : ({ d with cache := fun q => if q = h.tagsRoot then none else d.cache q } : PDb) = d0 at hsc L0
  intro req cond io hne ht htr hcond hi1 hi2
  -- the transaction on the damaged database
  obtain ⟨PT0, hPT⟩ := Multiset.exists_cons_of_mem hn
  rw [← Multiset.singleton_add] at hPT
  have hmiss := spoil_read (d := d) hps hr
  have hsees : Sees ((spoil c h.tagsRoot d).base c) (PF + (PE + PT0 + PK)) := by
    intro q m hm
    have hm' : (q, m) ∈ PF + (PE + PT + PK) := by
      subst hPT
      simp only [Multiset.mem_add] at hm ⊢
      tauto
    have hne : q ≠ h.tagsRoot := by
      rintro rfl
      have := L.account ▸ bodyIds_nodup h.nextPage
      rw [hPT] at this
      have this := (Multiset.nodup_add.mp this).1
      have hin := mem_ids_of hm
      simp only [ids_add] at this hin
      have e : ids {(h.tagsRoot, n)} = {h.tagsRoot} := rfl
      rw [e, show ids PF + (ids PE + ({h.tagsRoot} + ids PT0) + ids PK) =
        {h.tagsRoot} + (ids PF + (ids PE + ids PT0 + ids PK)) by abel] at this
      exact Multiset.disjoint_left.mp (Multiset.nodup_add.mp this).2.2 (Multiset.mem_singleton_self _) hin
    rw [spoil_other hps hne]
    exact L.sees q m hm'
  obtain ⟨w1, hrun, hsp, hview, hroot⟩ := L.beginBlind hPT hsees hmiss
  have hbegin : (spoil c h.tagsRoot d).writer c = .ok ⟨spoil c h.tagsRoot d, hp, w1⟩ := by
    unfold PDb.writer
    rw [show (spoil c h.tagsRoot d).m = d.m from rfl, L.latest]
    show (asHeader hp.node >>= _) = _
    rw [L.node]
    show (match findReusable d.oldest { newWriter c d h with base := (spoil c h.tagsRoot d).base c } with
      | (.error e, _) => Except.error e
      | (.ok (), w) => .ok (PW.mk (spoil c h.tagsRoot d) hp w)) = _
    rw [hrun]
  obtain ⟨w0, hbegin0, hsh⟩ : ∃ w0, d0.writer c = .ok w0 ∧ Shadow c ⟨spoil c h.tagsRoot d, hp, w1⟩ w0 := by
    rcases hsc.writer with ⟨e, h1, -⟩ | ⟨w', w, h1, h2, h3⟩ | ⟨e, h1, -⟩
    · rw [hbegin] at h1; cases h1
    · rw [hbegin] at h1; cases h1
      exact ⟨w, h2, h3⟩
    · rw [hbegin] at h1; cases h1
  have hck : checkCondition env ((pageBackend c).snap ⟨spoil c h.tagsRoot d, hp, w1⟩) req (fun _ => Cancel.never) = none := by
    unfold checkCondition
    rw [hcond]
    simp only
    rw [readConditional_blind (fun t st b => ?_) ⟨hi1, hi2⟩]
    show tagScan _ _ _ w1.tagsRoot _ _ _ = []
    rw [hroot]
    exact tagScan_blind hview _ _ _ _
  obtain ⟨h1, h2, h3⟩ := appendValues_untagged (env := env) hc hsh hsp ht htr hck
  refine ⟨io.for (processAppend (pageBackend c) env req (fun _ => Cancel.never) ⟨spoil c h.tagsRoot d, hp, w1⟩).2.wr.base, rfl, ?_⟩
  unfold Db.append
  simp only
  rw [if_neg hne, show (pageBackend c).begin (spoil c h.tagsRoot d) = .ok ⟨spoil c h.tagsRoot d, hp, w1⟩ from hbegin,
    show (pageBackend c).begin d0 = .ok w0 from hbegin0, if_neg hne]
  simp only
  generalize processAppend (pageBackend c) env req (fun _ => Cancel.never) ⟨spoil c h.tagsRoot d, hp, w1⟩ = x at h1 h2 h3 ⊢
  generalize processAppend (pageBackend c) env { req with condition := none } (fun _ => Cancel.never) w0 = y at h1 h2 ⊢
  obtain ⟨x1, x2⟩ := x
  obtain ⟨y1, y2⟩ := y
  simp only at h1 h2 h3 ⊢
  subst h1
  cases x1 with
  | error e => exact ⟨rfl, hsc⟩
  | ok p =>
    simp only
    rw [show ∀ i w, (pageBackend c).commit i w = PW.commit c i w from fun _ _ => rfl,
      show ∀ i w, (pageBackend c).commit i w = PW.commit c i w from fun _ _ => rfl]
    rcases h2.commit io with ⟨h4, h5⟩ | ⟨e, -, -, h4⟩
    · generalize PW.commit c io x2 = u at h4 h5 ⊢
      generalize PW.commit c (io.for x2.wr.base) y2 = v at h4 h5 ⊢
      obtain ⟨u1, u2⟩ := u
      obtain ⟨v1, v2⟩ := v
      simp only at h4 h5
      subst h4
      cases u1 with
      | error e => exact ⟨rfl, h5⟩
      | ok _ => exact ⟨rfl, h5⟩
    · obtain ⟨w', h6⟩ := h3.settles io.ordLaw
      rw [h6] at h4; cases h4

open Classical in
/-- C56 fails: such an append is accepted, unless the commit itself fails, however many recorded events violate its condition. -/
theorem C56_violated_false (he : EnvOk env) (hc : ConfOk c kw) (hH : ∀ t, NormalizedTo kw (env.H t)) (hd : Live c hc env.H d s) :
    ∃ p, Marred c hc env.H (spoil c p d) s ∧ ∀ (req : Request) (cond : Condition) (io : IO),
      req.events ≠ [] → (∀ e ∈ req.events, e.tags = [] ∧ Accepted c.g.pageSize ⟨e, none⟩) → req.tracking = none →
      req.condition = some cond → cond.failIfEventsMatch.items ≠ [] → (∀ it ∈ cond.failIfEventsMatch.items, it.tags ≠ []) →
      ((Db.append (pageBackend c) env req io (spoil c p d)).1 = .ok (s.log.length + req.events.length) ∧
        Marred c hc env.H (Db.append (pageBackend c) env req io (spoil c p d)).2 ⟨s.log ++ req.events.map (⟨·, none⟩), s.track⟩) ∨
      ∃ e, (Db.append (pageBackend c) env req io (spoil c p d)).1 = .error e ∧ Fatal e := by
  obtain ⟨p, d0, hl, hsc, hall⟩ := C56_condition_false (env := env) hc hd
  refine ⟨p, ⟨d0, hsc, hl⟩, fun req cond io hne hev htr hcond h1 h2 => ?_⟩
  obtain ⟨io', -, e1, e2⟩ := hall req cond io hne (fun e he => (hev e he).1) htr hcond h1 h2
  have hspec : Spec.append (Accepted c.g.pageSize) s { req with condition := none } =
      (.ok (s.log.length + req.events.length), ⟨s.log ++ req.events.map (⟨·, none⟩), s.track⟩) := by
    have hcase := append_case (valid := Accepted c.g.pageSize) s { req with condition := none }
    generalize Spec.append (Accepted c.g.pageSize) s { req with condition := none } = x at hcase ⊢
    cases hcase with
    | took _ _ _ => simp [recordsOf, effect, htr, hne]
    | repeated c h => cases h
    | conflict c h => cases h
    | invalid _ h =>
      refine absurd (fun r hr => ?_) h
      obtain ⟨e, he, rfl⟩ := List.mem_map.mp hr
      simp only [htr]
      exact (hev e he).2
    | longSource t _ h => rw [htr] at h; cases h
    | notIncreasing t p _ h => rw [htr] at h; cases h
  rw [e1]
  rcases api_append_spec (valid := Accepted c.g.pageSize) he (pageLawful hc hH) (d := d0) (s := s) hl
    (req := { req with condition := none }) (fun c h => by cases h) hne io' with ⟨h3, h4⟩ | ⟨e, h3, h4, -⟩
  · rw [hspec] at h3 h4
    left
    refine ⟨?_, _, e2, h4⟩
    generalize (Db.append (pageBackend c) env { req with condition := none } io' d0).1 = r at h3
    cases r with
    | ok q => rw [show q = _ from h3]
    | error e => cases e <;> simp [Says] at h3
  · exact .inr ⟨e, h3, h4⟩

/-! ## Examples -/

/-- An event without tags, allowed only if nothing with the tag `t` is recorded. -/
def exBlind : Request := ⟨[⟨"U", [1, 2], [], none, []⟩], some ⟨⟨[⟨[], ["t"]⟩]⟩, none⟩, none⟩

/-- Two events with the tag `t` are recorded.  One byte of the file changes, and `exBlind` is stored at position 3. -/
example : ∃ d' : PDb, Marred exConf exConf_ok exConstEnv.H d' exAfter ∧ (∀ cond ∈ exBlind.condition, Conflict exAfter.log cond) ∧
    ∀ io : IO, ((Db.append (pageBackend exConf) exConstEnv exBlind io d').1 = .ok 3 ∧
      Marred exConf exConf_ok exConstEnv.H (Db.append (pageBackend exConf) exConstEnv exBlind io d').2
        ⟨exAfter.log ++ [⟨⟨"U", [1, 2], [], none, []⟩, none⟩], exAfter.track⟩) ∨
      ∃ e, (Db.append (pageBackend exConf) exConstEnv exBlind io d').1 = .error e ∧ Fatal e := by
  obtain ⟨_, d, _, -, -, -, -, -, -, -, -, -, hd, -⟩ := exCommitted
  obtain ⟨p, hm, hall⟩ := C56_violated_false (env := exConstEnv) ⟨fun _ => List.Perm.refl _⟩ exConf_ok exConstEnv_width hd
  refine ⟨_, hm, ?_, fun io => ?_⟩
  · intro cond hc
    have hc : exBlind.condition = some cond := hc
    simp only [exBlind, Option.some.injEq] at hc
    subst hc
    refine ⟨⟨1, exEv 1, some ⟨"up", 9⟩⟩, by decide +kernel, by simp, by decide +kernel⟩
  · refine hall exBlind _ io (by decide) (fun e he => ?_) rfl rfl (by decide) (by decide)
    have he : e = ⟨"U", [1, 2], [], none, []⟩ := List.mem_singleton.mp he
    subst he
    refine ⟨rfl, by decide, ⟨by decide, by decide, by decide⟩, .inl (by decide +kernel)⟩

/-- The same database, and a request whose condition names a type and no tag: the answers of `C56_append` and `C56_thread`
apply, and the right one is a refusal. -/
example : ∃ d' : PDb, Marred exConf exConf_ok exConstEnv.H d' exAfter ∧
    AfterOk ⟨[exEv 3], some ⟨⟨[⟨["T"], []⟩]⟩, some 1⟩, none⟩ ∧ SparesIndex ⟨[exEv 3], some ⟨⟨[⟨["T"], []⟩]⟩, some 1⟩, none⟩ ∧
    Conflict exAfter.log ⟨⟨[⟨["T"], []⟩]⟩, some 1⟩ := by
  obtain ⟨_, d, _, -, -, -, -, -, -, -, -, -, hd, -⟩ := exCommitted
  obtain ⟨p, hm, -⟩ := C56_violated_false (env := exConstEnv) ⟨fun _ => List.Perm.refl _⟩ exConf_ok exConstEnv_width hd
  refine ⟨_, hm, ?_, ?_, ⟨2, exEv 2, some ⟨"up", 9⟩⟩, by decide +kernel, by simp, by decide +kernel⟩
  · rintro cond hc a ha
    cases hc; cases ha; decide
  · rintro cond hc
    cases hc; exact .inr ⟨_, List.mem_singleton_self _, rfl⟩

end Uma.Props
