import Verif.Page.Damage
import Verif.Props.Sizes
import Verif.Props.Codec

/-!
# Damaged pages: C56
-/

namespace Uma.Props
open Uma.Codec Uma.Mvcc Uma.Spec Uma.Page Uma.Db

/-- `d'` is the database `d` with some pages damaged: what can still be read is what was written. -/
structure Worn (c : Conf) (d' d : PDb) : Prop where
  mem : d'.m = d.m
  pages : ∀ p n, d'.read c p = .ok n → d.read c p = .ok n

variable {c : Conf} {kw : Nat} {d' d : PDb} {s : Spec.Db}

theorem Worn.fewer (h : Worn c d' d) : Fewer (d'.base c) (d.base c) := by
  intro p n hp
  unfold PDb.base at hp ⊢
  cases hr : d'.read c p with
  | error e => rw [hr] at hp; cases hp
  | ok m => rw [hr] at hp; cases hp; rw [h.pages p n hr]; rfl

theorem Worn.snap (h : Worn c d' d) : Worse (d'.snap c) (d.snap c) := by
  unfold PDb.snap PDb.header
  rw [h.mem]
  split
  · exact ⟨fun _ _ => .inl rfl, fun _ => .inl rfl, fun _ _ _ => List.prefix_rfl⟩
  · exact snapOf_fewer h.fewer _ _ _ _

theorem Worn.nextPos (h : Worn c d' d) : d'.nextPos = d.nextPos := by
  unfold PDb.nextPos PDb.header; rw [h.mem]

/-- A page of the file: the bytes of its slot. -/
def slot (c : Conf) (f : File) (p : Nat) : Bytes := f.readAt (p * c.g.pageSize) c.g.pageSize

/-- What can have happened to a page: the file is too short for it, up to four adjacent bytes of its body were altered, or
its checksum was. -/
inductive Hurt : Bytes → Bytes → Prop where
  | cut {b b' : Bytes} : b'.length < b.length → Hurt b' b
  | body {a w w' z : Bytes} : w'.length = w.length → w.length ≤ 4 → w' ≠ w → 9 ≤ a.length →
      a.length + w.length ≤ 9 + recordedLength (a ++ w ++ z) → Hurt (a ++ w' ++ z) (a ++ w ++ z)
  | sum {ty : UInt8} {x x' z : Bytes} : x.length = 4 → x'.length = 4 → x' ≠ x → Hurt (ty :: (x' ++ z)) (ty :: (x ++ z))

theorem readPage_slot (f : File) (p : Nat) : readPage c.g kw p f =
    if (slot c f p).length < c.g.pageSize then .error (.io "Page not found") else deserializePage kw (slot c f p) := by
  unfold readPage readPageBytes
  simp only [slot]
  split
  · next h => split at h <;> simp_all
  · next h => split at h <;> simp_all

theorem slot_le (f : File) (p : Nat) : (slot c f p).length ≤ c.g.pageSize := by
  simp only [slot, File.readAt, List.length_map, List.length_range]; exact Nat.min_le_left _ _

/-- Damage of these kinds is noticed when the page is read. -/
theorem hurt_unreadable {f' f : File} {p : Nat} {n : Node} (hr : readPage c.g kw p f = .ok n)
    (h : Hurt (slot c f' p) (slot c f p)) : ∃ e, readPage c.g kw p f' = .error e := by
  rw [readPage_slot] at hr ⊢
  split at hr
  · cases hr
  next hlen =>
  have hlen2 := slot_le (c := c) f p
  generalize hb : slot c f p = b at *
  generalize hb' : slot c f' p = b' at *
  split
  · exact ⟨_, rfl⟩
  next hl' =>
  cases h with
  | cut h => exact absurd h (by omega)
  | body h1 h2 h3 h4 h5 => exact ⟨_, C25_body_window hr h1 h2 h3 h4 h5⟩
  | sum h1 h2 h3 => exact ⟨_, C25_checksum_field hr h1 h2 h3⟩

/-- C56: any number of pages may be damaged in one of these ways. -/
theorem C56_noticed (hm : d'.m = d.m) (hca : d'.cache = d.cache)
    (hs : ∀ p, 2 ≤ p → slot c d'.file p = slot c d.file p ∨
      (∃ n, readPage c.g d.m.kw p d.file = .ok n) ∧ Hurt (slot c d'.file p) (slot c d.file p)) : Worn c d' d := by
  refine ⟨hm, fun p n => ?_⟩
  unfold PDb.read
  split
  · exact fun h => by cases h
  next hp =>
  rw [hca, hm]
  split
  · exact id
  · intro h
    rcases hs p (by omega) with e | ⟨⟨m, hr⟩, hh⟩
    · rw [readPage_slot] at h ⊢; rwa [e] at h
    · obtain ⟨e, he⟩ := hurt_unreadable hr hh
      rw [h] at he; cases he

variable {env : Env}

/-- C56: on a damaged database a read whose query has an item without tags, or no item at all, is answered correctly or not at
all. -/
theorem C56_reads (he : EnvOk env) (hc : ConfOk c kw) (hH : ∀ t, Codec.NormalizedTo kw (env.H t)) (hd : Live c hc env.H d s)
    (hw : Worn c d' d) (query : Option Query) (hq : (query.getD ⟨[]⟩).items = [] ∨ ∃ it ∈ (query.getD ⟨[]⟩).items, it.tags = [])
    (start : Option Nat) (backwards : Bool) (limit : Option Nat) :
    (∃ h, Db.read (pageBackend c) env d' query start backwards limit =
      .ok (Spec.read s.log (query.getD ⟨[]⟩) start backwards limit, h) ∧ (limit = none → h = Spec.head s.log)) ∨
    ∃ e, Db.read (pageBackend c) env d' query start backwards limit = .error e ∧ Lost e := by
  have hb : ¬ ByIndex (query.getD ⟨[]⟩) := by
    rintro ⟨h1, h2⟩
    rcases hq with h | ⟨it, hi, ht⟩
    · exact h1 h
    · exact h2 it hi ht
  obtain ⟨h0, hr⟩ := (shows he hc hH hd).reads query start backwards limit
  unfold Db.read at hr ⊢
  rw [show (pageBackend c).snapR d = d.snap c from rfl] at hr
  rw [show (pageBackend c).snapR d' = d'.snap c from rfl]
  rcases readConditional_worse (H := env.H) (ord := env.ord) hw.snap (force := false) (.inr hb) start backwards limit Cancel.never
    with h | ⟨e, h, hl⟩
  · left
    rw [h]
    split at hr
    · cases hr
    · next evs hev =>
      simp only [Except.ok.injEq, Prod.mk.injEq] at hr
      refine ⟨_, by rw [hr.1], fun hlim => ?_⟩
      subst hlim
      show headOfNext d'.nextPos = _
      rw [hw.nextPos]
      exact (shows he hc hH hd).head
  · rw [h]
    exact .inr ⟨e, rfl, hl⟩

/-- C56: the head is known even so. -/
theorem C56_head (he : EnvOk env) (hc : ConfOk c kw) (hH : ∀ t, Codec.NormalizedTo kw (env.H t)) (hd : Live c hc env.H d s)
    (hw : Worn c d' d) : Db.head (pageBackend c) d' = Spec.head s.log := by
  rw [← (shows he hc hH hd).head]
  show headOfNext d'.nextPos = headOfNext d.nextPos
  rw [hw.nextPos]

/-- C56: tracking positions are answered correctly or not at all. -/
theorem C56_tracking (he : EnvOk env) (hc : ConfOk c kw) (hH : ∀ t, Codec.NormalizedTo kw (env.H t)) (hd : Live c hc env.H d s)
    (hw : Worn c d' d) (src : String) : (pageBackend c).trackR d' src = .ok (s.track src) ∨
      ∃ e, (pageBackend c).trackR d' src = .error e ∧ Lost e := by
  have h := (shows he hc hH hd).track src
  rw [← h]
  show OrLost (d'.track c src) (d.track c src)
  unfold PDb.track PDb.header
  rw [hw.mem]
  split
  · exact .inl rfl
  · exact trackLookup_fewer hw.fewer _ _ _

/-- C56 for queries answered through the tag index: what is returned belongs to the answer and is in the right order, but
events may be missing. -/
theorem C56_index_partial (hc : ConfOk c kw) (hH : ∀ t, Codec.NormalizedTo kw (env.H t)) (hd : Live c hc env.H d s)
    (hw : Worn c d' d) (query : Option Query) (start : Option Nat) (backwards : Bool) (limit : Option Nat)
    (hq : (query.getD ⟨[]⟩).items ≠ [] ∧ ∀ it ∈ (query.getD ⟨[]⟩).items, it.tags ≠ [])
    {evs : List SeqEvent} {h : Option Nat} (hr : Db.read (pageBackend c) env d' query start backwards limit = .ok (evs, h)) :
    evs.Sublist (Spec.read s.log (query.getD ⟨[]⟩) start backwards none) ∧ ∀ n, limit = some n → evs.length ≤ n := by
  unfold Db.read at hr
  split at hr
  · cases hr
  · next l hl =>
    simp only [Except.ok.injEq, Prod.mk.injEq] at hr
    obtain rfl := hr.1
    exact readConditional_sound hw.snap ((pageLawful hc hH).snapR hd) hq hl

/-! ## One byte -/

/-- The file with one byte changed. -/
def bump (f : File) (i : Nat) : File := { f with byte := fun j => if j = i then f.byte j + 1 else f.byte j }

/-- A byte of the checksum of page `p` changes on the disk, and the page is not (or no longer) in the cache. -/
def spoil (c : Conf) (p : Nat) (d : PDb) : PDb :=
  { d with file := bump d.file (p * c.g.pageSize + 1), cache := fun q => if q = p then none else d.cache q }

theorem slot_bump {f : File} {p q : Nat} (hps : 2 ≤ c.g.pageSize) (hne : q ≠ p) :
    slot c (bump f (p * c.g.pageSize + 1)) q = slot c f q := by
  simp only [slot, File.readAt, bump]
  refine List.map_congr_left fun i hi => if_neg fun e => hne ?_
  have hi : i < c.g.pageSize := by have := List.mem_range.mp hi; omega
  have h1 : (q * c.g.pageSize + i) / c.g.pageSize = q := by
    rw [Nat.mul_comm, Nat.mul_add_div (by omega), Nat.div_eq_of_lt hi]; rfl
  have h2 : (p * c.g.pageSize + 1) / c.g.pageSize = p := by
    rw [Nat.mul_comm, Nat.mul_add_div (by omega), Nat.div_eq_of_lt (by omega)]; rfl
  rw [← h1, e, h2]

theorem slot_bump_self {f : File} {p : Nat} (hl : 5 ≤ (slot c f p).length) :
    Hurt (slot c (bump f (p * c.g.pageSize + 1)) p) (slot c f p) := by
  have e : slot c (bump f (p * c.g.pageSize + 1)) p = (slot c f p).set 1 ((slot c f p).getD 1 0 + 1) := by
    apply List.ext_getElem
    · simp [slot, File.readAt, bump]
    · intro i h1 h2
      have h3 : i < (slot c f p).length := by simpa using h2
      rw [List.getElem_set]
      by_cases hi : i = 1
      · subst hi
        rw [if_pos rfl, List.getD_eq_getElem?_getD, List.getElem?_eq_getElem h3]
        simp [slot, File.readAt, bump]
      · rw [if_neg (Ne.symm hi)]
        simp [slot, File.readAt, bump, hi]
  rw [e]
  generalize slot c f p = b at hl
  match b, hl with
  | ty :: x1 :: x2 :: x3 :: x4 :: z, _ =>
    refine Hurt.sum (ty := ty) (x := [x1, x2, x3, x4]) (x' := [x1 + 1, x2, x3, x4]) (z := z) rfl rfl ?_
    intro h
    simp only [List.cons.injEq, and_true] at h
    have := congrArg UInt8.toNat h
    rw [UInt8.toNat_add] at this
    have h1 : (1 : UInt8).toNat = 1 := rfl
    have := x1.toNat_lt
    omega

theorem spoil_read (hps : 5 ≤ c.g.pageSize) {p : Nat} {n : Node} (hr : readPage c.g d.m.kw p d.file = .ok n) :
    (spoil c p d).base c p = none := by
  obtain ⟨e, he⟩ : ∃ e, (spoil c p d).read c p = .error e := by
    unfold PDb.read
    split
    · exact ⟨_, rfl⟩
    · simp only [spoil, if_true]
      have hl : 5 ≤ (slot c d.file p).length := by
        rw [readPage_slot] at hr
        split at hr
        · cases hr
        · omega
      exact hurt_unreadable hr (slot_bump_self hl)
  unfold PDb.base; rw [he]; rfl

theorem spoil_worn (hps : 5 ≤ c.g.pageSize) {p : Nat} {n : Node} (hr : readPage c.g d.m.kw p d.file = .ok n) :
    Worn c (spoil c p d) d := by
  refine ⟨rfl, fun q m h => ?_⟩
  by_cases hq : q = p
  · subst hq
    have := spoil_read hps hr
    unfold PDb.base at this
    rw [h] at this; cases this
  · unfold PDb.read at h ⊢
    split at h
    · cases h
    · next hne =>
      rw [if_neg hne]
      simp only [spoil, if_neg hq] at h
      split at h
      · exact h
      · rw [readPage_slot, slot_bump (by omega) hq, ← readPage_slot] at h; exact h

theorem spoil_other {p q : Nat} (hps : 5 ≤ c.g.pageSize) (hq : q ≠ p) : (spoil c p d).base c q = d.base c q := by
  unfold PDb.base PDb.read
  split
  · rfl
  · simp only [spoil, if_neg hq]
    split
    · rfl
    · rw [readPage_slot, slot_bump (by omega) hq, ← readPage_slot]

/-- C56 fails for queries answered through the tag index: in every database there is a byte whose change makes all of them
find nothing, while the events are still there, as other reads show. -/
theorem C56_index_false (he : EnvOk env) (hc : ConfOk c kw) (hH : ∀ t, Codec.NormalizedTo kw (env.H t))
    (hd : Live c hc env.H d s) : ∃ p, Worn c (spoil c p d) d ∧ ∀ query start backwards limit,
      (((query.getD ⟨[]⟩).items ≠ [] ∧ ∀ it ∈ (query.getD ⟨[]⟩).items, it.tags ≠ []) →
        ∃ h, Db.read (pageBackend c) env (spoil c p d) query start backwards limit = .ok ([], h)) ∧
      (((query.getD ⟨[]⟩).items = [] ∨ ∃ it ∈ (query.getD ⟨[]⟩).items, it.tags = []) →
        ∃ h, Db.read (pageBackend c) env (spoil c p d) query start backwards limit =
          .ok (Spec.read s.log (query.getD ⟨[]⟩) start backwards limit, h)) := by
  have hsh := shows he hc hH hd
  obtain ⟨hp, h, PE, PT, PK, PF, ix, F, L, -⟩ := hd
  obtain ⟨n, hn⟩ : ∃ n, (h.tagsRoot, n) ∈ PT := by
    obtain ⟨K, hK, e1, e2, -⟩ := L.trees.tags
    obtain ⟨n, hn, -⟩ := hK.tr.root
    exact ⟨n, by rw [e1, e2]; exact hn⟩
  have hr := L.file h.tagsRoot n (Multiset.mem_add.mpr (.inr (Multiset.mem_add.mpr (.inl (Multiset.mem_add.mpr (.inr hn))))))
  rw [← L.width] at hr
  have hps : 5 ≤ c.g.pageSize := by have := hc.ps; omega
  have hh : (spoil c h.tagsRoot d).header = .ok h := L.header_eq
  refine ⟨h.tagsRoot, spoil_worn hps hr, fun query start backwards limit => ⟨fun hq => ?_, fun hq => ?_⟩⟩
  · have hb : ∀ t st b, ((spoil c h.tagsRoot d).snap c).tagScan t st b = [] := by
      intro t st b
      unfold PDb.snap
      rw [hh]
      exact tagScan_blind (spoil_read hps hr) _ _ _ _
    unfold Db.read
    rw [show (pageBackend c).snapR (spoil c h.tagsRoot d) = (spoil c h.tagsRoot d).snap c from rfl, readConditional_blind hb hq]
    exact ⟨_, rfl⟩
  · have hb : ¬ ByIndex (query.getD ⟨[]⟩) := by
      rintro ⟨h1, h2⟩
      rcases hq with h | ⟨it, hi, ht⟩
      · exact h1 h
      · exact h2 it hi ht
    have hscan : ((spoil c h.tagsRoot d).snap c).scan = (d.snap c).scan := by
      have hnd := L.nodup
      obtain ⟨K, hK, e1, rfl, hsq⟩ := L.trees.events
      have hsees : Sees ((spoil c h.tagsRoot d).base c) K.pg := by
        intro q m hm
        have hne : q ≠ h.tagsRoot := by
          rintro rfl
          have h1 := mem_ids_of hm
          have h2 := mem_ids_of hn
          have hle : ids K.pg + ids PT ≤ ids (PF + (K.pg + PT + PK)) + F.map (·.1) := by
            simp only [ids_add]
            exact Multiset.le_iff_exists_add.mpr ⟨ids PF + ids PK + F.map (·.1), by abel⟩
          exact Multiset.disjoint_left.mp (Multiset.nodup_add.mp (Multiset.nodup_of_le hle hnd)).2.2 h1 h2
        rw [spoil_other hps hne]
        exact L.sees q m (Multiset.mem_add.mpr (.inr (Multiset.mem_add.mpr (.inl (Multiset.mem_add.mpr (.inl hm))))))
      have hwalk : walkCost K ≤ turns c h.nextPosition h.nextPage := by
        have hlen : (numberFrom 1 s.log).length = s.log.length := by
          have : ∀ (l : Log) n, (numberFrom n l).length = l.length := by
            intro l; induction l with
            | nil => intro n; rfl
            | cons a l ih => intro n; simp [numberFrom, ih]
          exact this _ _
        have hcard := L.card
        have hnext := L.next
        unfold walkCost turns
        rw [hsq.ents, hlen, Nat.mul_add]
        omega
      funext st b
      unfold PDb.snap
      rw [hh, L.header_eq]
      show evScan _ _ _ _ _ = evScan _ _ _ _ _
      rw [e1, evScan_spec hK.tr hsq hsees hwalk st b, evScan_spec hK.tr hsq (L.sees.sub (by
        exact le_of_eq_add (PF + (PT + PK)) (by abel))) hwalk st b]
    obtain ⟨h0, hr0⟩ := hsh.reads query start backwards limit
    unfold Db.read at hr0 ⊢
    rw [show (pageBackend c).snapR (spoil c h.tagsRoot d) = (spoil c h.tagsRoot d).snap c from rfl,
      readConditional_scan hscan hb]
    rw [show (pageBackend c).snapR d = d.snap c from rfl] at hr0
    split at hr0
    · cases hr0
    · simp only [Except.ok.injEq, Prod.mk.injEq] at hr0
      exact ⟨_, by rw [hr0.1]⟩

/-- The errors of `C56_reads` do occur: in every database there is a byte whose change makes all other reads fail. -/
theorem C56_errors (hc : ConfOk c kw) (hd : Live c hc env.H d s) : ∃ p, Worn c (spoil c p d) d ∧
    ∀ query start backwards limit, ((query.getD ⟨[]⟩).items = [] ∨ ∃ it ∈ (query.getD ⟨[]⟩).items, it.tags = []) →
      limit ≠ some 0 → ¬ (backwards = true ∧ start = some 0) →
        Db.read (pageBackend c) env (spoil c p d) query start backwards limit = .error (.pageNotFound p) := by
  obtain ⟨hp, h, PE, PT, PK, PF, ix, F, L, -⟩ := hd
  obtain ⟨n, hn⟩ : ∃ n, (h.eventsRoot, n) ∈ PE := by
    obtain ⟨K, hK, e1, e2, -⟩ := L.trees.events
    obtain ⟨n, hn, -⟩ := hK.tr.root
    exact ⟨n, by rw [e1, e2]; exact hn⟩
  have hr := L.file h.eventsRoot n (Multiset.mem_add.mpr (.inr (Multiset.mem_add.mpr (.inl (Multiset.mem_add.mpr (.inl hn))))))
  rw [← L.width] at hr
  have hps : 5 ≤ c.g.pageSize := by have := hc.ps; omega
  have hh : (spoil c h.eventsRoot d).header = .ok h := L.header_eq
  refine ⟨h.eventsRoot, spoil_worn hps hr, fun query start backwards limit hq hl hs => ?_⟩
  have hb : ¬ ByIndex (query.getD ⟨[]⟩) := by
    rintro ⟨h1, h2⟩
    rcases hq with h | ⟨it, hi, ht⟩
    · exact h1 h
    · exact h2 it hi ht
  have hscan : ((spoil c h.eventsRoot d).snap c).scan start backwards = ([], some (.pageNotFound h.eventsRoot)) := by
    unfold PDb.snap
    rw [hh]
    exact evScan_blind (spoil_read hps hr) (by have := L.next; unfold turns; omega) hs
  unfold Db.read
  rw [show (pageBackend c).snapR (spoil c h.eventsRoot d) = (spoil c h.eventsRoot d).snap c from rfl,
    readConditional_error hb hscan hl]

/-- A byte of the checksum of one page changes on the disk. -/
example : ∃ (d : PDb) (i : Nat), Live exConf exConf_ok exConstEnv.H d exAfter ∧ Worn exConf { d with file := bump d.file i } d := by
  obtain ⟨_, d, _, -, -, -, -, -, -, -, -, -, hd, -⟩ := exCommitted
  obtain ⟨hp, h, PE, PT, PK, PF, ix, F, L, -⟩ := id hd
  obtain ⟨K, hK, e1, rfl, -⟩ := L.trees.events
  obtain ⟨n, hn, -⟩ := hK.tr.root
  have hr := L.file _ n (Multiset.mem_add.mpr (.inr (Multiset.mem_add.mpr (.inl (Multiset.mem_add.mpr (.inl hn))))))
  rw [← L.width] at hr
  refine ⟨d, K.id * exConf.g.pageSize + 1, hd, C56_noticed rfl rfl fun p _ => ?_⟩
  by_cases hp : p = K.id
  · subst hp
    refine .inr ⟨⟨n, hr⟩, slot_bump_self ?_⟩
    rw [readPage_slot] at hr
    split at hr
    · cases hr
    · next h => have : exConf.g.pageSize = 4096 := rfl; omega
  · exact .inl (slot_bump (by decide) hp)

/-- Two events with the tag `t`, one byte changed: the query for `t` finds nothing, and the one for everything both. -/
example : ∃ (d d' : PDb) (h h' : Option Nat), Live exConf exConf_ok exConstEnv.H d exAfter ∧ Worn exConf d' d ∧
    (Spec.read exAfter.log ⟨[⟨[], ["t"]⟩]⟩ none false none).length = 2 ∧
    Db.read (pageBackend exConf) exConstEnv d' (some ⟨[⟨[], ["t"]⟩]⟩) none false none = .ok ([], h) ∧
    Db.read (pageBackend exConf) exConstEnv d' none none false none =
      .ok (Spec.read exAfter.log ⟨[]⟩ none false none, h') := by
  obtain ⟨_, d, _, -, -, -, -, -, -, -, -, -, hd, -⟩ := exCommitted
  obtain ⟨p, hw, hall⟩ := C56_index_false (env := exConstEnv) ⟨fun _ => List.Perm.refl _⟩ exConf_ok exConstEnv_width hd
  obtain ⟨h, h1⟩ := (hall (some ⟨[⟨[], ["t"]⟩]⟩) none false none).1 ⟨by simp, by simp⟩
  obtain ⟨h', h2⟩ := (hall none none false none).2 (.inl rfl)
  exact ⟨d, _, h, h', hd, hw, by decide +kernel, h1, h2⟩

/-- The same database with a byte of the events changed: reading everything is an error. -/
example : ∃ (d d' : PDb) (e : Err), Live exConf exConf_ok exConstEnv.H d exAfter ∧ Worn exConf d' d ∧
    (Spec.read exAfter.log ⟨[]⟩ none false none).length = 2 ∧
    Db.read (pageBackend exConf) exConstEnv d' none none false none = .error e := by
  obtain ⟨_, d, _, -, -, -, -, -, -, -, -, -, hd, -⟩ := exCommitted
  obtain ⟨p, hw, hall⟩ := C56_errors (env := exConstEnv) exConf_ok hd
  exact ⟨d, _, _, hd, hw, by decide +kernel, hall none none false none (.inl rfl) (by simp) (by simp)⟩

end Uma.Props
