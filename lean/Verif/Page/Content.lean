import Verif.Page.Db

/-!
# What the trees of a database hold

`Trees`: events, tags and tracking trees at given roots, with their pages, hold a log, an index and a table.  Reading them
gives what `Verif/Db/ReadProof.lean` asks of a snapshot.
-/

namespace Uma.Page
open Uma.Codec Uma.Mvcc Uma.Spec

variable {κ E : Type}

theorem rpg_card (R : Rights κ E) : (rpg R).card = (R.map fun x => x.2.pg.card).sum := by
  induction R with
  | nil => rfl
  | cons x R ih => simp [ih]

/-- A bound for each leaf bounds the whole tree. -/
theorem Tr.length_le {Y : Layout κ E} {b : Nat} (hb : ∀ k, Y.Leaf k → (ents k.sq).length ≤ b * k.pg.card) {K : Kid κ E}
    (h : Tr Y K) : (ents K.sq).length ≤ b * K.pg.card := by
  induction h with
  | leaf k hk => exact hb k hk
  | node id m R hm hR hf ihm ihR =>
    have hsum : (ents (rsq R)).length ≤ b * (rpg R).card := by
      clear hf hR
      induction R with
      | nil => simp
      | cons x R ih =>
        have h1 := ihR x (by simp)
        have h2 := ih fun y hy => ihR y (by simp [hy])
        simp only [rsq_cons, ents_sep, ents_append, List.length_append, rpg_cons, Multiset.card_add, Nat.mul_add]
        omega
    simp only [nodeKid, lsq_nil, List.nil_append, ents_append, List.length_append, lpg_nil, zero_add, Multiset.card_add,
      Multiset.card_singleton, Nat.mul_add, Nat.mul_one]
    omega

/-- What holds of the entries of every leaf holds of all entries. -/
theorem Tr.ents_all {Y : Layout κ E} {P : E → Prop} (hb : ∀ k, Y.Leaf k → ∀ e ∈ ents k.sq, P e) {K : Kid κ E}
    (h : Tr Y K) : ∀ e ∈ ents K.sq, P e := by
  induction h with
  | leaf k hk => exact hb k hk
  | node id m R hm hR hf ihm ihR =>
    have hsum : ∀ e ∈ ents (rsq R), P e := by
      clear hf hR
      induction R with
      | nil => simp
      | cons x R ih =>
        have h1 := ihR x (by simp)
        have h2 := ih fun y hy => ihR y (by simp [hy])
        intro e he
        simp only [rsq_cons, ents_sep, ents_append, List.mem_append] at he
        exact he.elim (h1 e) (h2 e)
    intro e he
    simp only [nodeKid, lsq_nil, List.nil_append, ents_append, List.mem_append] at he
    exact he.elim (ihm e) (hsum e)

variable {kw ps : Nat} {hps : 1024 ≤ ps} {hkw : kw ≤ 16}

theorem PerRep.length_le {root : Nat} {P : Multiset (Nat × Node)} {l : List Nat} (h : PerRep kw ps hps root P l) :
    l.length ≤ ps * P.card := by
  obtain ⟨K, hK, -, rfl, rfl, -⟩ := h
  refine hK.tr.length_le fun k hk => ?_
  obtain ⟨l, -, e, hl⟩ := hk
  rw [e]
  simp only [perKid, ents_map, Multiset.card_singleton, Nat.mul_one]
  omega

theorem tgLeaf_ok (k : Kid Nat TagEnt) (h : (tgLayout kw ps hps hkw).Leaf k) : ∀ e ∈ ents k.sq, TagOk kw ps hps e := by
  obtain ⟨es, e, h⟩ := h
  rw [e]
  simpa [tgKid] using h.1

theorem tgLeaf_le (k : Kid Nat TagEnt) (h : (tgLayout kw ps hps hkw).Leaf k) : ∀ e ∈ ents k.sq, e.pg ≤ k.pg := by
  obtain ⟨es, e, h⟩ := h
  rw [e]
  intro x hx
  simp only [tgKid, ents_map] at hx ⊢
  obtain ⟨a, b, rfl⟩ := List.append_of_mem hx
  rw [tgPg_append, tgPg_cons]
  exact le_of_eq_add ({(k.id, tgNode (a ++ x :: b))} + tgPg a + tgPg b) (by abel)

theorem TagsRep.length_le {root : Nat} {P : Multiset (Nat × Node)} {idx : Nat → List Nat}
    (h : TagsRep kw ps hps hkw root P idx) (tag : Nat) : (idx tag).length ≤ ps * P.card := by
  obtain ⟨K, hK, -, rfl, -, hidx⟩ := h
  rcases hidx tag with ⟨e, he, -, h2⟩ | ⟨-, h2⟩
  · rw [h2]
    have hle := Multiset.card_le_card (hK.tr.ent_le (pg := TagEnt.pg) tgLeaf_le e he)
    rcases (hK.tr.ents_all tgLeaf_ok e he).2 with ⟨-, -, -, -, h3, -⟩ | ⟨-, h3⟩
    · have : ps * 1 ≤ ps * K.pg.card := Nat.mul_le_mul_left _ hK.tr.card_pos
      omega
    · exact h3.length_le.trans (Nat.mul_le_mul_left _ hle)
  · simp [h2]

/-- The trees of a database. -/
structure Trees (kw ps : Nat) (hps : 1024 ≤ ps) (hkw : kw ≤ 16) (eventsRoot tagsRoot trackRoot : Nat)
    (PE PT PK : Multiset (Nat × Node)) (log : Log) (ix : Nat → List Nat) (track : String → Option Nat) : Prop where
  events : ∃ K, Bt (evLayout kw ps hps) K ∧ eventsRoot = K.id ∧ PE = K.pg ∧ EvSeq K.sq log
  tags : TagsRep kw ps hps hkw tagsRoot PT ix
  track : TrackRep kw ps hps trackRoot PK track

/-- Reading through the trees. -/
theorem Trees.refines {c : Conf} (hc : c.g.pageSize = ps) (hbs : Bs c.bs) {er tr kr : Nat} {PE PT PK : Multiset (Nat × Node)}
    {log : Log} {ix : Nat → List Nat} {track : String → Option Nat} (h : Trees kw ps hps hkw er tr kr PE PT PK log ix track)
    {H : String → Db.TagHash} (hix : ∀ t, ix t = Db.idxOf H log t) {v : Nat → Option Node} (hs : Sees v (PE + PT + PK))
    {nextPage : Nat} (hcard : PE.card + PT.card ≤ nextPage) (hid : ∀ p ∈ ids PT, p ≠ 0) {nextPos : Nat} (hn : log.length ≤ nextPos) :
    Db.Refines H (snapOf c v (turns c nextPos nextPage) er tr) log := by
  obtain ⟨K, hK, rfl, rfl, hq⟩ := h.events
  have hsE : Sees v K.pg := hs.sub (by rw [add_assoc]; exact Multiset.le_add_right _ _)
  have hsT : Sees v PT := hs.sub (le_of_eq_add (K.pg + PK) (by abel))
  have hlen : (numberFrom 1 log).length = log.length := by
    have : ∀ (l : Log) n, (numberFrom n l).length = l.length := by
      intro l; induction l with
      | nil => intro n; rfl
      | cons a l ih => intro n; simp [numberFrom, ih]
    exact this _ _
  have hmul : nextPage * (ps + 2) = nextPage * ps + 2 * nextPage := by rw [Nat.mul_add]; omega
  have hwalk : walkCost K ≤ turns c nextPos nextPage := by
    unfold walkCost turns
    rw [hq.ents, hlen, hc, hmul]
    omega
  have hfT : ∀ tag, (ix tag).length + 2 * PT.card ≤ turns c nextPos nextPage := by
    intro tag
    have h1 := h.tags.length_le tag
    have h2 : ps * PT.card ≤ nextPage * ps := by rw [Nat.mul_comm]; exact Nat.mul_le_mul_right _ (by omega)
    unfold turns
    rw [hc, hmul]
    omega
  refine ⟨fun st b => evScan_spec hK.tr hq hsE hwalk st b, fun p r hp => ?_, fun t st b p => ?_, fun t st b => ?_⟩
  · refine evLookup_spec hK.tr hq.strict hsE ?_ (by rw [hq.ents]; exact hp)
    have hmul2 : nextPage * ps + 2 * nextPage ≤ turns c nextPos nextPage := by unfold turns; rw [hc, hmul]; omega
    omega
  · have := (tagScan_spec hbs h.tags hsT hid t (hfT t) st b).2.2 p
    show p ∈ Page.tagScan _ _ _ _ _ _ _ ↔ _
    rw [this, hix, Db.mem_idxOf]
    constructor
    · rintro ⟨⟨r, h1, h2⟩, h3⟩; exact ⟨r, h1, h3, h2⟩
    · rintro ⟨r, h1, h3, h2⟩; exact ⟨⟨r, h1, h2⟩, h3⟩
  · obtain ⟨h1, h2, -⟩ := tagScan_spec hbs h.tags hsT hid t (hfT t) st b
    show (Page.tagScan _ _ _ _ _ _ _).Pairwise _
    cases b
    · refine (h2.sublist h1).imp fun hab => ?_
      simp only [Db.before]
      simpa using hab
    · simp only [if_true] at h1
      refine ((List.pairwise_reverse.mpr h2).sublist h1).imp fun hab => ?_
      simp only [Db.before]
      simpa using hab

end Uma.Page
